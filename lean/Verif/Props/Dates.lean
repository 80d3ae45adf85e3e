import Verif.Spec.Dates
import Verif.Props.Rename
import Verif.Props.ChainExamples

/-! # Property C112: no date is special -/

namespace Verif
open Spec Chain Reduce

variable {S A : Type}

namespace Dates

theorem ge_iff {T : UInt64 → Prop} {f : UInt64 → UInt64} (hf : KeepsOrder T f) {o : Option UInt64} (ho : ∀ x, o = some x → T x) {t : UInt64}
    (ht : T t) : (∀ e, o.map f = some e → f t ≤ e) ↔ ∀ e, o = some e → t ≤ e := by
  cases o with
  | none => simp
  | some x => simp [hf t x ht (ho x rfl)]

theorem le_iff {T : UInt64 → Prop} {f : UInt64 → UInt64} (hf : KeepsOrder T f) {o : Option UInt64} (ho : ∀ x, o = some x → T x) {t : UInt64}
    (ht : T t) : (∀ e, o.map f = some e → e ≤ f t) ↔ ∀ e, o = some e → e ≤ t := by
  cases o with
  | none => simp
  | some x => simp [hf x t (ho x rfl) ht]

theorem within_iff {T : UInt64 → Prop} {f : UInt64 → UInt64} (hf : KeepsOrder T f) {o p : Option UInt64} (ho : ∀ x, o = some x → T x)
    (hp : ∀ x, p = some x → T x) :
    ((∀ n, o.map f = some n → ∃ m, p.map f = some m ∧ n ≤ m) ↔ ∀ n, o = some n → ∃ m, p = some m ∧ n ≤ m) ∧
    ((∀ n, o.map f = some n → ∃ m, p.map f = some m ∧ m ≤ n) ↔ ∀ n, o = some n → ∃ m, p = some m ∧ m ≤ n) := by
  cases o with
  | none => simp
  | some x =>
    cases p with
    | none => simp
    | some y => simp [hf x y (ho x rfl) (hp y rfl), hf y x (hp y rfl) (ho x rfl)]

theorem delegates_iff {T : UInt64 → Prop} {f : UInt64 → UInt64} (hf : KeepsOrder T f) {u u' v v' : Ucan} (hu : Redated f u u') (hv : Redated f v v')
    (bu : ∀ x, u.payload.nbf = some x ∨ u.payload.exp = some x → T x) (bv : ∀ x, v.payload.nbf = some x ∨ v.payload.exp = some x → T x) :
    Delegates v' u' ↔ Delegates v u := by
  have h1 := (within_iff hf (o := v.payload.nbf) (p := u.payload.nbf) (fun x h => bv x (.inl h)) (fun x h => bu x (.inl h))).1
  have h2 := (within_iff hf (o := v.payload.exp) (p := u.payload.exp) (fun x h => bv x (.inr h)) (fun x h => bu x (.inr h))).2
  rw [← hu.nbf, ← hv.nbf] at h1
  rw [← hu.exp, ← hv.exp] at h2
  constructor
  · exact fun h => ⟨by rw [← hv.aud, ← hu.iss]; exact h.addressed, h1.1 h.begins, h2.1 h.ends⟩
  · exact fun h => ⟨by rw [hv.aud, hu.iss]; exact h.addressed, h1.2 h.begins, h2.2 h.ends⟩

theorem valid_iff {T : UInt64 → Prop} {f : UInt64 → UInt64} (hf : KeepsOrder T f) {u u' : Ucan} (hu : Redated f u u')
    (bu : ∀ x, u.payload.nbf = some x ∨ u.payload.exp = some x → T x) {ctors ctors' : BMap Bytes KeyCtor} (ha : Authentic ctors u)
    (ha' : Authentic ctors' u') {nowTime : Option UInt64} {t : UInt64} (ht : T t) (hn : ∀ n, nowTime = some n → T n) :
    ValidAt (nowTime.map f) ctors' (f t) u' ↔ ValidAt nowTime ctors t u := by
  have e : (nowTime.map f).getD (f t) = f (nowTime.getD t) := by cases nowTime <;> rfl
  have hg : T (nowTime.getD t) := by
    cases nowTime with
    | none => exact ht
    | some n => exact hn n rfl
  have h1 : Unexpired u' (f (nowTime.getD t)) ↔ Unexpired u (nowTime.getD t) := by
    unfold Unexpired; rw [hu.exp]; exact ge_iff hf (fun x h => bu x (.inr h)) hg
  have h2 : Active u' (f t) ↔ Active u t := by
    unfold Active; rw [hu.nbf]; exact le_iff hf (fun x h => bu x (.inl h)) ht
  constructor
  · rintro ⟨_, x, y⟩; rw [e] at x; exact ⟨ha, h1.1 x, h2.1 y⟩
  · rintro ⟨_, x, y⟩; exact ⟨ha', by rw [e]; exact h1.2 x, h2.2 y⟩

theorem redated_ucan {f : UInt64 → UInt64} : ∀ {c c' : Chain}, RedatedChain f c c' → Redated f c.ucan c'.ucan
  | .mk _ _ _, .mk _ _ _, h => by simp only [RedatedChain] at h; exact h.1

variable {D : Deps} {T : UInt64 → Prop} {f : UInt64 → UInt64} {ctors ctors' : BMap Bytes KeyCtor} {F F' : Cid → Bytes → Prop}
  {nowTime : Option UInt64} {t : UInt64}

mutual
theorem sound_iff (hf : KeepsOrder T f) (ht : T t) (hn : ∀ n, nowTime = some n → T n) : ∀ (c c' : Chain), RedatedChain f c c' →
    Assembled D ctors F c → Assembled D ctors' F' c' → (∀ x, Bounds c x → T x) →
    (Sound D (ValidAt (nowTime.map f) ctors' (f t)) F' c' ↔ Sound D (ValidAt nowTime ctors t) F c)
  | .mk u ps r, .mk u' ps' r', hm, ha, ha', hb => by
    simp only [RedatedChain] at hm
    simp only [Assembled] at ha ha'
    simp only [Sound]
    have bu : ∀ x, u.payload.nbf = some x ∨ u.payload.exp = some x → T x := fun x h => hb x ⟨_, .self _, h⟩
    have h1 := valid_iff hf hm.1 bu ha.1 ha'.1 ht hn
    have h2 := soundAll_iff hf ht hn u u' hm.1 bu _ _ ps ps' hm.2.1 ha.2.1 ha'.2.1 (fun c hc x ⟨d, hd, hx⟩ => hb x ⟨d, .proof hc hd, hx⟩)
    exact ⟨fun ⟨x, y, _⟩ => ⟨h1.1 x, h2.1 y, ha.2.2⟩, fun ⟨x, y, _⟩ => ⟨h1.2 x, h2.2 y, ha'.2.2⟩⟩
theorem soundAll_iff (hf : KeepsOrder T f) (ht : T t) (hn : ∀ n, nowTime = some n → T n) (u u' : Ucan) (hu : Redated f u u')
    (bu : ∀ x, u.payload.nbf = some x ∨ u.payload.exp = some x → T x) : ∀ (ss ss' : List String) (cs cs' : List Chain), RedatedChains f cs cs' →
    AssembledAll D ctors F u ss cs → AssembledAll D ctors' F' u' ss' cs' → (∀ c ∈ cs, ∀ x, Bounds c x → T x) →
    (SoundAll D (ValidAt (nowTime.map f) ctors' (f t)) F' u' ss' cs' ↔ SoundAll D (ValidAt nowTime ctors t) F u ss cs)
  | ss, ss', [], [], _, ha, ha', _ => by
    simp only [AssembledAll] at ha ha'
    simp only [SoundAll, ha, ha']
  | ss, ss', [], c' :: cs', hm, _, _, _ => by simp only [RedatedChains] at hm
  | ss, ss', c :: cs, [], hm, _, _, _ => by simp only [RedatedChains] at hm
  | ss, ss', c :: cs, c' :: cs', hm, ha, ha', hb => by
    simp only [RedatedChains] at hm
    simp only [AssembledAll] at ha ha'
    obtain ⟨s, ss, rfl, hr, _, hc, hcs⟩ := ha
    obtain ⟨s', ss', rfl, hr', _, hc', hcs'⟩ := ha'
    have h1 := delegates_iff hf hu (redated_ucan hm.1) bu (fun x h => hb c (by simp) x ⟨c, .self c, h⟩)
    have h2 := sound_iff hf ht hn c c' hm.1 hc hc' (hb c (by simp))
    have h3 := soundAll_iff hf ht hn u u' hu bu ss ss' cs cs' hm.2 hcs hcs' (fun x hx => hb x (by simp [hx]))
    simp only [SoundAll]
    constructor
    · rintro ⟨_, _, e, _, hd, hs, hss⟩
      cases e
      exact ⟨s, ss, rfl, hr, h1.1 hd, h2.1 hs, h3.1 hss⟩
    · rintro ⟨_, _, e, _, hd, hs, hss⟩
      cases e
      exact ⟨s', ss', rfl, hr', h1.2 hd, h2.2 hs, h3.2 hss⟩
end

/-- A report with other dates. -/
def dated (f : UInt64 → UInt64) (i : Info S A) : Info S A := ⟨i.originators, i.notBefore.map f, i.expiresAt.map f, i.capability⟩

theorem dated_through (sem : Semantics S A) (f : UInt64 → UInt64) : Rename.Through sem sem (dated f) := ⟨fun _ _ => rfl, fun _ _ => rfl⟩

theorem gather_dated (sem : Semantics S A) (f : UInt64 → UInt64) (v : View S A) : ∀ (l : List (Info S A)) (acc : BSet String),
    gather sem v acc (l.map (dated f)) = gather sem v acc l
  | [], _ => rfl
  | i :: is, acc => by
    simp only [List.map_cons, gather, dated]
    split <;> exact gather_dated sem f v is _

mutual
theorem reduce_dated (D : Deps) (sem : Semantics S A) (f : UInt64 → UInt64) : ∀ c c' : Chain, RedatedChain f c c' →
    reduce D sem c' = (reduce D sem c).map (List.map (dated f))
  | .mk u proofs redel, .mk u' proofs' redel', h => by
    simp only [RedatedChain] at h
    obtain ⟨hu, hp, rfl⟩ := h
    simp only [reduce]
    rw [reduceAll_dated D sem f proofs proofs' hp]
    unfold combine
    rw [Rename.ancestral_map]
    cases ha : ancestral redel' 0 (reduceAll D sem proofs) with
    | error e => rfl
    | ok anc =>
      rw [Rename.redelegated_map]
      cases hr : redelegated (reduceAll D sem proofs) redel' with
      | error e => rfl
      | ok red =>
        simp only [Except.map]
        rw [← Rename.merge_map (dated_through sem f)]
        congr 2
        rw [List.map_append]
        congr 1
        · simp only [selfInfos, List.map_map, List.length_map, Ucan.capabilities, Ucan.notBefore, Ucan.expiresAt, Ucan.issuer, hu.cap, hu.nbf, hu.exp, hu.iss]
          refine List.map_congr_left fun v _ => ?_
          simp only [Function.comp, dated]
          simp only [originators, gather_dated, Ucan.issuer, hu.iss]
        · simp only [List.map_map]
          refine List.map_congr_left fun i _ => ?_
          simp only [Function.comp, dated, relifetime, Ucan.notBefore, Ucan.expiresAt, hu.nbf, hu.exp]
theorem reduceAll_dated (D : Deps) (sem : Semantics S A) (f : UInt64 → UInt64) : ∀ cs cs' : List Chain, RedatedChains f cs cs' →
    reduceAll D sem cs' = (reduceAll D sem cs).map (Except.map (List.map (dated f)))
  | [], [], _ => rfl
  | [], _ :: _, h => by simp only [RedatedChains] at h
  | _ :: _, [], h => by simp only [RedatedChains] at h
  | c :: cs, c' :: cs', h => by
    simp only [RedatedChains] at h
    simp only [reduceAll, List.map_cons, reduce_dated D sem f c c' h.1, reduceAll_dated D sem f cs cs' h.2]
end

end Dates
open Dates

/-- C112: whether a chain is accepted depends on the order of the instants in it and of the time of validation, on nothing else about them: two chains
that are in order but for the dates, with the dates of one moved in an order-preserving way, are accepted or refused together. -/
theorem C112_order (D : Deps) (E E' : Env) (nowTime : Option UInt64) (t : UInt64) (f : UInt64 → UInt64) (ht : ClockFixed E t)
    (ht' : ClockFixed E' (f t)) (hs : StoreFixed E) (hs' : StoreFixed E') (w w' : World) (hw : Coherent w.parser) (hw' : Coherent w'.parser)
    (token token' : String) (c c' : Chain) (hp : Ucan.fromStr D token = .ok c.ucan) (hp' : Ucan.fromStr D token' = .ok c'.ucan)
    (ha : Assembled D w.parser.ctors (Holds E) c) (ha' : Assembled D w'.parser.ctors (Holds E') c') (hr : RedatedChain f c c')
    (hf : KeepsOrder (fun x => Bounds c x ∨ x = t ∨ nowTime = some x) f) :
    (∃ fuel, (ofToken D E' (nowTime.map f) fuel token' w').1 = .ok c') ↔ ∃ fuel, (ofToken D E nowTime fuel token w).1 = .ok c := by
  rw [C24_complete D E' (nowTime.map f) (f t) ht' hs' token' w' hw' c', C24_complete D E nowTime t ht hs token w hw c, hp, hp']
  have := sound_iff (nowTime := nowTime) hf (.inr (.inl rfl)) (fun n h => .inr (.inr h)) c c' hr ha ha' (fun x h => .inl h)
  exact ⟨fun h => ⟨rfl, this.1 h.2⟩, fun h => ⟨rfl, this.2 h.2⟩⟩

/-- C112: in particular everything can be moved by the same number of seconds, as far as the numbers go: what is accepted today is accepted, at
the corresponding moment, in any other century, and what is refused is refused. -/
theorem C112_shift (D : Deps) (E E' : Env) (t d : UInt64) (ht : ClockFixed E t)
    (ht' : ClockFixed E' (t + d)) (hs : StoreFixed E) (hs' : StoreFixed E') (w w' : World) (hw : Coherent w.parser) (hw' : Coherent w'.parser)
    (token token' : String) (c c' : Chain) (hp : Ucan.fromStr D token = .ok c.ucan) (hp' : Ucan.fromStr D token' = .ok c'.ucan)
    (ha : Assembled D w.parser.ctors (Holds E) c) (ha' : Assembled D w'.parser.ctors (Holds E') c') (hr : RedatedChain (· + d) c c')
    (hb : ∀ x, Bounds c x ∨ x = t → x.toNat + d.toNat < 2 ^ 64) :
    (∃ fuel, (ofToken D E' none fuel token' w').1 = .ok c') ↔ ∃ fuel, (ofToken D E none fuel token w).1 = .ok c := by
  refine C112_order D E E' none t (· + d) ht ht' hs hs' w w' hw hw' token token' c c' hp hp' ha ha' hr ?_
  intro a b h1 h2
  have h1 := hb a (by simpa using h1)
  have h2 := hb b (by simpa using h2)
  simp only [UInt64.le_iff_toNat_le, UInt64.toNat_add]
  rw [Nat.mod_eq_of_lt h1, Nat.mod_eq_of_lt h2]
  omega

/-- C112: and the reports are the same with the dates moved, in whatever way they are moved. -/
theorem C112_reports (D : Deps) (sem : Semantics S A) (f : UInt64 → UInt64) (c c' : Chain) (hr : RedatedChain f c c') (out : List (Info S A))
    (h : reduce D sem c = .ok out) :
    reduce D sem c' = .ok (out.map fun i => ⟨i.originators, i.notBefore.map f, i.expiresAt.map f, i.capability⟩) := by
  rw [reduce_dated D sem f c c' hr, h]
  rfl

namespace Ex

/-- Some 34,000 years. -/
def later : UInt64 := 0x10000000000

/-- The example grant and redelegation of `ChainExamples`, that much later. -/
def leafLater (D : Deps) : Ucan := ucan D 1 (did 2) (some (20 + later)) (some (5 + later)) none (caps "mailto:a@b" "msg/send")
def rootLater (D : Deps) : Ucan :=
  ucan D 2 (did 3) (some (10 + later)) (some (6 + later)) (some [(cid 1).toStr]) (caps ("prf:" ++ asciiStr (Json.decBytes 0)) "ucan/DELEGATE")
def dagsLater (D : Deps) : Store.Dags := fun c => if c = cid 1 then some (strBytes ((leafLater D).encode D)) else none
def chainLater (D : Deps) : Chain := .mk (rootLater D) [.mk (leafLater D) [] []] [0]

theorem redatedLater (D : Deps) : RedatedChain (· + later) (chain D) (chainLater D) := by
  unfold chain chainLater leafChain
  simp only [RedatedChain, RedatedChains]
  exact ⟨⟨rfl, rfl, rfl, rfl, rfl⟩, ⟨⟨⟨rfl, rfl, rfl, rfl, rfl⟩, trivial, trivial⟩, trivial⟩, trivial⟩

theorem leaf_redelOk (D : Deps) (u : Ucan) (h : u.payload.cap = (leaf D).payload.cap) : RedelOk D u 0 [] := by
  refine ⟨by simp [BSet.Sorted], fun i => ?_, by simp⟩
  rw [h]
  exact ⟨fun h => (by cases h), fun h => absurd h (leaf_no_redel D i)⟩

theorem root_redelOk (D : Deps) (u : Ucan) (h : u.payload.cap = (root D).payload.cap) : RedelOk D u 1 [0] := by
  refine ⟨by simp [BSet.Sorted], fun i => ?_, by simp⟩
  rw [h, root_redel]
  simp

theorem assembled (D : Deps) : Assembled D exCtors (Holds (env D)) (chain D) := by
  unfold chain leafChain
  simp only [Assembled, AssembledAll]
  exact ⟨authentic D 2 _ _ _ _ _, ⟨_, [], rfl, leaf_resolves D, rfl, ⟨authentic D 1 _ _ _ _ _, rfl, leaf_redelOk D _ rfl⟩, rfl⟩, root_redelOk D _ rfl⟩

theorem assembledLater (D : Deps) : Assembled D exCtors (Holds (still (dagsLater D) (7 + later))) (chainLater D) := by
  unfold chainLater
  simp only [Assembled, AssembledAll]
  refine ⟨authentic D 2 _ _ _ _ _, ⟨_, [], rfl, ?_, rfl, ⟨authentic D 1 _ _ _ _ _, rfl, leaf_redelOk D _ rfl⟩, rfl⟩, root_redelOk D _ rfl⟩
  refine ⟨cid 1, (leafLater D).encode D, cid_parse D 1, rfl, ?_, parses D 1 (did 2) _ _ _ _ _⟩
  exact memRead_bytes.2 (by show (if cid 1 = cid 1 then _ else _) = _; rw [if_pos rfl])

theorem bounds_small (D : Deps) (x : UInt64) (h : Bounds (chain D) x) : x ≤ 20 := by
  obtain ⟨d, hd, hx⟩ := h
  have hr : ∀ x, (root D).payload.nbf = some x ∨ (root D).payload.exp = some x → x ≤ 20 := by
    rintro x (h | h) <;> cases h <;> decide
  have hl : ∀ x, (leaf D).payload.nbf = some x ∨ (leaf D).payload.exp = some x → x ≤ 20 := by
    rintro x (h | h) <;> cases h <;> decide
  cases hd with
  | self => exact hr x hx
  | proof he hs =>
    cases List.mem_singleton.1 he
    cases hs with
    | self => exact hl x hx
    | proof he _ => cases he

/-- Beside C112: the example is accepted at the corresponding moment. -/
theorem acceptedLater (D : Deps) : ∃ fuel, (ofToken D (still (dagsLater D) (7 + later)) none fuel ((rootLater D).encode D) world).1 = .ok (chainLater D) := by
  refine (C112_shift D (env D) _ 7 later (fun _ => rfl) (fun _ => rfl) (fun _ _ _ => rfl) (fun _ _ _ => rfl) world world world_coherent world_coherent
    _ _ (chain D) (chainLater D) (parses D 2 _ _ _ _ _ _) (parses D 2 _ _ _ _ _ _) (assembled D) (assembledLater D) (redatedLater D) ?_).2 ?_
  · intro x hx
    have hx : x ≤ 20 := by
      rcases hx with hx | rfl
      · exact bounds_small D x hx
      · decide
    have : x.toNat ≤ 20 := hx
    have : later.toNat = 0x10000000000 := rfl
    omega
  · obtain ⟨fuel, w', h⟩ := built D
    exact ⟨fuel, congrArg Prod.fst h⟩

end Ex

end Verif
