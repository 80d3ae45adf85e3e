import Verif.Spec.Withdraw
import Verif.Props.ChainExamples

/-! # C110 Withdrawing a stored token; C111 Supporting more kinds of keys -/

namespace Verif
open Spec Chain

namespace Withdraw

mutual
/-- Narrowing what is valid and what the store holds by conditions on tokens and references narrows the sound chains by the same conditions
everywhere in them. -/
theorem sound_iff {D : Deps} {V V' : Ucan → Prop} {F F' : Cid → Bytes → Prop} {P : Ucan → Prop} {Q : String → Prop}
    (hV : ∀ u, V' u ↔ V u ∧ P u) (hF : ∀ s v, Resolves D F' s v ↔ Resolves D F s v ∧ Q s) :
    ∀ c : Chain, Sound D V' F' c ↔ Sound D V F c ∧ ∀ d, Sub d c → P d.ucan ∧ ∀ s ∈ d.ucan.payload.prf.getD [], Q s
  | .mk u proofs redel => by
    simp only [Sound]
    rw [hV, sound_all_iff hV hF u _ proofs]
    constructor
    · rintro ⟨⟨h1, h2⟩, ⟨h3, h4, h5⟩, h6⟩
      refine ⟨⟨h1, h3, h6⟩, fun d hd => ?_⟩
      cases hd with
      | self => exact ⟨h2, h4⟩
      | proof he hs => exact h5 _ he d hs
    · rintro ⟨⟨h1, h3, h6⟩, h⟩
      exact ⟨⟨h1, (h _ (.self _)).1⟩, ⟨h3, (h _ (.self _)).2, fun e he d hd => h d (.proof he hd)⟩, h6⟩
theorem sound_all_iff {D : Deps} {V V' : Ucan → Prop} {F F' : Cid → Bytes → Prop} {P : Ucan → Prop} {Q : String → Prop}
    (hV : ∀ u, V' u ↔ V u ∧ P u) (hF : ∀ s v, Resolves D F' s v ↔ Resolves D F s v ∧ Q s) (u : Ucan) :
    ∀ (ss : List String) (cs : List Chain), SoundAll D V' F' u ss cs ↔
      SoundAll D V F u ss cs ∧ (∀ s ∈ ss, Q s) ∧ ∀ c ∈ cs, ∀ d, Sub d c → P d.ucan ∧ ∀ s ∈ d.ucan.payload.prf.getD [], Q s
  | ss, [] => by
    simp only [SoundAll]
    constructor
    · rintro rfl; simp
    · exact fun h => h.1
  | ss, c :: cs => by
    simp only [SoundAll]
    constructor
    · rintro ⟨s, ss', rfl, hr, hd, hs, ha⟩
      obtain ⟨hr, hq⟩ := (hF _ _).1 hr
      obtain ⟨hs, hs'⟩ := (sound_iff hV hF c).1 hs
      obtain ⟨ha, ha1, ha2⟩ := (sound_all_iff hV hF u ss' cs).1 ha
      refine ⟨⟨s, ss', rfl, hr, hd, hs, ha⟩, ?_, ?_⟩
      · intro x hx
        rcases List.mem_cons.1 hx with rfl | hx
        · exact hq
        · exact ha1 x hx
      · intro x hx
        rcases List.mem_cons.1 hx with rfl | hx
        · exact hs'
        · exact ha2 x hx
    · rintro ⟨⟨s, ss', rfl, hr, hd, hs, ha⟩, h1, h2⟩
      refine ⟨s, ss', rfl, (hF _ _).2 ⟨hr, h1 s (by simp)⟩, hd, (sound_iff hV hF c).2 ⟨hs, h2 c (by simp)⟩, ?_⟩
      exact (sound_all_iff hV hF u ss' cs).2 ⟨ha, fun x hx => h1 x (by simp [hx]), fun x hx => h2 x (by simp [hx])⟩
end

theorem resolves_without {D : Deps} {m : Cid → Option Bytes} {cid : Cid} {t : UInt64} (s : String) (v : Ucan) :
    Resolves D (Holds (still (without m cid) t)) s v ↔ Resolves D (Holds (still m t)) s v ∧ Cid.parse D s ≠ some cid := by
  have hh : ∀ x b, Holds (still (without m cid) t) x b ↔ Holds (still m t) x b ∧ x ≠ cid := by
    intro x b
    show Store.memRead _ x = _ ↔ Store.memRead _ x = _ ∧ _
    rw [memRead_bytes, memRead_bytes]
    unfold without
    split
    · rename_i h; simp [h]
    · rename_i h; simp [h]
  constructor
  · rintro ⟨x, tok, h1, h2, h3, h4⟩
    obtain ⟨h3, hne⟩ := (hh _ _).1 h3
    refine ⟨⟨x, tok, h1, h2, h3, h4⟩, fun h => ?_⟩
    rw [h1] at h; cases h; exact hne rfl
  · rintro ⟨⟨x, tok, h1, h2, h3, h4⟩, hne⟩
    exact ⟨x, tok, h1, h2, (hh _ _).2 ⟨h3, fun h => hne (h ▸ h1)⟩, h4⟩

end Withdraw
open Withdraw

/-- C110: withdrawing a token from the store revokes exactly the chains that refer to it, at whatever depth; the others are accepted as before. -/
theorem C110_withdraw (D : Deps) (m : Store.Dags) (cid : Cid) (nowTime : Option UInt64) (t : UInt64) (token : String) (w : World)
    (hc : Coherent w.parser) (c : Chain) :
    (∃ fuel, (ofToken D (still (without m cid) t) nowTime fuel token w).1 = .ok c) ↔
      (∃ fuel, (ofToken D (still m t) nowTime fuel token w).1 = .ok c) ∧ ¬ RefersTo D c cid := by
  rw [C24_complete D (still (without m cid) t) nowTime t (fun _ => rfl) (fun _ _ _ => rfl) token w hc c,
    C24_complete D (still m t) nowTime t (fun _ => rfl) (fun _ _ _ => rfl) token w hc c,
    sound_iff (V := ValidAt nowTime w.parser.ctors t) (P := fun _ => True) (fun u => (and_iff_left trivial).symm) (resolves_without (m := m) (cid := cid) (t := t)), and_assoc]
  refine and_congr Iff.rfl (and_congr Iff.rfl ?_)
  constructor
  · rintro h ⟨d, hd, s, hs, e⟩
    exact (h d hd).2 s hs e
  · exact fun h d hd => ⟨trivial, fun s hs e => h ⟨d, hd, s, hs, e⟩⟩

/-- C110: this takes effect at once. Whatever else the store and the clock do, no chain that is begun after the withdrawal refers to the token. -/
theorem C110_at_once {D : Deps} {E : Env} {nowTime : Option UInt64} {w w' : World} {c : Chain} (hc : Coherent w.parser)
    (h : Built D E nowTime w w' c) (cid : Cid) (hgone : ∀ i b, w.tick ≤ i → E.read i cid ≠ .ok (some (.bytes b))) : ¬ RefersTo D c cid := by
  have hs := Chain.built_sound hc h
  rintro ⟨d, hd, s, hm, e⟩
  have hsd := (Sound.sub hd hs)
  have := (sound_iff (V := ValidIn E nowTime w.parser.ctors w.tick w'.tick) (F := ReadIn E w.tick w'.tick) (P := fun _ => True)
    (Q := fun s => Cid.parse D s ≠ some cid) (fun u => (and_iff_left trivial).symm) (fun s v => ⟨fun hr => ⟨hr, ?_⟩, And.left⟩) d).1 hsd
  · exact (this.2 d (.self d)).2 s hm e
  · obtain ⟨x, tok, h1, _, ⟨i, hi, _, hr⟩, _⟩ := hr
    intro h
    rw [h1] at h; cases h
    exact hgone i _ hi hr

/-- Beside C110: the example chain refers to the CID of its proof, so withdrawing it matters; and not to another. -/
example (D : Deps) : RefersTo D (.mk (Ex.ucan D 2 "x" none none (some [(Ex.cid 1).toStr]) []) [] []) (Ex.cid 1) ∧
    ¬ RefersTo D (.mk (Ex.ucan D 2 "x" none none (some [(Ex.cid 1).toStr]) []) [] []) (Ex.cid 2) := by
  constructor
  · exact ⟨_, .self _, _, List.mem_singleton.2 rfl, Ex.cid_parse D 1⟩
  · rintro ⟨d, hd, s, hs, e⟩
    cases hd with
    | self =>
      cases List.mem_singleton.1 hs
      rw [Ex.cid_parse] at e
      cases e
    | proof he => cases he

/-! ## C111 -/

namespace Withdraw

theorem authentic_iff {ctors ctors' : BMap Bytes KeyCtor} (h : KindsWithin ctors ctors') (u : Ucan) :
    Authentic ctors u ↔ Authentic ctors' u ∧ KindKnown ctors u.payload.iss := by
  constructor
  · rintro ⟨key, ⟨b0, b1, r, c, h1, h2, h3⟩, hv⟩
    exact ⟨⟨key, ⟨b0, b1, r, c, h1, h _ _ h2, h3⟩, hv⟩, b0, b1, r, c, h1, h2⟩
  · rintro ⟨⟨key, ⟨b0, b1, r, c, h1, h2, h3⟩, hv⟩, b0', b1', r', c', h1', h2'⟩
    have e := h1.symm.trans h1'
    have e := congrArg Base58.decode (List.append_cancel_left e)
    rw [Base58.decode_encode, Base58.decode_encode] at e
    cases e
    rw [h _ _ h2'] at h2
    cases h2
    exact ⟨key, ⟨b0, b1, r, c, h1, h2', h3⟩, hv⟩

/-- Two worlds at the same tick, the second with more kinds of keys. -/
structure Richer (w w' : World) : Prop where
  tick : w.tick = w'.tick
  left : Coherent w.parser
  right : Coherent w'.parser
  kinds : KindsWithin w.parser.ctors w'.parser.ctors

/-- What succeeds in the one succeeds in the other. -/
def Follows {α : Type} (x y : M α) : Prop := ∀ w v, Richer w v → ∀ a w', x w = (.ok a, w') → ∃ v', y v = (.ok a, v') ∧ Richer w' v'

theorem Follows.bind {α β : Type} {x y : M α} {f g : α → M β} (hx : Follows x y) (hf : ∀ a, Follows (f a) (g a)) : Follows (x >>= f) (y >>= g) := by
  intro w v hr b w' h
  obtain ⟨a, w1, h1, h2⟩ := M.bind_ok.1 h
  obtain ⟨v1, h3, hr1⟩ := hx w v hr a w1 h1
  obtain ⟨v', h4, hr'⟩ := hf a w1 v1 hr1 b w' h2
  exact ⟨v', M.bind_ok.2 ⟨a, v1, h3, h4⟩, hr'⟩

theorem Follows.lift {α : Type} (r : Res α) : Follows (M.lift r) (M.lift r) := by
  intro w v hr a w' h
  rw [M.lift_apply] at h
  cases h
  exact ⟨v, rfl, hr⟩

theorem Follows.pure {α : Type} (a : α) : Follows (Pure.pure a : M α) (Pure.pure a) := Follows.lift (.ok a)

theorem follows_now (E : Env) : Follows E.now E.now := by
  intro w v hr a w' h
  cases h
  exact ⟨{ v with tick := v.tick + 1 }, by rw [hr.tick]; rfl, ⟨congrArg (· + 1) hr.tick, hr.left, hr.right, hr.kinds⟩⟩

theorem follows_token (E : Env) (c : Cid) : Follows (Store.requireToken E c) (Store.requireToken E c) := by
  intro w v hr a w' h
  obtain ⟨hcd, hrd, rfl⟩ := requireToken_ok h
  exact ⟨_, requireToken_of_read hcd (hr.tick ▸ hrd), ⟨by rw [hr.tick], hr.left, hr.right, hr.kinds⟩⟩

theorem follows_did (did : String) : Follows (parseDid did) (parseDid did) := by
  intro w v hr key w' h
  have h1 : (w.parser.parse did).1 = .ok key := congrArg Prod.fst h
  have h2 : w' = { w with parser := (w.parser.parse did).2 } := (congrArg Prod.snd h).symm
  obtain ⟨b0, b1, r, c, e1, e2, e3⟩ := (DidParser.parse_ok_iff hr.left did key).1 h1
  have h3 := (DidParser.parse_ok_iff hr.right did key).2 ⟨b0, b1, r, c, e1, hr.kinds _ _ e2, e3⟩
  subst h2
  refine ⟨{ v with parser := (v.parser.parse did).2 }, Prod.ext h3 rfl, hr.tick, DidParser.parse_coherent hr.left did,
    DidParser.parse_coherent hr.right did, ?_⟩
  intro m c hm
  show BMap.get? (v.parser.parse did).2.ctors m = _
  rw [DidParser.parse_ctors]
  refine hr.kinds _ _ ?_
  rw [← DidParser.parse_ctors w.parser did]
  exact hm

theorem follows_validate (E : Env) (u : Ucan) (nowTime : Option UInt64) : Follows (u.validate E nowTime) (u.validate E nowTime) := by
  unfold Ucan.validate
  refine .bind ?_ fun b => ?_
  · unfold Ucan.isExpired
    cases u.payload.exp with
    | none => exact .pure _
    | some e =>
      cases nowTime with
      | some t => exact .pure _
      | none => exact .bind (follows_now E) fun a => .pure _
  · split
    · exact .lift _
    · refine .bind ?_ fun b => ?_
      · unfold Ucan.isTooEarly
        cases u.payload.nbf with
        | none => exact .pure _
        | some n => exact .bind (follows_now E) fun a => .pure _
      · split
        · exact .lift _
        · exact .bind (follows_did _) fun k => .lift _

theorem follows_loop (D : Deps) (E : Env) {rec rec' : String → M Chain} (hrec : ∀ t, Follows (rec t) (rec' t)) (u : Ucan) (ss : List String) :
    Follows (proofsLoop D E rec u ss) (proofsLoop D E rec' u ss) := by
  induction ss with
  | nil => exact .pure _
  | cons s ss ih =>
    unfold proofsLoop
    exact .bind (.lift _) fun c => .bind (follows_token E c) fun t => .bind (hrec t) fun c => .bind (.lift _) fun _ => .bind ih fun cs => .pure _

theorem follows_ucan (D : Deps) (E : Env) (nowTime : Option UInt64) {rec rec' : String → M Chain} (hrec : ∀ t, Follows (rec t) (rec' t)) (u : Ucan) :
    Follows (fromUcanWith D E nowTime rec u) (fromUcanWith D E nowTime rec' u) :=
  .bind (follows_validate E u nowTime) fun _ => .bind (follows_loop D E hrec u _) fun _ => .bind (.lift _) fun _ => .pure _

theorem follows_ofToken (D : Deps) (E : Env) (nowTime : Option UInt64) (fuel : Nat) :
    ∀ t, Follows (ofToken D E nowTime fuel t) (ofToken D E nowTime fuel t) := by
  induction fuel with
  | zero => intro t; exact .lift _
  | succ fuel ih => intro t; exact .bind (.lift _) fun u => follows_ucan D E nowTime ih u

end Withdraw

/-- C111: with more kinds of keys everything is accepted that was accepted before, with the same chain, whatever clock and store do meanwhile. -/
theorem C111_more (D : Deps) (E : Env) (nowTime : Option UInt64) (fuel : Nat) (w v : World) (ht : w.tick = v.tick) (hw : Coherent w.parser)
    (hv : Coherent v.parser) (hk : KindsWithin w.parser.ctors v.parser.ctors) (c : Chain) :
    (∀ u, (fromUcan D E nowTime fuel u w).1 = .ok c → (fromUcan D E nowTime fuel u v).1 = .ok c) ∧
    (∀ t, (ofToken D E nowTime fuel t w).1 = .ok c → (ofToken D E nowTime fuel t v).1 = .ok c) ∧
    ∀ cid, (fromCid D E nowTime fuel cid w).1 = .ok c → (fromCid D E nowTime fuel cid v).1 = .ok c := by
  have key : ∀ {x : M Chain}, Follows x x → (x w).1 = .ok c → (x v).1 = .ok c := by
    intro x hx h
    obtain ⟨v', h', _⟩ := hx w v ⟨ht, hw, hv, hk⟩ c _ (Prod.ext h rfl)
    rw [h']
  exact ⟨fun u => key (follows_ucan D E nowTime (follows_ofToken D E nowTime fuel) u), fun t => key (follows_ofToken D E nowTime fuel t),
    fun cid => key (.bind (follows_token E cid) (follows_ofToken D E nowTime fuel))⟩

/-- C111: and the chains that are accepted with the smaller set are those of the larger in which every issuer is of a kind in it. -/
theorem C111_exactly (D : Deps) (E : Env) (nowTime : Option UInt64) (t : UInt64) (ht : ClockFixed E t) (hs : StoreFixed E) (token : String)
    (w v : World) (hw : Coherent w.parser) (hv : Coherent v.parser) (hk : KindsWithin w.parser.ctors v.parser.ctors) (c : Chain) :
    (∃ fuel, (ofToken D E nowTime fuel token w).1 = .ok c) ↔
      (∃ fuel, (ofToken D E nowTime fuel token v).1 = .ok c) ∧ ∀ d, Sub d c → KindKnown w.parser.ctors d.ucan.payload.iss := by
  rw [C24_complete D E nowTime t ht hs token w hw c, C24_complete D E nowTime t ht hs token v hv c,
    sound_iff (V := ValidAt nowTime v.parser.ctors t) (F := Holds E) (P := fun u => KindKnown w.parser.ctors u.payload.iss) (Q := fun _ => True)
      (fun u => ?_) (fun s x => (and_iff_left trivial).symm), and_assoc]
  · refine and_congr Iff.rfl (and_congr Iff.rfl ?_)
    exact ⟨fun h d hd => (h d hd).1, fun h d hd => ⟨h d hd, fun _ _ => trivial⟩⟩
  · constructor
    · rintro ⟨ha, h2, h3⟩
      obtain ⟨ha, hkn⟩ := (authentic_iff hk u).1 ha
      exact ⟨⟨ha, h2, h3⟩, hkn⟩
    · rintro ⟨⟨ha, h2, h3⟩, hkn⟩
      exact ⟨(authentic_iff hk u).2 ⟨ha, hkn⟩, h2, h3⟩

namespace Withdraw

theorem foldl_get {l : List (Bytes × KeyCtor)} {k : Bytes} (h : ∀ e ∈ l, e.1 ≠ k) (m : BMap Bytes KeyCtor) :
    BMap.get? (l.foldl (fun m e => m.insert e.1 e.2) m) k = BMap.get? m k := by
  induction l generalizing m with
  | nil => rfl
  | cons e l ih =>
    rw [List.foldl_cons, ih (fun x hx => h x (by simp [hx])), BMap.get?_insert, if_neg (h e (by simp))]

end Withdraw

/-- C111: a parser made with further constructors, for kinds of keys that were not there, has more kinds of keys. -/
theorem C111_register (l l' : List (Bytes × KeyCtor)) (h : ∀ e ∈ l', ∀ f ∈ l, e.1 ≠ f.1) :
    KindsWithin (DidParser.new l).ctors (DidParser.new (l ++ l')).ctors := by
  intro m c hm
  show BMap.get? (BMap.ofList (l ++ l')) m = _
  rw [BMap.ofList, List.foldl_append]
  by_cases hl : ∀ f ∈ l, f.1 ≠ m
  · change BMap.get? (BMap.ofList l) m = _ at hm
    rw [BMap.ofList, foldl_get hl] at hm
    cases hm
  · have : ∃ f ∈ l, f.1 = m := by
      refine Classical.byContradiction fun hn => hl fun f hf e => hn ⟨f, hf, e⟩
    obtain ⟨f, hf, rfl⟩ := this
    rw [foldl_get (fun e he => h e he f hf)]
    exact hm

/-- Beside C111: a parser for one kind of key, and one for two. -/
example (ctor : KeyCtor) : KindsWithin (DidParser.new [(Did.ed25519Magic, ctor)]).ctors (DidParser.new [(Did.ed25519Magic, ctor), (Did.rsaMagic, ctor)]).ctors :=
  C111_register [_] [_] (by
    intro e he f hf
    cases List.mem_singleton.1 he
    cases List.mem_singleton.1 hf
    show Did.rsaMagic ≠ Did.ed25519Magic
    decide)

end Verif
