import Verif.Model.Check
import Verif.Props.Authority
import Verif.Props.EndToEnd
import Verif.Props.Fixtures
import Verif.Spec.Check

/-! # Property C87: what can be decided on the reported capabilities -/

namespace Verif
open Spec Chain Reduce EndToEnd Fixtures
open Builder (Op)

variable {S A : Type}

namespace Check

theorem hasCapability_of {D : Deps} {sem : Semantics S A} {o : String} {c : Capability} {v : View S A} (hv : sem.parseCapability D c = some v) :
    ∀ infos : List (Info S A), ∃ b, hasCapability D sem o c infos = .ok b ∧ (b = true ↔ Listed sem infos o v)
  | [] => ⟨false, rfl, by simp [Listed]⟩
  | i :: is => by
    obtain ⟨b, h1, h2⟩ := hasCapability_of hv is
    have hl : Listed sem (i :: is) o v ↔ (o ∈ i.originators ∧ sem.enables i.capability v = true) ∨ Listed sem is o v := by
      simp [Listed]
    unfold hasCapability
    rw [hv, h1]
    by_cases ho : o ∈ i.originators
    · by_cases he : sem.enables i.capability v = true
      · exact ⟨true, by simp [ho, he], by simp [hl, ho, he]⟩
      · exact ⟨b, by simp [ho, he], by rw [h2, hl]; simp [he]⟩
    · exact ⟨b, by simp [ho], by rw [h2, hl]; simp [ho]⟩

theorem hasCapability_none {D : Deps} {sem : Semantics S A} {o : String} {c : Capability} (hv : sem.parseCapability D c = none) :
    ∀ infos : List (Info S A), hasCapability D sem o c infos = if ∃ i ∈ infos, o ∈ i.originators then panicked .unwrapCapability else .ok false
  | [] => by simp [hasCapability]
  | i :: is => by
    unfold hasCapability
    rw [hv, hasCapability_none hv is]
    by_cases ho : o ∈ i.originators
    · simp [ho]
    · simp [ho]

theorem allCapabilities_iff {D : Deps} {sem : Semantics S A} {o : String} {infos : List (Info S A)} : ∀ l : List Capability,
    (∀ c ∈ l, sem.parseCapability D c ≠ none) →
    ∃ b, allCapabilities D sem o infos l = .ok b ∧ (b = true ↔ ∀ c ∈ l, ∀ v, sem.parseCapability D c = some v → Listed sem infos o v)
  | [], _ => ⟨true, rfl, by simp⟩
  | c :: cs, h => by
    obtain ⟨v, hv⟩ := Option.ne_none_iff_exists'.1 (h c (by simp))
    obtain ⟨b, h1, h2⟩ := hasCapability_of (o := o) hv infos
    obtain ⟨b', h3, h4⟩ := allCapabilities_iff (o := o) (infos := infos) cs (fun c hc => h c (by simp [hc]))
    unfold allCapabilities
    rw [h1]
    have key : (∀ x ∈ c :: cs, ∀ v, sem.parseCapability D x = some v → Listed sem infos o v) ↔ Listed sem infos o v ∧ (b' = true) := by
      rw [h4]
      simp only [List.mem_cons, forall_eq_or_imp, hv, Option.some.injEq, forall_eq']
    cases b with
    | false =>
      refine ⟨false, rfl, ?_⟩
      rw [key]
      simp only [Bool.false_eq_true, false_iff] at h2 ⊢
      exact fun h => h2 h.1
    | true =>
      refine ⟨b', h3, ?_⟩
      rw [key]
      exact ⟨fun h => ⟨h2.1 rfl, h⟩, fun h => h.2⟩

theorem allCapabilities_panics {D : Deps} {sem : Semantics S A} {o : String} {infos : List (Info S A)} : ∀ l : List Capability,
    allCapabilities D sem o infos l = panicked .unwrapCapability ↔
      ∃ l1 c l2, l = l1 ++ c :: l2 ∧ (∀ x ∈ l1, ∃ v, sem.parseCapability D x = some v ∧ Listed sem infos o v) ∧
        sem.parseCapability D c = none ∧ ∃ i ∈ infos, o ∈ i.originators
  | [] => by simp [allCapabilities, panicked]
  | c :: cs => by
    have ih := allCapabilities_panics (D := D) (sem := sem) (o := o) (infos := infos) cs
    unfold allCapabilities
    cases hv : sem.parseCapability D c with
    | none =>
      rw [hasCapability_none hv infos]
      by_cases ho : ∃ i ∈ infos, o ∈ i.originators
      · rw [if_pos ho]
        exact ⟨fun _ => ⟨[], c, cs, rfl, by simp, hv, ho⟩, fun _ => rfl⟩
      · rw [if_neg ho]
        constructor
        · intro h; cases h
        · rintro ⟨_, _, _, _, _, _, h⟩; exact absurd h ho
    | some v =>
      obtain ⟨b, h1, h2⟩ := hasCapability_of (o := o) hv infos
      rw [h1]
      cases b with
      | false =>
        constructor
        · intro h; cases h
        · rintro ⟨l1, x, l2, he, hl, hx, _⟩
          cases l1 with
          | nil =>
            simp only [List.nil_append, List.cons.injEq] at he
            rw [← he.1, hv] at hx; cases hx
          | cons y l1 =>
            simp only [List.cons_append, List.cons.injEq] at he
            obtain ⟨v', h3, h4⟩ := hl y (by simp)
            rw [← he.1, hv] at h3; cases h3
            cases h2.2 h4
      | true =>
        refine Iff.trans ih ?_
        constructor
        · rintro ⟨l1, x, l2, he, hl, hx, ho⟩
          refine ⟨c :: l1, x, l2, by rw [he]; rfl, ?_, hx, ho⟩
          intro y hy
          rcases List.mem_cons.1 hy with rfl | hy
          · exact ⟨v, hv, h2.1 rfl⟩
          · exact hl y hy
        · rintro ⟨l1, x, l2, he, hl, hx, ho⟩
          cases l1 with
          | nil =>
            simp only [List.nil_append, List.cons.injEq] at he
            rw [← he.1, hv] at hx; cases hx
          | cons y l1 =>
            simp only [List.cons_append, List.cons.injEq] at he
            exact ⟨l1, x, l2, he.2, fun z hz => hl z (by simp [hz]), hx, ho⟩

end Check

/-- C87: the check of the crate's tests, made on capabilities that the semantics understands, says whether each is listed for the originator. -/
theorem C87_check (D : Deps) (sem : Semantics S A) (c : Chain) (out : List (Info S A)) (h : reduce D sem c = .ok out) (o : String)
    (l : List Capability) (hl : ∀ x ∈ l, sem.parseCapability D x ≠ none) :
    ∃ b, Check.enablesCapabilities D sem c o l = .ok b ∧ (b = true ↔ ∀ x ∈ l, ∀ v, sem.parseCapability D x = some v → Listed sem out o v) := by
  unfold Check.enablesCapabilities
  rw [h]
  exact Check.allCapabilities_iff l hl

/-- C87: the check panics exactly when the originator has some report and the first capability asked for that is not listed is one that the
semantics does not understand. -/
theorem C87_panics (D : Deps) (sem : Semantics S A) (c : Chain) (out : List (Info S A)) (h : reduce D sem c = .ok out) (o : String)
    (l : List Capability) :
    Check.enablesCapabilities D sem c o l = panicked .unwrapCapability ↔
      ∃ l1 x l2, l = l1 ++ x :: l2 ∧ (∀ y ∈ l1, ∃ v, sem.parseCapability D y = some v ∧ Listed sem out o v) ∧
        sem.parseCapability D x = none ∧ ∃ i ∈ out, o ∈ i.originators := by
  unfold Check.enablesCapabilities
  rw [h]
  exact Check.allCapabilities_panics l

namespace Check

theorem two_sorted {x y : Capability} {l : List Capability} (hp : l.Perm [x, y]) (hs : l.Pairwise KeyLe) (h : ¬ KeyLe y x) : l = [x, y] := by
  have hlen := hp.length_eq
  match l, hlen with
  | [p, q], _ =>
    have hp' : p = x ∨ p = y := by simpa using hp.mem_iff.1 (show p ∈ [p, q] by simp)
    rcases hp' with rfl | rfl
    · have : q = y := by simpa using (List.perm_cons p).1 hp
      rw [this]
    · have hpq : KeyLe p q := (List.pairwise_cons.1 hs).1 q (by simp)
      have : q = x := by
        have := (List.perm_cons p).1 (hp.trans (List.Perm.swap p x []))
        simpa using this
      subst this
      exact absurd hpq h

theorem keyLe_delegation {c : Capability} (h : OrdKey.lt c.resource "prf:0" = true) : ¬ KeyLe (delegation 0) c := by
  have e : (delegation 0).resource = "prf:0" := by decide +kernel
  unfold KeyLe
  rw [e]
  rintro (h' | ⟨h', _⟩)
  · have := OrdKey.trans h h'
    rw [OrdKey.irrefl] at this
    cases this
  · rw [← h', OrdKey.irrefl] at h
    cases h

end Check

/-- C87: A grants `c` to B. B claims `d`, which enables it, and hands on what A granted. Whatever A granted, the only report is `d`, with both
as its originators. -/
theorem C87_report (D : Deps) (hD : ShortDigests D) (sem : Semantics S A) (E : Env) (g : Nat) (l : Nat → List Store.Op) (hE : Served D E g l)
    (hl : ∀ i j, i ≤ j → l i <:+ l j) (hn : ∀ i, NoCollision D g (l i)) (w : World) (hc : Coherent w.parser) (kA kB : Key) (a b z : String)
    (ha : kA.did = .ok a) (hb : kB.did = .ok b) (c d : Capability) (v x : View S A) (hv : sem.parseCapability D c = some v)
    (hx : sem.parseCapability D d = some x) (hen : sem.enables x v = true) (hc' : ∀ i, ¬ Redelegates D c i) (hd' : ∀ i, ¬ Redelegates D d i)
    (hord : OrdKey.lt d.resource "prf:0" = true) (hsem : sem.parseCapability D (delegation 0) = none) (e f : UInt64) (hef : f ≤ e) (uA uB : Ucan)
    (hA : SignedBy D w.parser.ctors (grantCalls kA b e c) uA) (hB : SignedBy D w.parser.ctors (mixCalls kB z f d uA) uB)
    (hstored : Written g (strBytes (uA.encode D)) (l w.tick)) (hclock : ∀ i, E.clock i ≤ f) :
    ∃ w', (∃ N, ∀ fuel, N ≤ fuel → ofToken D E none fuel (uB.encode D) w = (.ok (.mk uB [.mk uA [] []] [0]), w')) ∧
      uA.payload.iss = a ∧ uB.payload.iss = b ∧ uA.payload.cap.iter = [c] ∧ uB.payload.cap.iter = [d, delegation 0] ∧
      reduce D sem (.mk uB [.mk uA [] []] [0]) = .ok [⟨BSet.extend [b] [a], none, some f, x⟩] := by
  have hlA : (grantCalls kA b e c).length < 2 ^ 64 := by simp [grantCalls]
  have hlB : (mixCalls kB z f d uA).length < 2 ^ 64 := by simp [mixCalls]
  obtain ⟨iA, aA, eA, nA⟩ := signed_fields (k := kA) (a := b) (e := e) hlA hA rfl rfl rfl
  obtain ⟨iB, aB, eB, nB⟩ := signed_fields (k := kB) (a := z) (e := f) hlB hB rfl rfl rfl
  have nA : uA.payload.nbf = none := nA
  have nB : uB.payload.nbf = none := nB
  have iA : a = uA.payload.iss := by rw [ha] at iA; cases iA; rfl
  have iB : b = uB.payload.iss := by rw [hb] at iB; cases iB; rfl
  obtain ⟨prfA, capA, parA, _⟩ := signed_payload hlA hA
  obtain ⟨prfB, capB, parB, _⟩ := signed_payload hlB hB
  have capA : uA.payload.cap.iter = [c] := List.perm_singleton.1 capA
  have capB : uB.payload.cap.iter = [d, delegation 0] := by
    obtain ⟨_, _, _, _, s, rnd, _, _, hs, _⟩ := hB
    exact Check.two_sorted capB (C16_ordered (ucanPayload_ok (sign_ok hs).1).2.1) (Check.keyLe_delegation hord)
  have r0 : Redelegates D (delegation 0) 0 := (C19_index_iff D _ _).1 ⟨_, C19_decimal D 0 (by decide) _, rfl⟩
  have tA : Timely E none w.tick uA := by
    refine fun i _ => ⟨fun e' he' => ?_, fun n hn' => ?_⟩
    · rw [eA] at he'; cases he'
      exact UInt64.le_trans (hclock i) hef
    · rw [nA] at hn'; cases hn'
  have tB : Timely E none w.tick uB := by
    refine fun i _ => ⟨fun e' he' => ?_, fun n hn' => ?_⟩
    · rw [eB] at he'; cases he'
      exact hclock i
    · rw [nB] at hn'; cases hn'
  have dAB : Delegates uA uB := by
    refine ⟨aA.trans iB, fun n hn' => by (rw [nA] at hn'; cases hn'), fun e' he' => ?_⟩
    rw [eA] at he'
    cases he'
    exact ⟨f, eB, hef⟩
  have hF : ∀ b, Written g b (l w.tick) → (fun c b => c = Store.blockCid D b ∧ Written g b (l w.tick)) (Store.blockCid D b) b := fun b hb => ⟨rfl, hb⟩
  have sA : Sound D (fun u => Timely E none w.tick u ∧ Authentic w.parser.ctors u) (fun c b => c = Store.blockCid D b ∧ Written g b (l w.tick)) (.mk uA [] []) := by
    rw [Sound, SoundAll, prfA]
    refine ⟨⟨tA, (signed_payload hlA hA).2.2.2⟩, rfl, by simp [BSet.Sorted], fun i => ?_, by simp⟩
    rw [capA]
    simpa using hc' i
  have sB : Sound D (fun u => Timely E none w.tick u ∧ Authentic w.parser.ctors u) (fun c b => c = Store.blockCid D b ∧ Written g b (l w.tick))
      (.mk uB [.mk uA [] []] [0]) := by
    rw [Sound, SoundAll, prfB]
    refine ⟨⟨tB, (signed_payload hlB hB).2.2.2⟩, ⟨_, [], rfl, ?_, dAB, sA, by rw [SoundAll]⟩, by simp [BSet.Sorted], fun i => ?_, by simp⟩
    · exact reference_resolves hD hF parA hstored
    · rw [capB]
      constructor
      · intro hi
        cases List.mem_singleton.1 hi
        exact ⟨_, by simp, r0⟩
      · rintro ⟨y, hy, hi⟩
        rcases List.mem_cons.1 hy with rfl | hy
        · exact absurd hi (hd' i)
        · cases List.mem_singleton.1 hy
          cases C19_unique D _ i 0 hi.2 r0.2
          simp
  have hena := timely_enables hE hl hn none w.parser.ctors w.tick
  obtain ⟨w', hw'⟩ := ofToken_complete hena (Spec.levels (.mk uB [.mk uA [] []] [0])) (uB.encode D) w (.mk uB [.mk uA [] []] [0]) hc rfl (Nat.le_refl _) (Nat.le_refl _) parB sB
  refine ⟨w', ⟨Spec.levels (.mk uB [.mk uA [] []] [0]), fun fuel hfuel => ?_⟩, iA.symm, iB.symm, capA, capB, ?_⟩
  · rw [← hw']
    exact ofToken_fuel hfuel _ _ (by rw [hw']; simp)
  · have h1 : reduce D sem (.mk uA [] []) = .ok [⟨[a], none, some e, v⟩] := by
      rw [reduce, reduceAll]
      unfold combine
      simp only [ancestral, redelegated, selfInfos, Ucan.capabilities, capA, mapWhile, hv, List.map_cons, List.map_nil, List.append_nil, Ucan.issuer, ← iA,
        Ucan.notBefore, Ucan.expiresAt, nA, eA]
      rfl
    rw [reduce, reduceAll, reduceAll, h1]
    unfold combine
    simp only [ancestral, redelegated, selfInfos, Ucan.capabilities, capB, mapWhile, hx, hsem, relifetime, Ucan.notBefore, Ucan.expiresAt, nB, eB,
      List.mem_singleton, if_true, List.getElem?_cons_zero, List.append_nil, List.map_cons, List.map_nil]
    simp only [originators, gather, Ucan.issuer, ← iB, List.length_cons, List.length_nil, List.isEmpty_nil, if_true]
    simp [merge, mergeLoop, absorb, hen]

/-- C87: so any holder of a delegation can have the grantor listed for anything that enables what was granted. -/
theorem C87_escalation (D : Deps) (hD : ShortDigests D) (sem : Semantics S A) (E : Env) (g : Nat) (l : Nat → List Store.Op) (hE : Served D E g l)
    (hl : ∀ i j, i ≤ j → l i <:+ l j) (hn : ∀ i, NoCollision D g (l i)) (w : World) (hc : Coherent w.parser) (kA kB : Key) (a b z : String)
    (ha : kA.did = .ok a) (hb : kB.did = .ok b) (hab : a ≠ b) (c d : Capability) (v x : View S A) (hv : sem.parseCapability D c = some v)
    (hx : sem.parseCapability D d = some x) (hen : sem.enables x v = true) (hself : sem.enables x x = true) (hmore : ¬ CoveredBy sem v x)
    (hc' : ∀ i, ¬ Redelegates D c i) (hd' : ∀ i, ¬ Redelegates D d i)
    (hord : OrdKey.lt d.resource "prf:0" = true) (hsem : sem.parseCapability D (delegation 0) = none) (e f : UInt64) (hef : f ≤ e) (uA uB : Ucan)
    (hA : SignedBy D w.parser.ctors (grantCalls kA b e c) uA) (hB : SignedBy D w.parser.ctors (mixCalls kB z f d uA) uB)
    (hstored : Written g (strBytes (uA.encode D)) (l w.tick)) (hclock : ∀ i, E.clock i ≤ f) :
    ∃ ch w' out, (∃ N, ∀ fuel, N ≤ fuel → ofToken D E none fuel (uB.encode D) w = (.ok ch, w')) ∧ reduce D sem ch = .ok out ∧
      Listed sem out a x ∧ ¬ Granted D sem ch x a ∧ ¬ Vouched D sem ch a x := by
  obtain ⟨w', h1, h2, h3, h4, h5, h6⟩ := C87_report D hD sem E g l hE hl hn w hc kA kB a b z ha hb c d v x hv hx hen hc' hd' hord hsem e f hef uA uB hA hB
    hstored hclock
  have claimA : ∀ y, Claimed D sem uA y → y = v := by
    rintro y ⟨pre, c', post, he, _, hp⟩
    have : c' ∈ uA.payload.cap.iter := by rw [he]; simp
    rw [h4] at this
    cases List.mem_singleton.1 this
    rw [hv] at hp
    cases hp
    rfl
  refine ⟨_, w', _, h1, h6, ⟨_, List.mem_singleton.2 rfl, by simp [BSet.mem_extend], hself⟩, ?_, ?_⟩
  · rw [granted_iff]
    rintro (⟨_, ⟨k, p, v', hp, hk, _⟩ | ⟨e', _⟩⟩ | ⟨k, p, _, hp, hg⟩)
    · have : k = 0 := by
        match k, hp with
        | 0, _ => rfl
        | k + 1, hp => simp [Chain.proofs] at hp
      subst this
      exact hk (by simp [Chain.redel])
    · exact hab (e'.trans h3)
    · have : p = .mk uA [] [] := by
        match k, hp with
        | 0, hp => simpa [Chain.proofs] using hp.symm
        | k + 1, hp => simp [Chain.proofs] at hp
      subst this
      rw [granted_iff] at hg
      rcases hg with ⟨hcl, _⟩ | ⟨k, p, hk, _⟩
      · exact hmore (Or.inl (claimA x hcl).symm)
      · simp [Chain.redel] at hk
  · rintro ⟨q, hq, hi, y, hy, hcov⟩
    cases hq with
    | self => exact absurd (hi.symm.trans h3) hab
    | proof hp hq =>
      cases List.mem_singleton.1 hp
      cases hq with
      | self => rw [claimA y hy] at hcov; exact hmore hcov
      | proof hp _ => cases hp


/-- C87, the soundness that holds: a report with one originator comes from a claim of that originator. -/
theorem C87_sole_partial (D : Deps) (sem : Semantics S A) (hl : Lawful sem) (c : Chain) (out : List (Info S A)) (h : reduce D sem c = .ok out)
    (i : Info S A) (hi : i ∈ out) (o : String) (ho : i.originators = [o]) (request : View S A) (he : sem.enables i.capability request = true) :
    Vouched D sem c o request := by
  have ht := enablesTrans_of_lawful hl
  obtain ⟨q, hq, e, v, hv, hcov⟩ := C32_flow_origin D sem ht (granted_flows D sem _ _ _ (C32_sole_granted D sem hl c out h i hi o ho))
  exact ⟨q, hq, e, v, hv, coveredBy_trans ht _ _ _ hcov (Or.inr he)⟩

/-- C87, the other case in which the check is right: no capability in the chain enables a different one. -/
theorem C87_separate_partial (D : Deps) (sem : Semantics S A) (c : Chain) (hs : Separate D sem c) (out : List (Info S A)) (h : reduce D sem c = .ok out)
    (o : String) (request : View S A) : Listed sem out o request ↔ ∃ v, Granted D sem c v o ∧ sem.enables v request = true := by
  have key := C31_exact_partial D sem c hs out h
  constructor
  · rintro ⟨i, hi, ho, he⟩
    exact ⟨_, (key _ o).1 ⟨i, hi, rfl, ho⟩, he⟩
  · rintro ⟨v, hg, he⟩
    obtain ⟨i, hi, rfl, ho⟩ := (key v o).2 hg
    exact ⟨i, hi, ho, he⟩

/-- C87: the check never refuses what was granted. -/
theorem C87_complete (D : Deps) (sem : Semantics S A) (hl : Lawful sem) (c : Chain) (out : List (Info S A)) (h : reduce D sem c = .ok out)
    (o : String) (v request : View S A) (hg : Granted D sem c v o) (he : sem.enables v request = true) : Listed sem out o request := by
  obtain ⟨i, hi, hcov, ho⟩ := C33_covered D sem hl c out h v o hg
  refine ⟨i, hi, ho, ?_⟩
  rcases hcov with e | e
  · rw [e]; exact he
  · exact enablesTrans_of_lawful hl _ _ _ e he

namespace Ex

def sendOne : Capability := ⟨"mailto:a@b", "email/send", .obj []⟩
def sendAll : Capability := ⟨"mailto:*", "email/send", .obj []⟩
def viewOne : View EmailAddress EmailAction := ⟨.resource (.scoped ⟨"a@b"⟩), .send, .obj []⟩
def viewAll : View EmailAddress EmailAction := ⟨.resource .unscoped, .send, .obj []⟩

theorem sendOne_view (D : Deps) : emailSemantics.parseCapability D sendOne = some viewOne := rfl
theorem sendAll_view (D : Deps) : emailSemantics.parseCapability D sendAll = some viewAll := rfl

theorem toy_grant (D : Deps) (b : String) (c : Capability) (hc : c = sendOne ∨ c = sendAll) : ∃ u, SignedBy D toyCtors (grantCalls (toyKey 1) b 20 c) u := by
  rcases hc with rfl | rfl <;>
  exact ⟨_, toy_signed D 1 _ _ _ ⟨fun _ => 0, fun _ _ => .ok none⟩ ⟨0, ⟨[], []⟩⟩ ⟨0, ⟨[], []⟩⟩ rfl rfl rfl
    (plain_ok D _ rfl (by intro y hy; cases List.mem_singleton.1 hy; rfl))⟩

theorem toy_mix (D : Deps) (u : Ucan) : ∃ u', SignedBy D toyCtors (mixCalls (toyKey 2) "did:key:z3" 10 sendAll u) u' := by
  have hst := C51_state D (mixCalls (toyKey 2) "did:key:z3" 10 sendAll u) (by simp [mixCalls])
  have hcap : (Builder.run D (mixCalls (toyKey 2) "did:key:z3" 10 sendAll u)).capabilities = [sendAll, delegation 0] := hst.capabilities
  have hb : (Builder.run D (mixCalls (toyKey 2) "did:key:z3" 10 sendAll u)).build ⟨fun _ => 0, fun _ _ => .ok none⟩ true ⟨0, ⟨[], []⟩⟩ =
      (.ok ⟨toyKey 2, "did:key:z3", [sendAll, delegation 0], some 10, none, [], references D (mixCalls (toyKey 2) "did:key:z3" 10 sendAll u), false⟩,
        ⟨0, ⟨[], []⟩⟩) := by
    rw [Builder.build_eq (k := toyKey 2) (a := "did:key:z3") hst.issuer hst.audience,
      M.bind_of_ok (Builder.impliedExpiration_explicit (t := 10) hst.expiration _), hcap, hst.notBefore, hst.facts, hst.proofs, hst.addNonce]
    rfl
  exact ⟨_, toy_signed D 2 _ _ _ _ _ _ hb rfl rfl (plain_ok D _ rfl (by
    intro y hy
    rcases List.mem_cons.1 hy with rfl | hy
    · rfl
    · cases List.mem_singleton.1 hy; rfl))⟩

theorem clock_le (i : Nat) : UInt64.ofNat (min i 9) ≤ 10 := by
  rw [UInt64.le_iff_toNat_le, UInt64.toNat_ofNat_of_lt' (by have := Nat.min_le_right i 9; simp [UInt64.size]; omega)]
  exact Nat.le_trans (Nat.min_le_right i 9) (by decide)

theorem one_not_redelegating (D : Deps) (c : Capability) (hc : c = sendOne ∨ c = sendAll) (i : Nat) : ¬ Redelegates D c i := by
  rintro ⟨h, _⟩
  rcases hc with rfl | rfl <;> exact absurd h (by decide)

theorem all_more : ¬ CoveredBy emailSemantics viewOne viewAll := by
  rintro (h | h)
  · cases h
  · exact absurd h (by decide)

/-- Beside C87: what A signs, and the token of B, in both worlds. -/
theorem mixed (D : Deps) (hD : ShortDigests D) (c : Capability) (v : View EmailAddress EmailAction) (hv : emailSemantics.parseCapability D c = some v)
    (hc : c = sendOne ∨ c = sendAll) (a b : String) (ha : (toyKey 1).did = .ok a) (hb : (toyKey 2).did = .ok b) : ∃ (uA uB : Ucan) (w' : World),
    SignedBy D toyCtors (grantCalls (toyKey 1) b 20 c) uA ∧ SignedBy D toyCtors (mixCalls (toyKey 2) "did:key:z3" 10 sendAll uA) uB ∧
    (∃ N, ∀ fuel, N ≤ fuel → ofToken D (env1 D uA) none fuel (uB.encode D) ⟨0, ⟨toyCtors, []⟩⟩ = (.ok (.mk uB [.mk uA [] []] [0]), w')) ∧
    uA.payload.iss = a ∧ uB.payload.iss = b ∧ uA.payload.cap.iter = [c] ∧
    reduce D emailSemantics (.mk uB [.mk uA [] []] [0]) = .ok [⟨BSet.extend [b] [a], none, some 10, viewAll⟩] := by
  obtain ⟨uA, hA⟩ := toy_grant D b c hc
  obtain ⟨uB, hB⟩ := toy_mix D uA
  have hen : emailSemantics.enables viewAll v = true := by
    rcases hc with rfl | rfl
    · rw [sendOne_view] at hv; cases hv; decide
    · rw [sendAll_view] at hv; cases hv; decide
  obtain ⟨w', h1, h2, h3, h4, _, h6⟩ := C87_report D hD emailSemantics (env1 D uA) 0 (fun _ => log1 D uA) (fun _ _ => rfl) (fun _ _ _ => List.suffix_refl _)
    (fun _ b b' hb hb' _ => (written_one hb).trans (written_one hb').symm) ⟨0, ⟨toyCtors, []⟩⟩ (DidParser.coherent_fresh _) (toyKey 1) (toyKey 2) a b
    "did:key:z3" ha hb c sendAll v viewAll hv (sendAll_view D) hen (one_not_redelegating D c hc) (one_not_redelegating D _ (Or.inr rfl)) (by decide +kernel) rfl
    20 10 (by decide) uA uB hA hB (.here 0 rfl) clock_le
  exact ⟨uA, uB, w', hA, hB, h1, h2, h3, h4, h6⟩

end Ex

/-- C87: whatever a service does with the reports, it cannot both accept all that an owner granted and act only on what the owner signed. With the
mail semantics of the crate's tests: A grants B to send as `a@b`, or to send as anybody. B signs the same calls, and the reports are the same. -/
theorem C87_no_check (D : Deps) (hD : ShortDigests D) (check : List (Info EmailAddress EmailAction) → String → View EmailAddress EmailAction → Bool) :
    ¬ ((∀ E t fuel tok w w' ch out o v, Coherent w.parser → ofToken D E t fuel tok w = (.ok ch, w') → reduce D emailSemantics ch = .ok out →
          Granted D emailSemantics ch v o → check out o v = true) ∧
       (∀ E t fuel tok w w' ch out o v, Coherent w.parser → ofToken D E t fuel tok w = (.ok ch, w') → reduce D emailSemantics ch = .ok out →
          check out o v = true → Vouched D emailSemantics ch o v)) := by
  rintro ⟨hcomplete, hsound⟩
  obtain ⟨a, _, ha, _⟩ := Ex.toy_denotes 1
  obtain ⟨b, _, hb, _⟩ := Ex.toy_denotes 2
  have hab : a ≠ b := by
    have h1 : (Ex.toyKey 1).did ≠ (Ex.toyKey 2).did := by decide +kernel
    rintro rfl
    exact h1 (ha.trans hb.symm)
  obtain ⟨uA, uB, w', _, _, ⟨N, h1⟩, h2, h3, h4, h5⟩ := Ex.mixed D hD _ _ (Ex.sendAll_view D) (Or.inr rfl) a b ha hb
  have hacc := hcomplete _ _ _ _ _ _ _ _ a Ex.viewAll (DidParser.coherent_fresh _) (h1 N (Nat.le_refl _)) h5 (by
    rw [granted_iff]
    refine Or.inr ⟨0, .mk uA [] [], by simp [Chain.redel], rfl, ?_⟩
    rw [granted_iff]
    refine Or.inl ⟨⟨[], _, [], h4, by simp, Ex.sendAll_view D⟩, Or.inr ⟨h2.symm, ?_⟩⟩
    rintro ⟨o, k, p, v, hp, _⟩
    simp [Chain.proofs] at hp)
  obtain ⟨uA', uB', w'', _, _, ⟨N', h1'⟩, h2', h3', h4', h5'⟩ := Ex.mixed D hD _ _ (Ex.sendOne_view D) (Or.inl rfl) a b ha hb
  obtain ⟨q, hq, hi, y, ⟨pre, x, post, he, _, hp⟩, hcov⟩ := hsound _ _ _ _ _ _ _ _ a Ex.viewAll (DidParser.coherent_fresh _) (h1' N' (Nat.le_refl _)) h5' hacc
  cases hq with
  | self => exact hab (hi.symm.trans h3')
  | proof hm hq =>
    cases List.mem_singleton.1 hm
    cases hq with
    | self =>
      have : x ∈ uA'.payload.cap.iter := by
        have he : uA'.payload.cap.iter = pre ++ x :: post := he
        rw [he]; simp
      rw [h4'] at this
      cases List.mem_singleton.1 this
      rw [Ex.sendOne_view] at hp
      cases hp
      exact Ex.all_more hcov
    | proof hm _ => cases hm

namespace Ex

/-- Beside `C87_check`, `C87_complete` and `C87_sole_partial`: a chain of three tokens with one report of one originator, and what the check answers on it. -/
example (D : Deps) : Check.enablesCapabilities D emailSemantics (chain3 D capSend capSend capSend) (did 1) [sendOne, ⟨"mailto:a@b", "email/send", .obj []⟩] = .ok true ∧
    Check.enablesCapabilities D emailSemantics (chain3 D capSend capSend capSend) (did 1) [sendOne, sendAll] = .ok false ∧
    Vouched D emailSemantics (chain3 D capSend capSend capSend) (did 1) viewOne :=
  ⟨rfl, rfl, C87_sole_partial D _ C74_lawful.1 _ _ (send_reduce D) _ (List.mem_singleton.2 rfl) (did 1) rfl viewOne (by decide)⟩

/-- Beside `C87_panics`: an action that no application knows, asked for after one that is listed, and asked for by a stranger. -/
example (D : Deps) : Check.enablesCapabilities D emailSemantics (chain3 D capSend capSend capSend) (did 1) [sendOne, ⟨"mailto:a@b", "email/read", .obj []⟩] =
      panicked .unwrapCapability ∧
    Check.enablesCapabilities D emailSemantics (chain3 D capSend capSend capSend) (did 7) [⟨"mailto:a@b", "email/read", .obj []⟩] = .ok false :=
  ⟨rfl, rfl⟩

/-- Beside `C87_escalation`: all its hypotheses on views hold of `viewOne` and `viewAll`; the tokens are those of `mixed`. -/
example : emailSemantics.enables viewAll viewOne = true ∧ emailSemantics.enables viewAll viewAll = true ∧ ¬ CoveredBy emailSemantics viewOne viewAll :=
  ⟨by decide, by decide, all_more⟩

end Ex

end Verif
