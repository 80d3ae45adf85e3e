import Verif.Spec.Restate
import Verif.Props.Lineage
import Verif.Props.Url

/-! # C130: what is reported can be claimed and passed on -/

namespace Verif
open Spec Chain Reduce Suite Lineage

variable {S A : Type}

namespace Restate

theorem understood_none {D : Deps} {sem : Semantics S A} {u : Ucan} {c : Capability} (h : u.payload.cap.iter = [c]) (hn : sem.parseCapability D c = none) :
    understood D sem u = [] := by
  unfold understood
  rw [h]
  simp [hn]

theorem understood_some {D : Deps} {sem : Semantics S A} {u : Ucan} {c : Capability} {v : View S A} (h : u.payload.cap.iter = [c]) (hv : sem.parseCapability D c = some v) :
    understood D sem u = [v] := by
  unfold understood
  rw [h]
  simp [hv]

/-- The report for a token that cites one token and redelegates nothing. -/
theorem one_proof (D : Deps) (sem : Semantics S A) (u : Ucan) (p : Chain) (lp : List (Info S A)) (hp : reduce D sem p = .ok lp) :
    reduce D sem (.mk u [p] []) = .ok (merge sem (selfInfos D sem u 1 lp)) := by
  rw [reduce, reduceAll_eq]
  simp only [List.map_cons, List.map_nil, hp]
  unfold combine
  simp [ancestral, redelegated]

end Restate
open Restate

/-- C130, exactly: what is reported for a token that cites one token and claims, in writing, something that was reported for it. If the writing is not understood, nothing;
otherwise what is read, for those who vouched for it in the cited token, or for the issuer if nobody did. -/
theorem C130_report {D : Deps} {E : Env} {nowTime : Option UInt64} {w w' : World} {c p : Chain} (hc : Coherent w.parser) (h : Built D E nowTime w w' c)
    (sem : Semantics S A) (v : View S A) (hr : Restates D sem c p v) (hd : sem.actionStr v.ability ≠ "ucan/DELEGATE") (lp : List (Info S A))
    (hp : reduce D sem p = .ok lp) :
    (sem.parseCapability D (sem.toCapability v) = none → reduce D sem c = .ok []) ∧
    ∀ x, sem.parseCapability D (sem.toCapability v) = some x → ∃ j, reduce D sem c = .ok [j] ∧ j.capability = x ∧ j.notBefore = c.ucan.payload.nbf ∧
      j.expiresAt = c.ucan.payload.exp ∧
      ∀ o, o ∈ j.originators ↔ VouchedIn sem lp x o ∨ (o = c.ucan.payload.iss ∧ ¬ ∃ o', VouchedIn sem lp x o') := by
  have hredel : c.redel = [] := built_redel hc h (.self c) (by
    rintro cap hcap i ⟨ha, _⟩
    rw [hr.claims, List.mem_singleton] at hcap
    subst hcap
    exact hd ha)
  obtain ⟨u, ps, r⟩ := c
  cases hredel
  cases hr.cites
  have hone := one_proof D sem u p lp hp
  have hself : ∀ l, understood D sem u = l → selfInfos D sem u 1 lp = l.map fun v => ⟨originators sem u lp v, u.payload.nbf, u.payload.exp, v⟩ := by
    rintro l rfl
    unfold selfInfos understood
    rw [Merge.mapWhile_eq]
    rfl
  constructor
  · intro hn
    rw [hone, hself [] (understood_none hr.claims hn)]
    rfl
  · intro x hx
    have e := hself [x] (understood_some hr.claims hx)
    refine ⟨⟨originators sem u lp x, u.payload.nbf, u.payload.exp, x⟩, ?_, rfl, rfl, rfl, fun o => ?_⟩
    · rw [hone, e]
      exact congrArg Except.ok (merge_separate sem _ (List.pairwise_singleton _ _))
    · rw [mem_originators]
      rfl

/-- C130 (partial): a reported capability that can be read from its own writing is passed on by claiming it: it is reported again, for those who were reported for it, and
whoever else was reported for something that enables it. Missing: capabilities that cannot be read from their writing, for which `C130_violated` refutes the claim. -/
theorem C130_survives_partial {D : Deps} {E : Env} {nowTime : Option UInt64} {w w' : World} {c p : Chain} (hc : Coherent w.parser) (h : Built D E nowTime w w' c)
    (sem : Semantics S A) (hl : Lawful sem) (lp : List (Info S A)) (hp : reduce D sem p = .ok lp) (i : Info S A) (hi : i ∈ lp) (ho : ObjCaveat i.capability)
    (hr : Restates D sem c p i.capability) (hd : sem.actionStr i.capability.ability ≠ "ucan/DELEGATE")
    (hs : sem.parseCapability D (sem.toCapability i.capability) = some i.capability) :
    ∃ j, reduce D sem c = .ok [j] ∧ j.capability = i.capability ∧ (∀ o ∈ i.originators, o ∈ j.originators) ∧
      ∀ o, o ∈ j.originators ↔ VouchedIn sem lp i.capability o := by
  obtain ⟨j, h1, h2, _, _, h5⟩ := (C130_report hc h sem _ hr hd lp hp).2 _ hs
  have hself := C15_refl sem hl _ ho
  have hv : ∀ o ∈ i.originators, VouchedIn sem lp i.capability o := fun o hm => ⟨i, hi, hself, hm⟩
  refine ⟨j, h1, h2, fun o hm => (h5 o).2 (Or.inl (hv o hm)), fun o => ?_⟩
  rw [h5]
  constructor
  · rintro (h | ⟨_, hn⟩)
    · exact h
    · obtain ⟨o', ho'⟩ := C30_nonempty D sem p lp hp i hi
      exact absurd ⟨o', hv o' ho'⟩ hn
  · exact Or.inl

/-- C130 (partial): so it is for every WNFS capability that is not a wildcard. -/
theorem C130_wnfs_partial {D : Deps} {E : Env} {nowTime : Option UInt64} {w w' : World} {c p : Chain} (hc : Coherent w.parser) (h : Built D E nowTime w w' c)
    (lp : List (Info Fixtures.WnfsScope Fixtures.WnfsLevel)) (hp : reduce D Fixtures.wnfsSemantics p = .ok lp) (i : Info Fixtures.WnfsScope Fixtures.WnfsLevel)
    (hi : i ∈ lp) (ho : ObjCaveat i.capability) (sc : Fixtures.WnfsScope) (hsc : i.capability.resource = .resource (.scoped sc))
    (hr : Restates D Fixtures.wnfsSemantics c p i.capability) :
    ∃ j, reduce D Fixtures.wnfsSemantics c = .ok [j] ∧ j.capability = i.capability ∧ (∀ o ∈ i.originators, o ∈ j.originators) ∧
      ∀ o, o ∈ j.originators ↔ VouchedIn Fixtures.wnfsSemantics lp i.capability o := by
  refine C130_survives_partial hc h _ C74_lawful.2 lp hp i hi ho hr ?_ ?_
  · cases i.capability.ability <;> decide
  · obtain ⟨cl, hcl⟩ : ∃ cl, Fixtures.wnfsSemantics.parseCapability D cl = some i.capability := by
      have : ∀ {d v}, Offers D Fixtures.wnfsSemantics d v → ∃ cl, Fixtures.wnfsSemantics.parseCapability D cl = some v := by
        intro d v hof
        induction hof with
        | claim h => obtain ⟨_, cl, _, _, _, e⟩ := h; exact ⟨cl, e⟩
        | redelegated _ _ _ _ ih => exact ih
      exact this (C28_offered D _ p lp hp i hi)
    have hv : i.capability = ⟨.resource (.scoped sc), i.capability.ability, i.capability.caveat⟩ := by rw [← hsc]
    rw [hv] at hcl ⊢
    exact C82_wnfs_capability D cl sc _ _ hcl

namespace Ex

def capAllMail : Capabilities := capsOf [("mailto:*", ["m/1"])]
def capAsterisk : Capabilities := capsOf [("*", ["m/1"])]
theorem capAllMail_plain : Plain capAllMail := ⟨by unfold BMap.Sorted; decide, by unfold BMap.Sorted; decide, by decide⟩
theorem capAsterisk_plain : Plain capAsterisk := ⟨by unfold BMap.Sorted; decide, by unfold BMap.Sorted; decide, by decide⟩
theorem capAllMail_noRedel : NoRedel capAllMail := by unfold NoRedel; decide
theorem capAsterisk_noRedel : NoRedel capAsterisk := by unfold NoRedel; decide

end Ex
open Ex

/-- C130 is violated: all mail is reported for key 1, but when the holder claims what was reported, nothing is reported. -/
theorem C130_violated (D : Deps) : ∃ (E : Env) (w w' : World) (c p : Chain) (i : Info String Nat), Coherent w.parser ∧ Built D E none w w' c ∧ Lawful mailSem ∧
    reduce D mailSem p = .ok [i] ∧ i.capability = mailAll 1 ∧ ObjCaveat i.capability ∧ Restates D mailSem c p i.capability ∧ reduce D mailSem c = .ok [] := by
  obtain ⟨w', hb⟩ := built3 D capAllMail_plain capAllMail_plain capAsterisk_plain capAllMail_noRedel capAllMail_noRedel capAsterisk_noRedel
  have hp : reduce D mailSem (.mk (tok2 D capAllMail) [.mk (tok1 D capAllMail) [] []] []) = .ok [⟨[did 1], some 5, some 20, mailAll 1⟩] := rfl
  have hr : Restates D mailSem (chain3 D capAllMail capAllMail capAsterisk) (.mk (tok2 D capAllMail) [.mk (tok1 D capAllMail) [] []] []) (mailAll 1) := ⟨rfl, rfl⟩
  exact ⟨_, world, w', _, _, _, world_coherent, hb, mailSem_lawful, hp, rfl, ⟨[], rfl, by simp [BMap.Sorted]⟩, hr,
    (C130_report world_coherent hb mailSem _ hr (by decide) _ hp).1 (C20_wildcard_lost D mailSem rfl 1 (.obj []))⟩

namespace Ex

/-- Beside C130: one address is passed on by claiming it as reported, and key 1 stays the one who granted it. -/
example (D : Deps) : ∃ w', Built D (still (dags3 D capA capA) 7) none world w' (chain3 D capA capA capA) ∧
    ∃ j, reduce D mailSem (chain3 D capA capA capA) = .ok [j] ∧ j.capability = mail "a@b" 1 ∧ did 1 ∈ j.originators := by
  obtain ⟨w', hb⟩ := built3 D capA_plain capA_plain capA_plain capA_noRedel capA_noRedel capA_noRedel
  have hp : reduce D mailSem (.mk (tok2 D capA) [.mk (tok1 D capA) [] []] []) = .ok [⟨[did 1], some 5, some 20, mail "a@b" 1⟩] := rfl
  have hr : Restates D mailSem (chain3 D capA capA capA) (.mk (tok2 D capA) [.mk (tok1 D capA) [] []] []) (mail "a@b" 1) := ⟨rfl, show capA.iter = [mailSem.toCapability (mail "a@b" 1)] by decide +kernel⟩
  obtain ⟨j, h1, h2, h3, _⟩ := C130_survives_partial world_coherent hb mailSem mailSem_lawful _ hp _ (List.mem_singleton.2 rfl) ⟨[], rfl, by simp [BMap.Sorted]⟩ hr
    (by decide) rfl
  exact ⟨w', hb, j, h1, h2, h3 _ (List.mem_singleton.2 rfl)⟩

end Ex
end Verif
