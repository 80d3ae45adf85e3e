import Verif.Props.Bears
import Verif.Props.Lineage

/-! # C134: claims together and apart -/

namespace Verif
open Spec Chain Reduce Depends

variable {S A : Type}

namespace Split

/-- The reports for a token that hands nothing on whole and whose claims do not enable one another. -/
theorem report {D : Deps} {sem : Semantics S A} {c : Chain} {out : List (Info S A)} (hr : c.redel = []) (h : reduce D sem c = .ok out)
    (hs : NoneEnablesLater sem (understood D sem c.ucan)) : ∃ anc : List (Info S A),
      (∀ x, x ∈ anc ↔ ∃ p ∈ c.proofs, ∃ lp, reduce D sem p = .ok lp ∧ x ∈ lp) ∧
      out = ((understood D sem c.ucan).map fun v => (⟨originators sem c.ucan anc v, c.ucan.payload.nbf, c.ucan.payload.exp, v⟩ : Info S A)).reverse := by
  obtain ⟨anc, hcol, e, hz⟩ := reduce_invoking hr h
  refine ⟨anc, fun x => ?_, ?_⟩
  · rw [hcol.ancestors]
    constructor
    · rintro ⟨k, p, lp, hp, _, hl, hx⟩
      exact ⟨p, List.mem_of_getElem? hp, lp, hl, hx⟩
    · rintro ⟨p, hp, lp, hl, hx⟩
      obtain ⟨k, hk⟩ := List.getElem?_of_mem hp
      exact ⟨k, p, lp, hk, by rw [hr]; simp, hl, hx⟩
  · rw [e, selfInfos_eq D sem _ _ _ hz]
    have em : mapWhile (sem.parseCapability D) c.ucan.capabilities.iter = understood D sem c.ucan := Merge.mapWhile_eq _ _
    rw [em]
    refine Suite.merge_separate sem _ ?_
    rw [List.pairwise_map]
    exact hs

end Split

/-- C134 (partial): if the claims of neither of two tokens enable one another, the tokens are of one issuer and have the same proofs and bounds, and the one has claims
of the other, then what is reported for the one is what is reported for the other about these claims, with the same originators. Missing: tokens with claims
that enable later ones, for which `C134_violated` refutes it, and tokens that hand proofs on. -/
theorem C134_part_partial (D : Deps) (sem : Semantics S A) (c c' : Chain) (out out' : List (Info S A)) (h : reduce D sem c = .ok out) (h' : reduce D sem c' = .ok out')
    (hr : c.redel = []) (hr' : c'.redel = []) (hs : NoneEnablesLater sem (understood D sem c.ucan)) (hs' : NoneEnablesLater sem (understood D sem c'.ucan))
    (hp : ∀ p, p ∈ c.proofs ↔ p ∈ c'.proofs) (hi : c.ucan.payload.iss = c'.ucan.payload.iss) (hn : c.ucan.payload.nbf = c'.ucan.payload.nbf)
    (he : c.ucan.payload.exp = c'.ucan.payload.exp) (hsub : ∀ v ∈ understood D sem c'.ucan, v ∈ understood D sem c.ucan) (i : Info S A) :
    i ∈ out' ↔ i ∈ out ∧ i.capability ∈ understood D sem c'.ucan := by
  obtain ⟨anc, ha, rfl⟩ := Split.report hr h hs
  obtain ⟨anc', ha', rfl⟩ := Split.report hr' h' hs'
  have hor : ∀ v, originators sem c.ucan anc v = originators sem c'.ucan anc' v := fun v =>
    Bearing.originators_congr sem hi v fun x _ => by simp only [ha, ha', hp]
  simp only [List.mem_reverse, List.mem_map, hor, hn, he]
  constructor
  · rintro ⟨v, hv, rfl⟩
    exact ⟨⟨v, hsub v hv, rfl⟩, hv⟩
  · rintro ⟨⟨v, _, rfl⟩, hv⟩
    exact ⟨v, hv, rfl⟩

/-- C134 (partial): in particular, a token with one of the claims is reported just as that claim is. -/
theorem C134_single_partial (D : Deps) (sem : Semantics S A) (c c' : Chain) (out out' : List (Info S A)) (h : reduce D sem c = .ok out) (h' : reduce D sem c' = .ok out')
    (hr : c.redel = []) (hr' : c'.redel = []) (hs : NoneEnablesLater sem (understood D sem c.ucan)) (v : View S A) (hv : v ∈ understood D sem c.ucan)
    (hone : understood D sem c'.ucan = [v])
    (hp : ∀ p, p ∈ c.proofs ↔ p ∈ c'.proofs) (hi : c.ucan.payload.iss = c'.ucan.payload.iss) (hn : c.ucan.payload.nbf = c'.ucan.payload.nbf)
    (he : c.ucan.payload.exp = c'.ucan.payload.exp) : ∃ i ∈ out, i.capability = v ∧ out' = [i] := by
  have hs' : NoneEnablesLater sem (understood D sem c'.ucan) := by rw [hone]; exact List.pairwise_singleton _ _
  have key := C134_part_partial D sem c c' out out' h h' hr hr' hs hs' hp hi hn he (by rw [hone]; simpa using hv)
  obtain ⟨anc', _, e⟩ := Split.report hr' h' hs'
  rw [hone] at e
  have e : out' = [⟨originators sem c'.ucan anc' v, c'.ucan.payload.nbf, c'.ucan.payload.exp, v⟩] := e
  exact ⟨_, ((key _).1 (by rw [e]; exact List.mem_singleton.2 rfl)).1, rfl, e⟩

namespace Ex

/-- All mail and one address. -/
def capAllA : Capabilities := capsOf [("mailto:*", ["m/1"]), ("mailto:a@b", ["m/1"])]
theorem capAllA_plain : Plain capAllA := ⟨by unfold BMap.Sorted; decide, by unfold BMap.Sorted; decide, by decide⟩
theorem capAllA_noRedel : NoRedel capAllA := by unfold NoRedel; decide
/-- Two addresses. -/
def capApart : Capabilities := capsOf [("mailto:a@b", ["m/1"]), ("mailto:c@d", ["m/1"])]
theorem capApart_plain : Plain capApart := ⟨by unfold BMap.Sorted; decide, by unfold BMap.Sorted; decide, by decide⟩
theorem capApart_noRedel : NoRedel capApart := by unfold NoRedel; decide

end Ex
open Ex

/-- C134 is violated: key 1 granted one address. Key 3 claims all mail, and that address; in two tokens, the former is reported for key 3 and the latter for key 1; in
one token, all mail is reported for both. -/
theorem C134_violated (D : Deps) : ∃ (E : Env) (w w₁ w₂ w₃ : World), Coherent w.parser ∧ Lawful mailSem ∧
    Built D E none w w₁ (chain3 D capA capA capAll) ∧ reduce D mailSem (chain3 D capA capA capAll) = .ok [⟨[did 3], some 5, some 20, mailAll 1⟩] ∧
    Built D E none w w₂ (chain3 D capA capA capA) ∧ reduce D mailSem (chain3 D capA capA capA) = .ok [⟨[did 1], some 5, some 20, mail "a@b" 1⟩] ∧
    Built D E none w w₃ (chain3 D capA capA capAllA) ∧ reduce D mailSem (chain3 D capA capA capAllA) = .ok [⟨[did 1, did 3], some 5, some 20, mailAll 1⟩] := by
  obtain ⟨w₁, h₁⟩ := built3 D capA_plain capA_plain capAll_plain capA_noRedel capA_noRedel capAll_noRedel
  obtain ⟨w₂, h₂⟩ := built3 D capA_plain capA_plain capA_plain capA_noRedel capA_noRedel capA_noRedel
  obtain ⟨w₃, h₃⟩ := built3 D capA_plain capA_plain capAllA_plain capA_noRedel capA_noRedel capAllA_noRedel
  exact ⟨still (dags3 D capA capA) 7, world, w₁, w₂, w₃, world_coherent, mailSem_lawful, h₁, rfl, h₂, rfl, h₃, rfl⟩

namespace Ex

/-- Beside C134: two addresses, one granted by key 1 and one of key 3's own, neither enabling the other; one report for each. -/
example (D : Deps) : ∃ w', Built D (still (dags3 D capA capA) 7) none world w' (chain3 D capA capA capApart) ∧ (chain3 D capA capA capApart).redel = [] ∧
    understood D mailSem (chain3 D capA capA capApart).ucan = [mail "a@b" 1, mail "c@d" 1] ∧ NoneEnablesLater mailSem [mail "a@b" 1, mail "c@d" 1] ∧
    reduce D mailSem (chain3 D capA capA capApart) = .ok [⟨[did 3], some 5, some 20, mail "c@d" 1⟩, ⟨[did 1], some 5, some 20, mail "a@b" 1⟩] := by
  obtain ⟨w', hb⟩ := built3 D capA_plain capA_plain capApart_plain capA_noRedel capA_noRedel capApart_noRedel
  refine ⟨w', hb, rfl, rfl, ?_, rfl⟩
  unfold NoneEnablesLater
  simp only [List.pairwise_cons, List.not_mem_nil, false_imp_iff, implies_true, List.Pairwise.nil, and_true, List.mem_singleton]
  rintro _ rfl
  decide

end Ex
end Verif
