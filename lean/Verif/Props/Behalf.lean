import Verif.Props.Own

/-! # C132: claims on behalf of somebody else -/

namespace Verif
open Spec Chain Reduce

variable {S A : Type}

/-- C132: whatever is claimed, and whatever scopes and abilities there are, no understood claim is on behalf of a DID. -/
theorem C132_not_understood (D : Deps) (sem : Semantics S A) (hd : sem.overridden = none) (c : Capability) (v : View S A) (h : sem.parseCapability D c = some v) (did : String) :
    form v.resource ≠ .as_ did := by
  rw [Semantics.parseCapability_default hd] at h
  exact C20_no_as_view D sem _ _ _ v h did

/-- C132: nor is any reported capability, at whatever depth it was claimed. -/
theorem C132_not_reported (D : Deps) (sem : Semantics S A) (hd : sem.overridden = none) (c : Chain) (out : List (Info S A)) (h : reduce D sem c = .ok out) (i : Info S A)
    (hi : i ∈ out) (did : String) : form i.capability.resource ≠ .as_ did := by
  intro hf
  obtain ⟨o, ho⟩ := C30_nonempty D sem c out h i hi
  obtain ⟨d, _, _, v, ⟨pre, cap, post, _, _, hp⟩, e⟩ := C131_form_partial D sem c out h i hi o ho
  exact C132_not_understood D sem hd cap v hp did (e.trans hf)

/-- C132: a claim on behalf of a DID takes all claims that come after it in the token with it. -/
theorem C132_hides (D : Deps) (sem : Semantics S A) (hd : sem.overridden = none) (u : Ucan) (pre post : List Capability) (c : Capability) (url : Url)
    (hu : u.payload.cap.iter = pre ++ c :: post) (hc : Url.parse D c.resource = some url) (hs : url.scheme = "as") (v : View S A) (hv : Claimed D sem u v) :
    ∃ x ∈ pre, sem.parseCapability D x = some v := by
  have hn : sem.parseCapability D c = none := by
    rw [Semantics.parseCapability_default hd]
    exact C20_as_never_parses D sem _ _ _ url hc hs
  obtain ⟨pre', x, post', e, hp, hx⟩ := hv
  refine ⟨x, ?_, hx⟩
  rw [hu] at e
  rcases List.append_eq_append_iff.1 e with ⟨t, ht, hr⟩ | ⟨t, ht, hr⟩
  · cases t with
    | nil =>
      obtain ⟨rfl, _⟩ := List.cons.inj hr
      rw [hn] at hx; cases hx
    | cons y t =>
      obtain ⟨rfl, _⟩ := List.cons.inj hr
      exact absurd hn (hp c (by rw [ht]; simp))
  · cases t with
    | nil =>
      obtain ⟨rfl, _⟩ := List.cons.inj hr
      rw [hn] at hx; cases hx
    | cons y t =>
      obtain ⟨rfl, _⟩ := List.cons.inj hr
      rw [ht]; simp

namespace Ex

/-- On behalf of key 1, the address `a@b`; on its own, and together with a claim to the address itself. -/
def capAs : Capabilities := capsOf [("as:" ++ did 1 ++ ":mailto:a@b", ["m/1"])]
def capAsA : Capabilities := capsOf [("as:" ++ did 1 ++ ":mailto:a@b", ["m/1"]), ("mailto:a@b", ["m/1"])]
theorem capAs_plain : Plain capAs := ⟨by unfold BMap.Sorted; decide, by unfold BMap.Sorted; decide, by decide⟩
theorem capAs_noRedel : NoRedel capAs := by unfold NoRedel; decide
theorem capAsA_plain : Plain capAsA := ⟨by unfold BMap.Sorted; decide, by unfold BMap.Sorted; decide, by decide⟩
theorem capAsA_noRedel : NoRedel capAsA := by unfold NoRedel; decide

end Ex
open Ex

/-- C132 is violated: key 1 grants the address, key 3 claims it on behalf of key 1, and nothing is reported; not even what else key 3 claims, which alone is reported for
key 1. -/
theorem C132_violated (D : Deps) : ∃ (E : Env) (w w₁ w₂ w₃ : World), Coherent w.parser ∧ Lawful mailSem ∧
    Built D E none w w₁ (chain3 D capA capA capAs) ∧ reduce D mailSem (chain3 D capA capA capAs) = .ok [] ∧
    Built D E none w w₂ (chain3 D capA capA capAsA) ∧ reduce D mailSem (chain3 D capA capA capAsA) = .ok [] ∧
    Built D E none w w₃ (chain3 D capA capA capA) ∧ reduce D mailSem (chain3 D capA capA capA) = .ok [⟨[did 1], some 5, some 20, mail "a@b" 1⟩] := by
  obtain ⟨w₁, h₁⟩ := built3 D capA_plain capA_plain capAs_plain capA_noRedel capA_noRedel capAs_noRedel
  obtain ⟨w₂, h₂⟩ := built3 D capA_plain capA_plain capAsA_plain capA_noRedel capA_noRedel capAsA_noRedel
  obtain ⟨w₃, h₃⟩ := built3 D capA_plain capA_plain capA_plain capA_noRedel capA_noRedel capA_noRedel
  exact ⟨still (dags3 D capA capA) 7, world, w₁, w₂, w₃, world_coherent, mailSem_lawful, h₁, rfl, h₂, rfl, h₃, rfl⟩

namespace Ex

/-- Beside C132_hides: the claim to the address stands after the one on behalf of key 1, whose scheme is `as`. -/
example (D : Deps) : (chain3 D capA capA capAsA).ucan.payload.cap.iter = [] ++ ⟨"as:did:key:z2NcD6:mailto:a@b", "m/1", .obj []⟩ :: [⟨"mailto:a@b", "m/1", .obj []⟩] ∧
    (Url.parse D "as:did:key:z2NcD6:mailto:a@b").map Url.scheme = some "as" := by
  refine ⟨?_, rfl⟩
  show capAsA.iter = _
  decide

end Ex
end Verif
