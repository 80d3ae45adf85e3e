import Verif.Spec.Lineage

/-! # Specification: passing on what was reported -/

namespace Verif.Spec

variable {S A : Type}

/-- The first token of `c` cites the first token of `p` and nothing else, and its one claim is the capability `v`, written as the library writes it. -/
structure Restates (D : Deps) (sem : Semantics S A) (c p : Chain) (v : View S A) : Prop where
  cites : c.proofs = [p]
  claims : c.ucan.payload.cap.iter = [sem.toCapability v]

/-- Those reported for something that enables `v`. -/
def VouchedIn (sem : Semantics S A) (l : List (Info S A)) (v : View S A) (o : String) : Prop := ∃ k ∈ l, sem.enables k.capability v = true ∧ o ∈ k.originators

end Verif.Spec
