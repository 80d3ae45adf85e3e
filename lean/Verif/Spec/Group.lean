import Verif.Spec.Authority

/-! # Specification: accepting requests in the name of a group -/

namespace Verif.Spec

variable {S A : Type}

/-- What a service does that trusts several owners alike: accept the request when a reported capability covers it that lists nobody outside the group. -/
def AuthorisesGroup (sem : Semantics S A) (out : List (Info S A)) (group : String → Prop) (request : View S A) : Prop :=
  ∃ i ∈ out, (∀ o ∈ i.originators, group o) ∧ CoveredBy sem i.capability request

end Verif.Spec
