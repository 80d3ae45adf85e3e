import Verif.Spec.Chain
import Verif.Spec.Reduce

/-! # Specification: handing a grant on unchanged -/

namespace Verif.Spec

variable {S A : Type}

/-- The token does nothing but delegate its proof at index `k`. -/
def PassesOn (D : Deps) (u : Ucan) (k : Nat) : Prop :=
  (∃ c ∈ u.payload.cap.iter, Redelegates D c k) ∧ ∀ c ∈ u.payload.cap.iter, Redelegates D c k

/-- The report in the hands of the next holder: the same capabilities and originators, within the lifetime of the token that hands them on. -/
def handed (u : Ucan) (l : List (Info S A)) : List (Info S A) := l.map fun i => ⟨i.originators, u.payload.nbf, u.payload.exp, i.capability⟩

/-- No capability of the report enables another one. -/
def Irredundant (sem : Semantics S A) (l : List (Info S A)) : Prop :=
  l.Pairwise fun a b => sem.enables a.capability b.capability = false ∧ sem.enables b.capability a.capability = false

/-- `c` is `p` handed on by any number of tokens, each of which does nothing else. -/
inductive HandedOn (D : Deps) : Chain → Chain → Prop
  | refl (c : Chain) : HandedOn D c c
  | step {c d p : Chain} (k : Nat) : PassesOn D c.ucan k → c.proofs[k]? = some d → HandedOn D d p → HandedOn D c p

end Verif.Spec
