import Verif.Spec.Reduce

/-! # Specification: which proofs bear on a token -/

namespace Verif.Spec

variable {S A : Type}

/-- The proof offers something that enables a claim of the token. -/
def Bears (D : Deps) (sem : Semantics S A) (p : Chain) (u : Ucan) : Prop := ∃ w v, Offers D sem p w ∧ Claimed D sem u v ∧ sem.enables w v = true

/-- The tokens agree in everything reports depend on, except for their proofs. -/
structure AlikeBut (u u' : Ucan) : Prop where
  iss : u.payload.iss = u'.payload.iss
  cap : u.payload.cap = u'.payload.cap
  nbf : u.payload.nbf = u'.payload.nbf
  exp : u.payload.exp = u'.payload.exp

end Verif.Spec
