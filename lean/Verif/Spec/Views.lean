import Verif.Spec.Builder
import Verif.Spec.Reduce

/-! # Specification: what recipients understand of the claims made with the builder -/

namespace Verif.Spec
open Builder (Op)

/-- The calls lead to the UCAN, with some clock and random bytes. -/
def FromCalls (D : Deps) (ops : List Op) (u : Ucan) : Prop :=
  ∃ (E : Env) (checked : Bool) (w w' : World) (s : Signable) (rnd : Bytes), (Builder.run D ops).build E checked w = (.ok s, w') ∧ s.sign D rnd = .ok u

/-- Strictly before in the order of resources, then abilities. -/
def KeyLt (c d : Capability) : Prop :=
  OrdKey.lt c.resource d.resource = true ∨ (c.resource = d.resource ∧ OrdKey.lt c.ability d.ability = true)

end Verif.Spec
