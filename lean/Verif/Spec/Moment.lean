import Verif.Spec.Chain

/-! # Specification for C95: clocks that run during a validation -/

namespace Verif.Spec

/-- The clock never goes backwards. -/
def ClockMonotone (E : Env) : Prop := ∀ i j, i ≤ j → E.clock i ≤ E.clock j

/-- The lifetime of the UCAN has an instant in it: it does not end before it begins. -/
def HasLifetime (u : Ucan) : Prop := ∃ t, InLifetime u t

/-- All tokens of the chain are in force at `t`. -/
def InForce (c : Chain) (t : Int) : Prop := ∀ d, Sub d c → InLifetime d.ucan t

end Verif.Spec
