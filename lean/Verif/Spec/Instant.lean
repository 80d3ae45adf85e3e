import Verif.Model.Instant
import Verif.Spec.Chain

/-! # Specification of instants -/

namespace Verif.Spec

/-- A second in nanoseconds. -/
def second : Int := 1000000000

/-- System times from 1970 on, as far as they can be expressed (seconds are signed 64-bit numbers). -/
def Expressible (τ : Int) : Prop := 0 ≤ τ ∧ τ < 2 ^ 63 * second

/-- The instant of a time in seconds. -/
def instant (t : UInt64) : Int := t.toNat * second

end Verif.Spec
