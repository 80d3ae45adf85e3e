import Verif.Model.Clock

/-!
# Instants between seconds

`now()` (`ucan/src/time.rs` 3-8) drops the part of the system time below a second.
-/

namespace Verif

/-- `duration_since(UNIX_EPOCH)` and `as_secs()` (time.rs 4-7), for a system time in nanoseconds since 1970. -/
def secondsOf (τ : Int) : Option UInt64 := if τ < 0 then none else some (UInt64.ofNat (τ.toNat / 1000000000))

/-- The clock that shows these system times. -/
def Clock.ofInstants (T : Nat → Int) : Clock := fun i => secondsOf (T i)

end Verif
