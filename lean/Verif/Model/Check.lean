import Verif.Model.Chain

/-!
# The authorisation check of the crate's tests

`ucan/src/tests/attenuation.rs` 418-444: the only code in the repository that makes a decision on reported capabilities, and thus what users copy.
-/

namespace Verif
namespace Check

variable {S A : Type}

/-- The inner loop (attenuation.rs 428-438); `parse_capability` is only called, and its result unwrapped, once an info lists the originator. -/
def hasCapability (D : Deps) (sem : Semantics S A) (originator : String) (desired : Capability) : List (Info S A) → Res Bool
  | [] => .ok false
  | i :: is =>
    if originator ∈ i.originators then
      match sem.parseCapability D desired with
      | none => panicked .unwrapCapability
      | some v => if sem.enables i.capability v then .ok true else hasCapability D sem originator desired is
    else hasCapability D sem originator desired is

/-- The outer loop (attenuation.rs 427-443). -/
def allCapabilities (D : Deps) (sem : Semantics S A) (originator : String) (infos : List (Info S A)) : List Capability → Res Bool
  | [] => .ok true
  | c :: cs =>
    match hasCapability D sem originator c infos with
    | .error e => .error e
    | .ok false => .ok false
    | .ok true => allCapabilities D sem originator infos cs

/-- `enables_capabilities` (attenuation.rs 419-444). -/
def enablesCapabilities (D : Deps) (sem : Semantics S A) (c : Chain) (originator : String) (desired : List Capability) : Res Bool :=
  match Reduce.reduce D sem c with
  | .error e => .error e
  | .ok infos => allCapabilities D sem originator infos desired

end Check
end Verif
