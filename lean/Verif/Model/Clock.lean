import Verif.Model.Builder
import Verif.Model.Chain

/-!
# System clocks that are set before 1970

`now()` (`ucan/src/time.rs` 3-8) unwraps the distance of the system time from the epoch, which panics if the system time is earlier. In `Model/World` a
reading always gives a number. Here it may not; everything else is shared, and `E` stands for the store only.
-/

namespace Verif

/-- The system time at a tick, in seconds; nothing if it is before 1970. -/
abbrev Clock := Nat → Option UInt64

/-- `now()` (time.rs 3-8). -/
def Clock.now (clk : Clock) : M UInt64 := fun w =>
  (match clk w.tick with
    | some t => .ok t
    | none => panicked .unwrapNow,
   { w with tick := w.tick + 1 })

namespace Ucan

/-- `is_expired` (ucan.rs 103-109). -/
def isExpiredBy (clk : Clock) (u : Ucan) (nowTime : Option UInt64) : M Bool :=
  match u.payload.exp with
  | some exp =>
    match nowTime with
    | some t => pure (decide (exp < t))
    | none => do
      let t ← clk.now
      pure (decide (exp < t))
  | none => pure false

/-- `is_too_early` (ucan.rs 121-126). -/
def isTooEarlyBy (clk : Clock) (u : Ucan) : M Bool :=
  match u.payload.nbf with
  | some nbf => do
    let t ← clk.now
    pure (decide (nbf > t))
  | none => pure false

/-- `validate` (ucan.rs 69-83). -/
def validateBy (clk : Clock) (u : Ucan) (nowTime : Option UInt64) : M Unit := do
  let expired ← isExpiredBy clk u nowTime
  if expired then M.lift (err .expired)
  else do
    let early ← isTooEarlyBy clk u
    if early then M.lift (err .tooEarly)
    else checkSignature u

end Ucan

namespace Chain

/-- `from_ucan` (chain.rs 52-112) for a given recursive call. -/
def fromUcanWithBy (clk : Clock) (D : Deps) (E : Env) (nowTime : Option UInt64) (rec : String → M Chain) (u : Ucan) : M Chain := do
  u.validateBy clk nowTime
  let proofs ← proofsLoop D E rec u (u.proofs.getD [])
  let redel ← M.lift (redelegations D proofs.length u)
  pure (mk u proofs redel)

/-- `try_from_token_string` (chain.rs 135-146), cut off after `fuel` levels. -/
def ofTokenBy (clk : Clock) (D : Deps) (E : Env) (nowTime : Option UInt64) : Nat → String → M Chain
  | 0, _ => M.lift (.error .diverge)
  | fuel + 1, token => do
    let u ← M.lift (Ucan.fromStr D token)
    fromUcanWithBy clk D E nowTime (ofTokenBy clk D E nowTime fuel) u

/-- `from_ucan` (chain.rs 52-112). -/
def fromUcanBy (clk : Clock) (D : Deps) (E : Env) (nowTime : Option UInt64) (fuel : Nat) (u : Ucan) : M Chain :=
  fromUcanWithBy clk D E nowTime (ofTokenBy clk D E nowTime fuel) u

/-- `from_cid` (chain.rs 116-132). -/
def fromCidBy (clk : Clock) (D : Deps) (E : Env) (nowTime : Option UInt64) (fuel : Nat) (c : Cid) : M Chain := do
  let token ← Store.requireToken E c
  ofTokenBy clk D E nowTime fuel token

end Chain

namespace Builder

/-- `implied_expiration` (builder.rs 284-290). -/
def impliedExpirationBy (clk : Clock) (checked : Bool) (b : Builder) : M (Option UInt64) :=
  match b.expiration with
  | some e => pure (some e)
  | none =>
    match b.lifetime with
    | none => pure none
    | some l => do
      let t ← clk.now
      if checked ∧ t.toNat + l.toNat ≥ 2 ^ 64 then M.lift (panicked .addOverflow) else pure (some (t + l))

/-- `build` (builder.rs 292-309). -/
def buildBy (clk : Clock) (checked : Bool) (b : Builder) : M Signable :=
  match b.issuer with
  | none => M.lift (err .missingIssuer)
  | some k =>
    match b.audience with
    | none => M.lift (err .missingAudience)
    | some a => do
      let exp ← b.impliedExpirationBy clk checked
      pure ⟨k, a, b.capabilities, exp, b.notBefore, b.facts, b.proofs, b.addNonce⟩

end Builder
end Verif
