import Verif.Model.Builder
import Verif.Model.Chain

/-!
# The programs in the crate's documentation

`ucan/src/lib.rs` 18-67: what a user of the crate starts from.
-/

namespace Verif
namespace Doc

variable {S A : Type}

/-- `generate_token` (lib.rs 24-32). `rnd` is not used, since no nonce is asked for. -/
def generateToken (D : Deps) (E : Env) (checked : Bool) (rnd : Bytes) (issuerKey : Key) (audienceDid : String) : M String := do
  let s ← (((Builder.default.issuedBy issuerKey).forAudience audienceDid).withLifetime 60).build E checked
  let u ← M.lift (s.sign D rnd)
  pure (u.encode D)

/-- `get_capabilities` (lib.rs 55-66), with `types` for `SUPPORTED_KEY_TYPES`; each call makes its own parser. -/
def getCapabilities (D : Deps) (E : Env) (types : List (Bytes × KeyCtor)) (sem : Semantics S A) (fuel : Nat) (token : String) (tick : Nat) :
    Res (List (Info S A)) :=
  match Chain.ofToken D E none fuel token ⟨tick, DidParser.new types⟩ with
  | (.error e, _) => .error e
  | (.ok c, _) => Reduce.reduce D sem c

/-- `SUPPORTED_KEY_TYPES` as it is written there (lib.rs 51-53): "you must bring your own key support". -/
def supportedKeyTypes : List (Bytes × KeyCtor) := []

end Doc
end Verif
