import Verif.Spec.Authority
import Verif.Spec.EndToEnd

/-!
# Specification of checks on reports

What a resource server can do with the reported capabilities.
-/

namespace Verif.Spec
open Builder (Op)

variable {S A : Type}

/-- The check of the crate's own tests (`tests/attenuation.rs` 419-444) for one request: `owner` is among the originators of a reported
capability that enables it. -/
def Listed (sem : Semantics S A) (out : List (Info S A)) (owner : String) (request : View S A) : Prop :=
  ∃ i ∈ out, owner ∈ i.originators ∧ sem.enables i.capability request = true

/-- Somewhere in the chain `owner` signed a claim that covers the request. This is the least a server wants to know before acting for `owner`. -/
def Vouched (D : Deps) (sem : Semantics S A) (c : Chain) (owner : String) (request : View S A) : Prop :=
  ∃ q, Sub q c ∧ q.ucan.payload.iss = owner ∧ ∃ v, Claimed D sem q.ucan v ∧ CoveredBy sem v request

/-- The calls that claim a capability and hand on everything in a token. -/
def mixCalls (k : Key) (aud : String) (exp : UInt64) (c : Capability) (u : Ucan) : List Op :=
  [.issuedBy k, .forAudience aud, .withExpiration exp, .claimingCapability c, .delegatingFrom u none]

end Verif.Spec
