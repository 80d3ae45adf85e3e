import Verif.Model.Builder

/-!
# Specification of the builder: what a sequence of calls asks for

Everything is read off the list of calls: the last call of a kind, or the calls of a kind in order.
-/

namespace Verif.Spec
open Builder (Op)

def issuerCall : Op → Option Key
  | .issuedBy k => some k
  | _ => none
def audienceCall : Op → Option String
  | .forAudience a => some a
  | _ => none
def lifetimeCall : Op → Option UInt64
  | .withLifetime s => some s
  | _ => none
def expirationCall : Op → Option UInt64
  | .withExpiration t => some t
  | _ => none
def notBeforeCall : Op → Option UInt64
  | .notBefore t => some t
  | _ => none
/-- A fact that could be serialised. -/
def factCall : Op → Option (String × Json)
  | .withFact k (some v) => some (k, v)
  | _ => none
def nonceCall : Op → Option Unit
  | .withNonce => some ()
  | _ => none
/-- An authority and the hash function to name it with. -/
def proofCall : Op → Option (Ucan × UInt64)
  | .witnessedBy u h => some (u, h.getD 0x1e)
  | .delegatingFrom u h => some (u, h.getD 0x1e)
  | _ => none

/-- The argument of the last call of a kind. -/
def lastCall {α : Type} (f : Op → Option α) (ops : List Op) : Option α := (ops.filterMap f).getLast?

/-- The reference to an authority: the text of a version 1 raw CID of its token. -/
def reference (D : Deps) (u : Ucan) (hasher : UInt64) : String := Cid.toStr ⟨true, 0x55, hasher, D.digest hasher (strBytes (u.encode D))⟩

/-- The references of all authorities, in order. -/
def references (D : Deps) (ops : List Op) : List String := (ops.filterMap proofCall).map fun p => reference D p.1 p.2

/-- The claim to everything in the proof at position `i`. -/
def delegation (i : Nat) : Capability := ⟨"prf:" ++ asciiStr (Json.decBytes i), "ucan/DELEGATE", .obj []⟩

/-- The claims made by one call, when `n` authorities were named before. -/
def claimsOf (n : Nat) : Op → List Capability
  | .claimingCapability c => [c]
  | .claimingCapabilities l => l
  | .delegatingFrom _ _ => [delegation n]
  | _ => []

/-- All claims in order, when `n` authorities were named before. -/
def claimed (n : Nat) : List Op → List Capability
  | [] => []
  | op :: ops => claimsOf n op ++ claimed (n + (proofCall op).toList.length) ops

/-- The builder holds what the calls asked for. -/
structure Asked (D : Deps) (ops : List Op) (b : Builder) : Prop where
  issuer : b.issuer = lastCall issuerCall ops
  audience : b.audience = lastCall audienceCall ops
  lifetime : b.lifetime = lastCall lifetimeCall ops
  expiration : b.expiration = lastCall expirationCall ops
  notBefore : b.notBefore = lastCall notBeforeCall ops
  addNonce : b.addNonce = (lastCall nonceCall ops).isSome
  facts : b.facts = BMap.ofList (ops.filterMap factCall)
  proofs : b.proofs = references D ops
  capabilities : b.capabilities = claimed 0 ops

end Verif.Spec
