import Verif.Model.Proof
import Verif.Model.Ucan

/-! # `ucan/src/builder.rs` -/

namespace Verif

/-- `struct Signable` (builder.rs 22-37). -/
structure Signable where
  issuer : Key
  audience : String
  capabilities : List Capability
  expiration : Option UInt64
  notBefore : Option UInt64
  facts : Facts
  proofs : List String
  addNonce : Bool

namespace Signable

/-- `ucan_header` (builder.rs 44-49). -/
def ucanHeader (s : Signable) : Header := ⟨s.issuer.alg, "JWT"⟩

/-- The nonce (builder.rs 53-59); `rnd` stands for the 32 random bytes. -/
def nonce (s : Signable) (rnd : Bytes) : Option String :=
  if s.addNonce then some (Base64.encodeStr rnd) else none

/-- `ucan_payload` (builder.rs 52-84). Fields are evaluated in the order written: `get_did` before the capabilities. -/
def ucanPayload (s : Signable) (rnd : Bytes) : Res Payload :=
  match s.issuer.did with
  | .error e => .error e
  | .ok iss =>
    match Capabilities.ofVec s.capabilities with
    | .error e => .error e
    | .ok cap =>
      .ok ⟨ucanVersion, iss, s.audience, s.expiration, s.notBefore, s.nonce rnd, cap,
        if s.facts.isEmpty then none else some s.facts, if s.proofs.isEmpty then none else some s.proofs⟩

/-- `sign` (builder.rs 88-104): an error from `ucan_payload` hits `expect`. -/
def sign (D : Deps) (s : Signable) (rnd : Bytes) : Res Ucan :=
  match s.ucanPayload rnd with
  | .error (.err _) => panicked .expectPayload
  | .error f => .error f
  | .ok payload =>
    let data := Ucan.signingInput D s.ucanHeader payload
    match s.issuer.sign data with
    | .error e => .error e
    | .ok signature => .ok (Ucan.new s.ucanHeader payload data signature)

end Signable

/-- `struct UcanBuilder` (builder.rs 109-125). -/
structure Builder where
  issuer : Option Key
  audience : Option String
  capabilities : List Capability
  lifetime : Option UInt64
  expiration : Option UInt64
  notBefore : Option UInt64
  facts : Facts
  proofs : List String
  addNonce : Bool

namespace Builder

/-- `default` (builder.rs 139-154). -/
def default : Builder := ⟨none, none, [], none, none, none, [], [], false⟩

/-- `issued_by` (builder.rs 162-165). -/
def issuedBy (b : Builder) (k : Key) : Builder := { b with issuer := some k }
/-- `for_audience` (builder.rs 172-175). -/
def forAudience (b : Builder) (a : String) : Builder := { b with audience := some a }
/-- `with_lifetime` (builder.rs 180-183). -/
def withLifetime (b : Builder) (s : UInt64) : Builder := { b with lifetime := some s }
/-- `with_expiration` (builder.rs 187-190). -/
def withExpiration (b : Builder) (t : UInt64) : Builder := { b with expiration := some t }
/-- `not_before` (builder.rs 193-196). -/
def withNotBefore (b : Builder) (t : UInt64) : Builder := { b with notBefore := some t }
/-- `with_fact` (builder.rs 199-207); `fact` is the outcome of `serde_json::to_value`. -/
def withFact (b : Builder) (key : String) (fact : Option Json) : Builder :=
  match fact with
  | some v => { b with facts := BMap.insert b.facts key v }
  | none => b
/-- `with_nonce` (builder.rs 210-213). -/
def withNonce (b : Builder) : Builder := { b with addNonce := true }
/-- `default_hasher` (builder.rs 280-282). -/
def defaultHasher : UInt64 := Cid.blake3
/-- `witnessed_by` (builder.rs 220-227). `to_cid` never fails. -/
def witnessedBy (D : Deps) (b : Builder) (authority : Ucan) (hasher : Option UInt64) : Builder :=
  { b with proofs := b.proofs ++ [(authority.toCid D (hasher.getD defaultHasher)).toStr] }
/-- `claiming_capability` (builder.rs 231-237). -/
def claimingCapability (b : Builder) (c : Capability) : Builder := { b with capabilities := b.capabilities ++ [c] }
/-- `claiming_capabilities` (builder.rs 241-251). -/
def claimingCapabilities (b : Builder) (l : List Capability) : Builder := { b with capabilities := b.capabilities ++ l }
/-- `delegating_from` (builder.rs 257-277). -/
def delegatingFrom (D : Deps) (b : Builder) (authority : Ucan) (hasher : Option UInt64) : Builder :=
  let proofs := b.proofs ++ [(authority.toCid D (hasher.getD defaultHasher)).toStr]
  let index := proofs.length - 1
  match proofSemantics.parse D ("prf:" ++ asciiStr (Json.decBytes index)) "ucan/DELEGATE" none with
  | some v => { b with proofs := proofs, capabilities := b.capabilities ++ [proofSemantics.toCapability v] }
  | none => { b with proofs := proofs }

/-- `implied_expiration` (builder.rs 284-290). `checked` tells whether overflow checks are compiled in (debug builds). -/
def impliedExpiration (E : Env) (checked : Bool) (b : Builder) : M (Option UInt64) :=
  match b.expiration with
  | some e => pure (some e)
  | none =>
    match b.lifetime with
    | none => pure none
    | some l => do
      let t ← E.now
      if checked ∧ t.toNat + l.toNat ≥ 2 ^ 64 then M.lift (panicked .addOverflow) else pure (some (t + l))

/-- `build` (builder.rs 292-309). -/
def build (E : Env) (checked : Bool) (b : Builder) : M Signable :=
  match b.issuer with
  | none => M.lift (err .missingIssuer)
  | some k =>
    match b.audience with
    | none => M.lift (err .missingAudience)
    | some a => do
      let exp ← b.impliedExpiration E checked
      pure ⟨k, a, b.capabilities, exp, b.notBefore, b.facts, b.proofs, b.addNonce⟩

/-- A builder call. -/
inductive Op where
  | issuedBy (k : Key)
  | forAudience (a : String)
  | withLifetime (s : UInt64)
  | withExpiration (t : UInt64)
  | notBefore (t : UInt64)
  | withFact (key : String) (fact : Option Json)
  | withNonce
  | witnessedBy (u : Ucan) (hasher : Option UInt64)
  | claimingCapability (c : Capability)
  | claimingCapabilities (l : List Capability)
  | delegatingFrom (u : Ucan) (hasher : Option UInt64)

def apply (D : Deps) (b : Builder) : Op → Builder
  | .issuedBy k => b.issuedBy k
  | .forAudience a => b.forAudience a
  | .withLifetime s => b.withLifetime s
  | .withExpiration t => b.withExpiration t
  | .notBefore t => b.withNotBefore t
  | .withFact k f => b.withFact k f
  | .withNonce => b.withNonce
  | .witnessedBy u h => b.witnessedBy D u h
  | .claimingCapability c => b.claimingCapability c
  | .claimingCapabilities l => b.claimingCapabilities l
  | .delegatingFrom u h => b.delegatingFrom D u h

/-- A chain of builder calls on a fresh builder. -/
def run (D : Deps) (ops : List Op) : Builder := ops.foldl (apply D) default

end Builder
end Verif
