import Verif.Model.Payload
import Verif.Model.World

/-! # `ucan/src/ucan.rs` -/

namespace Verif

/-- `struct Ucan` (ucan.rs 45-51). -/
structure Ucan where
  header : Header
  payload : Payload
  signedData : Bytes
  signature : Bytes
deriving DecidableEq, Inhabited

/-- `str::split(c)` on bytes; never empty. -/
def splitByte (c : UInt8) : Bytes → List Bytes
  | [] => [[]]
  | x :: xs =>
    if x = c then [] :: splitByte c xs
    else match splitByte c xs with
      | h :: t => (x :: h) :: t
      | [] => [[x]]

namespace Ucan

/-- `Ucan::new` (ucan.rs 54-66). -/
def new (header : Header) (payload : Payload) (signedData signature : Bytes) : Ucan :=
  ⟨header, payload, signedData, signature⟩

/-- `issuer` (ucan.rs 158-160). The other accessors (ucan.rs 112-118, 154-156, 178-185, 191-197) are the fields themselves. -/
def issuer (u : Ucan) : String := u.payload.iss
/-- `audience` (ucan.rs 162-164). -/
def audience (u : Ucan) : String := u.payload.aud
/-- `proofs` (ucan.rs 166-168). -/
def proofs (u : Ucan) : Option (List String) := u.payload.prf
/-- `expires_at` (ucan.rs 170-172). -/
def expiresAt (u : Ucan) : Option UInt64 := u.payload.exp
/-- `not_before` (ucan.rs 174-176). -/
def notBefore (u : Ucan) : Option UInt64 := u.payload.nbf
/-- `capabilities` (ucan.rs 187-189). -/
def capabilities (u : Ucan) : Capabilities := u.payload.cap

/-- `is_expired` (ucan.rs 103-109). -/
def isExpired (E : Env) (u : Ucan) (nowTime : Option UInt64) : M Bool :=
  match u.payload.exp with
  | some exp =>
    match nowTime with
    | some t => pure (decide (exp < t))
    | none => do
      let t ← E.now
      pure (decide (exp < t))
  | none => pure false

/-- `is_too_early` (ucan.rs 121-126). -/
def isTooEarly (E : Env) (u : Ucan) : M Bool :=
  match u.payload.nbf with
  | some nbf => do
    let t ← E.now
    pure (decide (nbf > t))
  | none => pure false

/-- `check_signature` (ucan.rs 86-89). -/
def checkSignature (u : Ucan) : M Unit := do
  let key ← parseDid u.payload.iss
  M.lift (key.verify u.signedData u.signature)

/-- `validate` (ucan.rs 69-83). -/
def validate (E : Env) (u : Ucan) (nowTime : Option UInt64) : M Unit := do
  let expired ← isExpired E u nowTime
  if expired then M.lift (err .expired)
  else do
    let early ← isTooEarly E u
    if early then M.lift (err .tooEarly)
    else checkSignature u

/-- `lifetime_begins_before` (ucan.rs 132-138). -/
def lifetimeBeginsBefore (self other : Ucan) : Bool :=
  match self.payload.nbf, other.payload.nbf with
  | some a, some b => decide (a ≤ b)
  | some _, none => false
  | none, _ => true

/-- `lifetime_ends_after` (ucan.rs 141-147). -/
def lifetimeEndsAfter (self other : Ucan) : Bool :=
  match self.payload.exp, other.payload.exp with
  | some a, some b => decide (a ≥ b)
  | some _, none => false
  | none, _ => true

/-- `lifetime_encompasses` (ucan.rs 150-152). -/
def lifetimeEncompasses (self other : Ucan) : Bool :=
  lifetimeBeginsBefore self other && lifetimeEndsAfter self other

/-- The text `header.payload` that is signed, for given structures (builder.rs 95-100, ipld/ucan.rs 91-98, `jwt_base64_encode` serde.rs 40-44). -/
def signingInput (D : Deps) (h : Header) (p : Payload) : Bytes :=
  Base64.encode (Codec.headerBytes D h) ++ 46 :: Base64.encode (Codec.payloadBytes D p)

/-- `encode` (ucan.rs 93-100), as bytes. -/
def encodeBytes (D : Deps) (u : Ucan) : Bytes :=
  signingInput D u.header u.payload ++ 46 :: Base64.encode u.signature

/-- `encode` (ucan.rs 93-100). It never fails: serialising strings, numbers and JSON values cannot. -/
def encode (D : Deps) (u : Ucan) : String := asciiStr (encodeBytes D u)

/-- `to_cid` (ucan.rs 199-204). -/
def toCid (D : Deps) (u : Ucan) (hasher : UInt64) : Cid :=
  ⟨true, Cid.rawCodec, hasher, D.digest hasher (encodeBytes D u)⟩

/-- The text whose signature is checked (ucan.rs 231-236): the first two segments rejoined. -/
def signedText : List Bytes → Bytes
  | a :: b :: _ => a ++ 46 :: b
  | [a] => a
  | [] => []

/-- One segment: base64 then DAG-JSON (ucan.rs 244-256). -/
def decodePart {α : Type} (f : Bytes → Option α) (part : Bytes) : Res α :=
  match Base64.decode part with
  | none => err .base64
  | some b => orErr .json (f b)

/-- `from_str` (ucan.rs 226-270) on the bytes of the token. -/
def ofBytes (D : Deps) (token : Bytes) : Res Ucan :=
  let parts := splitByte 46 token
  let signed := signedText parts
  match parts with
  | [] => err .missingPart
  | p0 :: rest =>
    match decodePart (Codec.headerOfBytes D) p0 with
    | .error e => .error e
    | .ok header =>
      match rest with
      | [] => err .missingPart
      | p1 :: rest =>
        match decodePart (Codec.payloadOfBytes D) p1 with
        | .error e => .error e
        | .ok payload =>
          match rest with
          | [] => err .missingPart
          | p2 :: _ =>
            match Base64.decode p2 with
            | none => err .base64
            | some signature => .ok (new header payload signed signature)

/-- `from_str` (ucan.rs 226-270), also `TryFrom<&str>` and `TryFrom<String>` (208-223). -/
def fromStr (D : Deps) (token : String) : Res Ucan := ofBytes D (strBytes token)

end Ucan
end Verif
