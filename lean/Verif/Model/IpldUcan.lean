import Verif.Codec.Varint
import Verif.Model.Ucan

/-! # `ucan/src/ipld/` and `ucan/src/crypto/signature.rs` -/

namespace Verif

/-! ## Principals (`ipld/principle.rs`) -/

/-- `struct Principle(Vec<u8>)` (principle.rs 9-11). -/
structure Principle where
  bytes : Bytes
deriving DecidableEq

namespace Principle

/-- `DID_IPLD_PREFIX` (principle.rs 7). -/
def ipldPrefix : Bytes := [0x9d, 0x1a]

/-- `FromStr` (principle.rs 13-25). -/
def ofStr (s : String) : Res Principle :=
  if Did.didKeyPrefix.isPrefixOf (strBytes s) then
    match Base58.decode ((strBytes s).drop Did.didKeyPrefix.length) with
    | none => err .base58
    | some b => .ok ⟨b⟩
  else if Did.didPrefix.isPrefixOf (strBytes s) then .ok ⟨ipldPrefix ++ (strBytes s).drop Did.didPrefix.length⟩
  else err .notDid

/-- `Display`, through `to_string` (principle.rs 27-41), which panics when `fmt` returns an error. -/
def toStr (p : Principle) : Res String :=
  match p.bytes with
  | b0 :: b1 :: rest =>
    if [b0, b1] = ipldPrefix then
      match bytesStr? rest with
      | some s => .ok ("did:" ++ s)
      | none => panicked .displayUtf8
    else .ok ("did:key:z" ++ asciiStr (Base58.encode p.bytes))
  | _ => panicked .slicePrinciple

end Principle

/-! ## Signature algorithms (`crypto/signature.rs`, `ipld/signature.rs`) -/

/-- `enum JwtSignatureAlgorithm` (crypto/signature.rs 5-12). -/
inductive JwtAlg where
  | EdDSA | RS256 | ES256 | ES384 | ES512
deriving DecidableEq

namespace JwtAlg

/-- `Display` derived by strum. -/
def toStr : JwtAlg → String
  | EdDSA => "EdDSA"
  | RS256 => "RS256"
  | ES256 => "ES256"
  | ES384 => "ES384"
  | ES512 => "ES512"

/-- `EnumString` derived by strum: exact names. -/
def ofStr (s : String) : Option JwtAlg :=
  if s = "EdDSA" then some EdDSA
  else if s = "RS256" then some RS256
  else if s = "ES256" then some ES256
  else if s = "ES384" then some ES384
  else if s = "ES512" then some ES512
  else none

end JwtAlg

/-- `enum VarsigPrefix` (ipld/signature.rs 25-36). -/
inductive Varsig where
  | NonStandard | ES256K | BLS12381G1 | BLS12381G2 | EdDSA | ES256 | ES384 | ES512 | RS256 | EIP191
deriving DecidableEq

namespace Varsig

/-- `TryFrom<JwtSignatureAlgorithm>` (ipld/signature.rs 38-50); never fails. -/
def ofAlg : JwtAlg → Varsig
  | .EdDSA => EdDSA
  | .RS256 => RS256
  | .ES256 => ES256
  | .ES384 => ES384
  | .ES512 => ES512

/-- `TryFrom<VarsigPrefix> for JwtSignatureAlgorithm` (ipld/signature.rs 52-70). -/
def toAlg : Varsig → Option JwtAlg
  | EdDSA => some .EdDSA
  | RS256 => some .RS256
  | ES256 => some .ES256
  | ES384 => some .ES384
  | ES512 => some .ES512
  | _ => none

/-- `From<VarsigPrefix> for u64` (ipld/signature.rs 8-17, 80-95). -/
def code : Varsig → UInt64
  | NonStandard => 0xd000
  | ES256K => 0xd0e7
  | BLS12381G1 => 0xd0ea
  | BLS12381G2 => 0xd0eb
  | EdDSA => 0xd0ed
  | ES256 => 0xd01200
  | ES384 => 0xd01201
  | ES512 => 0xd01202
  | RS256 => 0xd01205
  | EIP191 => 0xd191

/-- `TryFrom<u64>` (ipld/signature.rs 97-115). -/
def ofCode (n : UInt64) : Option Varsig :=
  if n = 0xd0ed then some EdDSA
  else if n = 0xd01205 then some RS256
  else if n = 0xd0e7 then some ES256K
  else if n = 0xd0ea then some BLS12381G1
  else if n = 0xd0eb then some BLS12381G2
  else if n = 0xd191 then some EIP191
  else if n = 0xd01200 then some ES256
  else if n = 0xd01201 then some ES384
  else if n = 0xd01202 then some ES512
  else if n = 0xd000 then some NonStandard
  else none

/-- `FromStr` (ipld/signature.rs 72-78). -/
def ofStr (s : String) : Option Varsig := (JwtAlg.ofStr s).map ofAlg

end Varsig

/-- `struct Signature(pub Vec<u8>)` (ipld/signature.rs 120-122). -/
structure IpldSig where
  bytes : Bytes
deriving DecidableEq

namespace IpldSig

/-- `TryFrom<(JwtSignatureAlgorithm, T)>` (ipld/signature.rs 142-159). -/
def ofAlg (alg : JwtAlg) (signature : Bytes) : IpldSig :=
  ⟨Varint.encode (Varsig.code (Varsig.ofAlg alg)) ++ (Varint.encode (UInt64.ofNat signature.length) ++ signature)⟩

/-- `Signature::decode` (ipld/signature.rs 124-137); `usize` is 64 bits wide. -/
def decode (s : IpldSig) : Res (JwtAlg × Bytes) :=
  match Varint.decode s.bytes with
  | none => err .varint
  | some (pre, buffer) =>
    match Varint.decode buffer with
    | none => err .varint
    | some (len, buffer) =>
      match Varsig.ofCode pre with
      | none => err .badVarsig
      | some v =>
        match Varsig.toAlg v with
        | none => err .badAlg
        | some alg => if len.toNat ≤ buffer.length then .ok (alg, buffer.take len.toNat) else panicked .sliceVarsig

end IpldSig

/-! ## UCAN-IPLD (`ipld/ucan.rs`) -/

/-- `struct UcanIpld` (ipld/ucan.rs 12-27). -/
structure UcanIpld where
  v : String
  iss : Principle
  aud : Principle
  s : IpldSig
  cap : Capabilities
  prf : Option (List Cid)
  exp : Option UInt64
  fct : Option Facts
  nnc : Option String
  nbf : Option UInt64
deriving DecidableEq

namespace UcanIpld

/-- The proof list loop (ipld/ucan.rs 33-37). -/
def parseCids (D : Deps) : List String → Res (List Cid)
  | [] => .ok []
  | s :: ss =>
    match Cid.parse D s with
    | none => err .cidText
    | some c =>
      match parseCids D ss with
      | .ok cs => .ok (c :: cs)
      | .error e => .error e

/-- ipld/ucan.rs 33-46: an empty list becomes `None`. -/
def prfOf (D : Deps) : Option (List String) → Res (Option (List Cid))
  | none => .ok none
  | some l =>
    match parseCids D l with
    | .error e => .error e
    | .ok [] => .ok none
    | .ok cs => .ok (some cs)

/-- `TryFrom<&Ucan> for UcanIpld` (ipld/ucan.rs 29-63). -/
def ofUcan (D : Deps) (u : Ucan) : Res UcanIpld :=
  match prfOf D u.payload.prf with
  | .error e => .error e
  | .ok prf =>
    match Principle.ofStr u.payload.iss with
    | .error e => .error e
    | .ok iss =>
      match Principle.ofStr u.payload.aud with
      | .error e => .error e
      | .ok aud =>
        match JwtAlg.ofStr u.header.alg with
        | none => err .badAlg
        | some alg =>
          .ok ⟨u.payload.ucv, iss, aud, IpldSig.ofAlg alg u.signature, u.payload.cap, prf, u.payload.exp, u.payload.fct,
            u.payload.nnc, u.payload.nbf⟩

/-- `TryFrom<&UcanIpld> for Ucan` (ipld/ucan.rs 65-101). -/
def toUcan (D : Deps) (x : UcanIpld) : Res Ucan :=
  match x.s.decode with
  | .error e => .error e
  | .ok (alg, signature) =>
    match x.iss.toStr with
    | .error e => .error e
    | .ok iss =>
      match x.aud.toStr with
      | .error e => .error e
      | .ok aud =>
        let header : Header := ⟨alg.toStr, "JWT"⟩
        let payload : Payload := ⟨ucanVersion, iss, aud, x.exp, x.nbf, x.nnc, x.cap, x.fct, x.prf.map fun l => l.map Cid.toStr⟩
        .ok (Ucan.new header payload (Ucan.signingInput D header payload) signature)

end UcanIpld
end Verif
