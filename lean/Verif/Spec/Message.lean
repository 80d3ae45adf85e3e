import Verif.Model.Message
import Verif.Spec.Debug

/-! # Specification of the texts of refusals -/

namespace Verif.Spec
open Told

/-- The token is the one presented or one that the store answers with at some time. -/
def Offered (E : Env) (presented token : String) : Prop :=
  token = presented ∨ ∃ n c b, E.read n c = .ok (some (.bytes b)) ∧ bytesStr? b = some token

/-- A party to one of these tokens: its issuer or its audience. -/
def PartyTo (D : Deps) (E : Env) (presented s : String) : Prop :=
  ∃ token u, Offered E presented token ∧ Ucan.fromStr D token = .ok u ∧ (s = u.payload.iss ∨ s = u.payload.aud)

/-- How refusals read, by their kind; `P` are the parties that may be named. -/
inductive Wording (P : String → Prop) : Err → List Char → Prop
  | expired : Wording P .expired "Expired".toList
  | tooEarly : Wording P .tooEarly "Not active yet (too early)".toList
  | notDidKey {s : String} : P s → Wording P .notDidKey ("Expected valid did:key, got: ".toList ++ s.toList)
  | unknownMagic {a b : UInt8} {l m : List Char} : DecimalOf a.toNat l → DecimalOf b.toNat m →
      Wording P .unknownMagic ("Unrecognized magic bytes: [".toList ++ l ++ ", ".toList ++ m ++ "]".toList)
  | headerBase64 : Wording P .base64 "Could not decode UCAN header base64".toList
  | payloadBase64 : Wording P .base64 "Could not decode UCAN payload base64".toList
  | signatureBase64 : Wording P .base64 "Could not parse UCAN signature base64".toList
  | headerJson : Wording P .json "Could not parse UCAN header JSON".toList
  | payloadJson : Wording P .json "Could not parse UCAN payload JSON".toList
  | noPayload : Wording P .missingPart "Missing UCAN payload in token part".toList
  | noSignature : Wording P .missingPart "Missing UCAN signature in token part".toList
  | wrongCodec {n : Nat} {l : List Char} : n = 0 ∧ l = ['0'] ∨ HexOf n l →
      Wording P .wrongCodec ("Only 'raw' codec supported, but CID refers to 0x".toList ++ l)
  | noToken {c : Cid} : Wording P .noToken ("No UCAN was found for CID Cid(".toList ++ c.toStr.toList ++ ")".toList)
  | lifetime : Wording P .lifetime "Invalid UCAN link: lifetime exceeds attenuation".toList
  | audience {s t : String} : P s → P t → Wording P .audience ("Invalid UCAN link: audience ".toList ++ s.toList ++ " does not match issuer ".toList ++ t.toList)
  | noProofAt {n : Nat} {l : List Char} : DecimalOf n l → Wording P .noProofAt ("Unable to redelegate proof; no proof at zero-based index ".toList ++ l)

/-- The kinds of refusal that this library words itself. -/
def ownKinds : List Err := [.expired, .tooEarly, .notDidKey, .unknownMagic, .base64, .json, .missingPart, .wrongCodec, .noToken, .lifetime, .audience, .noProofAt]

/-- A failure of another kind. -/
def Outside (f : Fail) : Prop := ∀ e ∈ ownKinds, f ≠ .err e

/-- Keys, their constructors and the store report failures of their own kinds only. -/
structure OwnFailures (E : Env) (p : DidParser) : Prop where
  construct : ∀ magic ctor b f, BMap.get? p.ctors magic = some ctor → ctor b = .error f → Outside f
  constructed : ∀ magic ctor b key m s f, BMap.get? p.ctors magic = some ctor → ctor b = .ok key → key.verify m s = .error f → Outside f
  cached : ∀ did key m s f, BMap.get? p.cache did = some key → key.verify m s = .error f → Outside f
  store : ∀ n c f, E.read n c = .error f → Outside f

end Verif.Spec
