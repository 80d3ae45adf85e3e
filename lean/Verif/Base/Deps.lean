import Verif.Base.Bytes

/-!
# Parameters of the model

Third-party behaviour that is either version dependent or irrelevant to the properties. Every
theorem quantifies over it.
-/

namespace Verif

/-- A finite double, by its bits. -/
structure F64 where
  bits : UInt64
deriving DecidableEq, Inhabited

/-- What `Url::parse` yields: the code looks at `scheme()` and `path()`, the scope types of users at any part. `host` is empty for URLs without;
`port` is not the default of the scheme. -/
structure Url where
  scheme : String
  host : String
  path : String
  query : Option String
  fragment : Option String
  user : String
  password : Option String
  port : Option Nat
deriving DecidableEq, Inhabited

structure Deps where
  /-- serde_json's text of a finite double. -/
  f64Print : F64 → Bytes
  /-- serde_json's reading of a number lexeme as a double (`none`: out of range). -/
  f64Parse : Bytes → Option F64
  /-- Does DAG-JSON decoding insist that only whitespace follows the value? -/
  jsonCheckEnd : Bool
  /-- Does `serde_json::Value` accept the `i128` integers of the IPLD data model? (depends on the serde_json version) -/
  valueI128 : Bool
  /-- Multibase decoders other than base32-lower (`b`) and base58btc (`z`), by prefix byte. -/
  otherBase : UInt8 → Bytes → Option Bytes
  /-- `MultihashDigest::digest`: digest bytes for a hash code. -/
  digest : UInt64 → Bytes → Bytes
  /-- `Url::parse` on inputs with the scheme `file`: given the bytes after the colon. -/
  urlFile : Bytes → Option Url
  /-- `domain_to_ascii` of the `idna` crate on domains with characters beyond ASCII or labels that start with `xn--`. -/
  idna : Bytes → Option Bytes
  /-- Does libipld's serde deserialiser also build structs from lists, field by field? (depends on its version) -/
  structSeq : Bool

end Verif
