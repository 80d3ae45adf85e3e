import Verif.Model.Did
import Verif.Model.IpldUcan

/-!
# `ucan-key-support`

Each key type is a signature scheme (of a third-party crate) wrapped the same way; the schemes are parameters.
-/

namespace Verif

/-- What the wrappers use of ed25519-zebra, p256 and rsa (with sha2). -/
structure SigScheme where
  Pub : Type
  Priv : Type
  /-- Public key to bytes: `as_ref`, `to_encoded_point(true)`, `to_pkcs1_der`. Only the last can fail. -/
  pubBytes : Pub → Option Bytes
  /-- `try_from(bytes)`, `from_pkcs1_der`. -/
  pubOfBytes : Bytes → Option Pub
  /-- Signature bytes; `none` is an error (possible for RSA). -/
  sign : Priv → Bytes → Option Bytes
  /-- Reading the signature bytes and verifying. -/
  verify : Pub → Bytes → Bytes → Bool

namespace KeySupport

/-- `did:key:z` and base58 (ed25519.rs 27-30, p256.rs 30-33, rsa.rs 32-42). -/
def didOf (bytes : Bytes) : String := "did:key:z" ++ asciiStr (Base58.encode bytes)

def signWith (sc : SigScheme) (priv : Option sc.Priv) (payload : Bytes) : Res Bytes :=
  match priv with
  | some k => orErr .keyCtor (sc.sign k payload)
  | none => err .noPrivateKey

def verifyWith (sc : SigScheme) (pub : sc.Pub) (payload signature : Bytes) : Res Unit :=
  if sc.verify pub payload signature then .ok () else err .badSignature

/-- `Ed25519KeyMaterial` and `P256KeyMaterial` (ed25519.rs 17-49, p256.rs 20-51). Writing the public key cannot fail for these. -/
def curveKey (sc : SigScheme) (alg : JwtAlg) (magic : Bytes) (pub : sc.Pub) (priv : Option sc.Priv) : Key where
  alg := alg.toStr
  did := .ok (didOf (magic ++ (sc.pubBytes pub).getD []))
  sign := signWith sc priv
  verify := verifyWith sc pub

/-- `RsaKeyMaterial` (rsa.rs 22-70): a failure to serialise the public key is swallowed and yields the DID of the empty byte string. -/
def rsaKey (sc : SigScheme) (pub : sc.Pub) (priv : Option sc.Priv) : Key where
  alg := JwtAlg.RS256.toStr
  did := .ok (didOf (match sc.pubBytes pub with
    | some b => Did.rsaMagic ++ b
    | none => []))
  sign := signWith sc priv
  verify := verifyWith sc pub

def ed25519Key (sc : SigScheme) := curveKey sc .EdDSA Did.ed25519Magic
def p256Key (sc : SigScheme) := curveKey sc .ES256 Did.p256Magic

/-- `bytes_to_ed25519_key` (ed25519.rs 12-15). -/
def ed25519Ctor (sc : SigScheme) : KeyCtor := fun b =>
  match sc.pubOfBytes b with
  | some p => .ok (ed25519Key sc p none)
  | none => err .keyCtor

/-- `bytes_to_p256_key` (p256.rs 14-17). -/
def p256Ctor (sc : SigScheme) : KeyCtor := fun b =>
  match sc.pubOfBytes b with
  | some p => .ok (p256Key sc p none)
  | none => err .keyCtor

/-- `bytes_to_rsa_key` (rsa.rs 14-20). -/
def rsaCtor (sc : SigScheme) : KeyCtor := fun b =>
  match sc.pubOfBytes b with
  | some p => .ok (rsaKey sc p none)
  | none => err .keyCtor

/-- `convert_spki_to_rsa_public_key` (web_crypto.rs 11-16). -/
def convertSpki (b : Bytes) : Res Bytes := if b.length < 24 then panicked .sliceSpki else .ok (b.drop 24)

/-- What a `WebCryptoRsaKeyMaterial` finds in its JavaScript environment (web_crypto.rs 20-21). Building the algorithm objects
(`Reflect::set` on fresh objects) is taken not to fail. -/
structure WebCrypto where
  /-- `get_subtle_crypto` (web_crypto.rs 24-33): an error without `crypto`, a panic if that is something else. -/
  subtle : Res Unit
  /-- `export_key("spki", …)` of the public key; `none` if it fails or yields something else (web_crypto.rs 113-123). -/
  exportSpki : Option Bytes
  hasPrivate : Bool
  /-- `subtle.sign` with the private key. -/
  sign : Bytes → Option Bytes
  /-- `subtle.verify` with the public key; `none` is a JavaScript error or an answer that is no boolean. -/
  verify : Bytes → Bytes → Option Bool

/-- `WebCryptoRsaKeyMaterial::get_did` (web_crypto.rs 109-130). -/
def webDid (sc : SigScheme) (js : WebCrypto) : Res String :=
  match js.subtle with
  | .error e => .error e
  | .ok _ =>
    match js.exportSpki with
    | none => panicked .expectCrypto
    | some spki =>
      match convertSpki spki with
      | .error e => .error e
      | .ok b =>
        match sc.pubOfBytes b with
        | none => err .keyCtor
        | some pub => (rsaKey sc pub none).did

/-- `WebCryptoRsaKeyMaterial::sign` (web_crypto.rs 132-163). -/
def webSign (js : WebCrypto) (payload : Bytes) : Res Bytes :=
  if js.hasPrivate then
    match js.subtle with
    | .error e => .error e
    | .ok _ => orErr .webCrypto (js.sign payload)
  else err .noPrivateKey

/-- `WebCryptoRsaKeyMaterial::verify` (web_crypto.rs 165-204). -/
def webVerify (js : WebCrypto) (payload signature : Bytes) : Res Unit :=
  match js.subtle with
  | .error e => .error e
  | .ok _ =>
    match js.verify payload signature with
    | none => err .webCrypto
    | some true => .ok ()
    | some false => err .badSignature

/-- `impl KeyMaterial for WebCryptoRsaKeyMaterial` (web_crypto.rs 103-205). -/
def webKey (sc : SigScheme) (js : WebCrypto) : Key where
  alg := JwtAlg.RS256.toStr
  did := webDid sc js
  sign := webSign js
  verify := webVerify js

end KeySupport
end Verif
