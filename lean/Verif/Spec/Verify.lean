import Verif.Spec.Crypto
import Verif.Spec.DidKey

/-! # Specification: whose signature a token carries

In terms of the signature schemes and the `did:key` method alone. -/

namespace Verif.Spec

/-- The DID is the `did:key` text for key type `code` of bytes that `sc` reads as a public key, under which the signature of `m` is good. -/
def GoodUnder (sc : SigScheme) (code : Nat) (did : String) (m s : Bytes) : Prop :=
  ∃ b k, DidKey code b did ∧ sc.pubOfBytes b = some k ∧ sc.verify k m s = true

/-- The signature of `m` is good for the Ed25519, P-256 or RSA key that the DID spells out. -/
def Endorsed (ed p256 rsa : SigScheme) (did : String) (m s : Bytes) : Prop :=
  GoodUnder ed 0xed did m s ∨ GoodUnder p256 0x1200 did m s ∨ GoodUnder rsa 0x1205 did m s

/-- The parser was made with the three key types of the library and nothing else. -/
structure Standard (ed p256 rsa : SigScheme) (ctors : BMap Bytes KeyCtor) : Prop where
  ed25519 : BMap.get? ctors Did.ed25519Magic = some (KeySupport.ed25519Ctor ed)
  p256 : BMap.get? ctors Did.p256Magic = some (KeySupport.p256Ctor p256)
  rsa : BMap.get? ctors Did.rsaMagic = some (KeySupport.rsaCtor rsa)
  only : ∀ m c, BMap.get? ctors m = some c → m = Did.ed25519Magic ∨ m = Did.p256Magic ∨ m = Did.rsaMagic

/-- Signatures of the scheme cannot be forged: what verifies under the public key read from `b` is in the history of what was signed for it. -/
def SchemeUnforgeable (sc : SigScheme) (H : Bytes → Bytes → Prop) : Prop :=
  ∀ b k, sc.pubOfBytes b = some k → ∀ m s, sc.verify k m s = true → H b m

/-- What was signed for a DID, in terms of what was signed for public keys. -/
def SignedFor (hEd hP256 hRsa : Bytes → Bytes → Prop) (did : String) (m : Bytes) : Prop :=
  (∃ b, DidKey 0xed b did ∧ hEd b m) ∨ (∃ b, DidKey 0x1200 b did ∧ hP256 b m) ∨ ∃ b, DidKey 0x1205 b did ∧ hRsa b m

end Verif.Spec
