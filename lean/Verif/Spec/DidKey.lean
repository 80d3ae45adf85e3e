import Verif.Spec.Cid
import Verif.Spec.Encoding

/-! # Specification: the `did:key` method

Nothing here refers to the tables of the code: multicodec codes are numbers, algorithm names are those of RFC 7518 and RFC 8037. -/

namespace Verif.Spec

/-- The key types of the multicodec table the library has constants for. -/
inductive KeyType where
  | ed25519 | rsa | bls12381g1 | bls12381g2 | p256 | secp256k1
deriving DecidableEq

/-- Multicodec codes of public keys (`ed25519-pub`, `rsa-pub`, `bls12_381-g1-pub`, `bls12_381-g2-pub`, `p256-pub`, `secp256k1-pub`). -/
def KeyType.code : KeyType → Nat
  | ed25519 => 0xed
  | rsa => 0x1205
  | bls12381g1 => 0xea
  | bls12381g2 => 0xeb
  | p256 => 0x1200
  | secp256k1 => 0xe7

/-- The DID of a public key: the multibase base58btc text of its multicodec code and its bytes. -/
def DidKey (code : Nat) (pub : Bytes) (did : String) : Prop :=
  ∃ c t, Leb128 c code ∧ Base58Text (c ++ pub) t ∧ strBytes did = strBytes "did:key:" ++ strBytes "z" ++ t

end Verif.Spec
