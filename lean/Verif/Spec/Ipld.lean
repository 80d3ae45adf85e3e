import Verif.Model.IpldUcan

/-! # Specification of UCAN-IPLD -/

namespace Verif.Spec

/-! ## Unsigned varints -/

/-- Little-endian base 128 with continuation bits. -/
inductive Leb : Bytes → Nat → Prop
  | last {b : UInt8} : b.toNat < 128 → Leb [b] b.toNat
  | more {b : UInt8} {t : Bytes} {v : Nat} : 128 ≤ b.toNat → Leb t v → Leb (b :: t) (b.toNat - 128 + 128 * v)

/-- At most ten bytes, without a superfluous zero at the end; bits beyond the 64th are lost. -/
def VarintOf (p : Bytes) (n : UInt64) : Prop :=
  ∃ v, Leb p v ∧ p.length ≤ 10 ∧ (p.length = 1 ∨ p.getLast? ≠ some 0) ∧ n.toNat = v % 2 ^ 64

/-! ## Signature algorithms -/

/-- The JWT name and the varsig code of each supported algorithm. -/
def algTable : List (String × UInt64) :=
  [("EdDSA", 0xd0ed), ("RS256", 0xd01205), ("ES256", 0xd01200), ("ES384", 0xd01201), ("ES512", 0xd01202)]

/-- Varsig codes that are known but have no JWT algorithm. -/
def codesWithoutAlg : List UInt64 := [0xd000, 0xd0e7, 0xd0ea, 0xd0eb, 0xd191]

/-! ## Principals -/

/-- A `did:key` stands for its bytes, another DID for the DID prefix and the text after `did:`. -/
inductive Principal : String → Bytes → Prop
  | key {s : String} {b : Bytes} : strBytes s = strBytes "did:key:z" ++ Base58.encode b → Principal s b
  | other {t : String} : (¬ ∃ r, strBytes ("did:" ++ t) = strBytes "did:key:z" ++ r) → Principal ("did:" ++ t) ([0x9d, 0x1a] ++ strBytes t)

/-- A `did:key` with fewer than two bytes, or whose bytes start like those of another DID. -/
def Confusable (s : String) : Prop :=
  ∃ b, strBytes s = strBytes "did:key:z" ++ Base58.encode b ∧ (b.length < 2 ∨ ∃ r, b = 0x9d :: 0x1a :: r)

/-! ## Tokens -/

/-- Tokens that UCAN-IPLD can represent. -/
structure Portable (D : Deps) (u : Ucan) : Prop where
  version : u.payload.ucv = "0.10.0-canary"
  typ : u.header.typ = "JWT"
  alg : ∃ n, (u.header.alg, n) ∈ algTable
  proofs : u.payload.prf ≠ some []
  canonical : ∀ s ∈ u.payload.prf.getD [], ∃ c, Cid.parse D s = some c ∧ c.toStr = s
  issuer : (∃ p, Principal u.payload.iss p) ∧ ¬ Confusable u.payload.iss
  audience : (∃ p, Principal u.payload.aud p) ∧ ¬ Confusable u.payload.aud

end Verif.Spec
