import Verif.Spec.Crypto

/-!
# DER, as far as RSA public keys need it

X.690 sections 8.1.3, 8.3 and 10.1; PKCS #1 `RSAPublicKey` and X.509 `SubjectPublicKeyInfo`.
-/

namespace Verif.Spec

/-- The number written in base 256, most significant byte first. -/
def derNumber (ds : Bytes) : Nat := ds.foldl (fun a d => a * 256 + d.toNat) 0

/-- The length octets for a content of `n` bytes. -/
inductive LengthText : Nat → Bytes → Prop
  | short {n : Nat} : n < 128 → LengthText n [UInt8.ofNat n]
  | long {d : UInt8} {ds : Bytes} : 128 ≤ derNumber (d :: ds) → d ≠ 0 → ds.length < 126 →
      LengthText (derNumber (d :: ds)) (UInt8.ofNat (129 + ds.length) :: d :: ds)

/-- A tagged value. -/
def Tlv (tag : UInt8) (body t : Bytes) : Prop := ∃ l, LengthText body.length l ∧ t = tag :: (l ++ body)

/-- The content of a non-negative INTEGER, in as few bytes as possible. -/
def DerNatural (n : Nat) (c : Bytes) : Prop :=
  derNumber c = n ∧ ∃ d ds, c = d :: ds ∧ d < 128 ∧ (d = 0 → ∀ d' ds', ds = d' :: ds' → 128 ≤ d')

/-- `RSAPublicKey`: modulus and exponent. -/
def Pkcs1 (n e : Nat) (b : Bytes) : Prop :=
  ∃ nc ec ni ei, DerNatural n nc ∧ DerNatural e ec ∧ Tlv 0x02 nc ni ∧ Tlv 0x02 ec ei ∧ Tlv 0x30 (ni ++ ei) b

/-- The `AlgorithmIdentifier` of RSA keys: the object identifier 1.2.840.113549.1.1.1 and NULL. -/
def rsaIdentifier : Bytes := [0x30, 0x0d, 0x06, 0x09, 0x2a, 0x86, 0x48, 0x86, 0xf7, 0x0d, 0x01, 0x01, 0x01, 0x05, 0x00]

/-- `SubjectPublicKeyInfo` of an RSA key: identifier and the key in a bit string. -/
def Spki (b s : Bytes) : Prop := ∃ bits, Tlv 0x03 (0 :: b) bits ∧ Tlv 0x30 (rsaIdentifier ++ bits) s

/-- The size of an RSA key. -/
def Bits (n m : Nat) : Prop := 2 ^ (m - 1) ≤ n ∧ n < 2 ^ m ∧ 0 < m

end Verif.Spec
