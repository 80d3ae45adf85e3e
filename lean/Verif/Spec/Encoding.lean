import Verif.Base.Bytes

/-!
# Specification of the text encodings

Independent of the codecs: RFC 4648 texts as bit strings, base58 texts as numbers.
-/

namespace Verif.Spec

/-- The lowest `w` bits of `n`, most significant first. -/
def bits : Nat → Nat → List Bool
  | 0, _ => []
  | w + 1, n => decide (n / 2 ^ w % 2 = 1) :: bits w n

/-- The bits of a byte string. -/
def byteBits (b : Bytes) : List Bool := b.flatMap fun x => bits 8 x.toNat

/-- RFC 4648 without padding: the text lists, through the alphabet, the groups of `w` bits of the byte string, filled up with
fewer than `w` zero bits. -/
def BitText (w : Nat) (alphabet : String) (b t : Bytes) : Prop :=
  ∃ (vs : List Nat) (fill : List Bool), t.map some = vs.map ((strBytes alphabet)[·]?) ∧ (∀ v ∈ vs, v < 2 ^ w) ∧
    vs.flatMap (bits w) = byteBits b ++ fill ∧ fill.length < w ∧ ∀ x ∈ fill, x = false

/-- The alphabet of RFC 4648, section 5. -/
def base64url : String := "ABCDEFGHIJKLMNOPQRSTUVWXYZabcdefghijklmnopqrstuvwxyz0123456789-_"

/-- The alphabet of RFC 4648, section 6, in lower case. -/
def base32lower : String := "abcdefghijklmnopqrstuvwxyz234567"

/-- The Bitcoin alphabet: no `0`, `O`, `I`, `l`. -/
def base58btc : String := "123456789ABCDEFGHJKLMNPQRSTUVWXYZabcdefghijkmnopqrstuvwxyz"

/-- The number that digits denote in a radix, most significant first. -/
def numeral (radix : Nat) : List Nat → Nat
  | [] => 0
  | d :: ds => d * radix ^ ds.length + numeral radix ds

/-- A base58 text: as many `1`s as the byte string has leading zeros, then the digits of the number the rest denotes, without
leading zero digit. -/
def Base58Text (b t : Bytes) : Prop :=
  ∃ (zeros : Nat) (rest : Bytes) (ds : List Nat),
    b = List.replicate zeros 0 ++ rest ∧ rest.head? ≠ some 0 ∧
    t.map some = (List.replicate zeros 0 ++ ds).map ((strBytes base58btc)[·]?) ∧ ds.head? ≠ some 0 ∧ (∀ d ∈ ds, d < 58) ∧
    numeral 58 ds = numeral 256 (rest.map UInt8.toNat)

end Verif.Spec
