import Verif.Spec.Encoding

/-!
# Specification of IPv6 addresses

The texts of addresses (RFC 4291, section 2.2, as read by the URL Standard) and the one text each address is written with (RFC 5952). An
address is a list of eight numbers below 65536.
-/

namespace Verif.Spec

def AddressDigit (b : UInt8) (n : Nat) : Prop :=
  (strBytes "0123456789abcdef")[n]? = some b ∨ (strBytes "0123456789ABCDEF")[n]? = some b

/-- One to four digits. -/
def PieceText (x : Bytes) (v : Nat) : Prop :=
  1 ≤ x.length ∧ x.length ≤ 4 ∧
    ∃ ds : List Nat, ds.length = x.length ∧ (∀ (i : Nat) (b : UInt8) (d : Nat), x[i]? = some b → ds[i]? = some d → AddressDigit b d) ∧
      v = numeral 16 ds

/-- The decimal text of a number of eight bits. -/
def OctetText (x : Bytes) (v : Nat) : Prop := v ≤ 255 ∧ x = strBytes (toString v)

/-- Pieces with colons between them. -/
inductive HexPieces : Bytes → List Nat → Prop
  | one {x : Bytes} {v : Nat} : PieceText x v → HexPieces x [v]
  | more {x r : Bytes} {v : Nat} {vs : List Nat} : PieceText x v → HexPieces r vs → HexPieces (x ++ 58 :: r) (v :: vs)

/-- Pieces of which the last two may be written as four decimal numbers. -/
inductive Pieces : Bytes → List Nat → Prop
  | one {x : Bytes} {v : Nat} : PieceText x v → Pieces x [v]
  | dotted {w x y z : Bytes} {a b c d : Nat} : OctetText w a → OctetText x b → OctetText y c → OctetText z d →
      Pieces (w ++ 46 :: (x ++ 46 :: (y ++ 46 :: z))) [256 * a + b, 256 * c + d]
  | more {x r : Bytes} {v : Nat} {vs : List Nat} : PieceText x v → Pieces r vs → Pieces (x ++ 58 :: r) (v :: vs)

/-- The text of an address: eight pieces, or fewer with a gap that stands for zeros. -/
inductive AddressText : Bytes → List Nat → Prop
  | full {x : Bytes} {ps : List Nat} : Pieces x ps → ps.length = 8 → AddressText x ps
  | gap {x y : Bytes} {l r : List Nat} {n : Nat} : (x = [] ∧ l = [] ∨ HexPieces x l) → (y = [] ∧ r = [] ∨ Pieces y r) → 1 ≤ n →
      l.length + n + r.length = 8 → AddressText (x ++ 58 :: 58 :: y) (l ++ List.replicate n 0 ++ r)

/-- A piece in lower case and without zeros before other digits. -/
def ShortPiece (x : Bytes) (v : Nat) : Prop :=
  PieceText x v ∧ (∀ b ∈ x, b ∈ strBytes "0123456789abcdef") ∧ (x.head? = some 48 → x.length = 1)

/-- Such pieces with colons between them, or none. -/
inductive ShortPieces : Bytes → List Nat → Prop
  | none : ShortPieces [] []
  | one {x : Bytes} {v : Nat} : ShortPiece x v → ShortPieces x [v]
  | more {x r : Bytes} {v : Nat} {vs : List Nat} : ShortPiece x v → ShortPieces r vs → vs ≠ [] → ShortPieces (x ++ 58 :: r) (v :: vs)

/-- The text an address is written with: there is a gap if two zeros follow each other, and it is the first of the longest runs of zeros. -/
inductive NormalText : List Nat → Bytes → Prop
  | full {ps : List Nat} {x : Bytes} : (∀ a b, ps ≠ a ++ 0 :: 0 :: b) → ShortPieces x ps → NormalText ps x
  | gap {l r : List Nat} {n : Nat} {x y : Bytes} : 2 ≤ n →
      (∀ a m b, l ++ List.replicate n 0 ++ r = a ++ List.replicate m 0 ++ b → m ≤ n ∧ (m = n → l.length ≤ a.length)) →
      ShortPieces x l → ShortPieces y r → NormalText (l ++ List.replicate n 0 ++ r) (x ++ 58 :: 58 :: y)

end Verif.Spec
