import Verif.Spec.Ipv6

/-!
# Specification of IPv4 addresses

The domains that are read as IPv4 addresses by the URL Standard: up to four numbers, decimal, octal or hexadecimal, of which the last one
supplies all bytes that are left.
-/

namespace Verif.Spec

/-- The digits of a number in a radix; there may be none. -/
def RadixText (radix : Nat) (x : Bytes) (v : Nat) : Prop :=
  ∃ ds : List Nat, ds.length = x.length ∧ (∀ (i : Nat) (b : UInt8) (d : Nat), x[i]? = some b → ds[i]? = some d → d < radix ∧ AddressDigit b d) ∧
    v = numeral radix ds

/-- A number: octal after a zero, hexadecimal after a zero and an `x`, decimal otherwise. -/
inductive PartText : Bytes → Nat → Prop
  | decimal {x : Bytes} {v : Nat} : x ≠ [] → (x.head? = some 48 → x.length = 1) → RadixText 10 x v → PartText x v
  | octal {x : Bytes} {v : Nat} : x ≠ [] → RadixText 8 x v → PartText (48 :: x) v
  | hexadecimal {c : UInt8} {x : Bytes} {v : Nat} : c ∈ strBytes "xX" → RadixText 16 x v → PartText (48 :: c :: x) v

/-- Labels with dots between them. -/
inductive Dotted : Bytes → List Bytes → Prop
  | one {x : Bytes} : 46 ∉ x → Dotted x [x]
  | more {x r : Bytes} {xs : List Bytes} : 46 ∉ x → Dotted r xs → Dotted (x ++ 46 :: r) (x :: xs)

/-- The labels of a domain; a dot at its end does not count. -/
def Labels (d : Bytes) (ls : List Bytes) : Prop :=
  (Dotted d ls ∧ (ls.getLast? = some [] → ls.length = 1)) ∨ (ls ≠ [] ∧ Dotted d (ls ++ [[]]))

/-- The last label is a number, or looks like one. -/
def Numeric (d : Bytes) : Prop :=
  ∃ ls l, Labels d ls ∧ ls.getLast? = some l ∧ ((l ≠ [] ∧ ∀ b ∈ l, b ∈ strBytes "0123456789") ∨ ∃ v, PartText l v)

/-- The address that numbers denote. -/
def AddressNumber (ns : List Nat) (v : Nat) : Prop :=
  ∃ pre last, ns = pre ++ [last] ∧ pre.length ≤ 3 ∧ (∀ n ∈ pre, n < 256) ∧ last < 256 ^ (4 - pre.length) ∧
    v = numeral 256 pre * 256 ^ (4 - pre.length) + last

/-- The text of an address, and the one it is written with. -/
def Address4Text (d : Bytes) (s : String) : Prop :=
  ∃ ls ns v a b c e, Labels d ls ∧ ns.length = ls.length ∧ (∀ (i : Nat) (l : Bytes) (n : Nat), ls[i]? = some l → ns[i]? = some n → PartText l n) ∧
    AddressNumber ns v ∧ a < 256 ∧ b < 256 ∧ c < 256 ∧ e < 256 ∧ v = numeral 256 [a, b, c, e] ∧
    s = toString a ++ "." ++ toString b ++ "." ++ toString c ++ "." ++ toString e

end Verif.Spec
