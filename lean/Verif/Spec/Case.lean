import Verif.Base.Bytes

/-! # Specification: upper and lower case -/

namespace Verif.Spec

/-- Two bytes are the same, or the same letter in upper and lower case. -/
def SameLetter (x y : UInt8) : Prop := x = y ∨ (65 ≤ x ∧ x ≤ 90 ∧ y = x + 32) ∨ (65 ≤ y ∧ y ≤ 90 ∧ x = y + 32)

/-- Two texts, as bytes, that differ in the case of letters at most. -/
inductive SameBytes : Bytes → Bytes → Prop
  | nil : SameBytes [] []
  | cons {x y : UInt8} {a b : Bytes} : SameLetter x y → SameBytes a b → SameBytes (x :: a) (y :: b)

/-- Two texts that differ in the case of letters at most. -/
def SameButCase (a b : String) : Prop := SameBytes (strBytes a) (strBytes b)

/-- A text without upper-case letters. -/
def AllLower (s : String) : Prop := ∀ x ∈ strBytes s, ¬ (65 ≤ x ∧ x ≤ 90)

end Verif.Spec
