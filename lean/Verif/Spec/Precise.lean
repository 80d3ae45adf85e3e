import Verif.Spec.Json
import Verif.Model.Caveat

/-! # Specification: numbers in caveats -/

namespace Verif.Spec

/-- The text of a caveat with one constraint: a quoted key and a number. -/
def caveatText (key number : Bytes) : Bytes := 123 :: ((key ++ 58 :: number) ++ [125])

/-- The reader of numbers finds a double for every natural number a little beyond 64 bits. -/
def ReadsWide (D : Deps) : Prop := ∀ t, Natural t → digitsValue t < 2 ^ 66 → ∃ f, D.f64Parse t = some f

/-- The text of an integer of 64 bits, with or without sign, and the integer. -/
inductive IntegerText : Bytes → Int → Prop
  | nat {t : Bytes} : Natural t → digitsValue t < 2 ^ 64 → IntegerText t (digitsValue t)
  | neg {t : Bytes} : Natural t → digitsValue t ≠ 0 → digitsValue t ≤ 2 ^ 63 → IntegerText (45 :: t) (-digitsValue t)

end Verif.Spec
