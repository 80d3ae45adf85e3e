import Verif.Model.Fixtures

/-! # Specification of the example semantics -/

namespace Verif.Spec

/-- `q` is `p` or lies below it: it goes on with a slash. -/
def Below (p q : String) : Prop := q = p ∨ ∃ rest, q = p ++ "/" ++ rest

/-- The characters that stand for themselves in an opaque path: printable ASCII other than `?` and `#`. -/
def PathByte (b : UInt8) : Prop := 32 ≤ b ∧ b < 127 ∧ b ≠ 63 ∧ b ≠ 35

/-- An address as people write it: such characters, not starting with a slash and not ending with a space, and not just a star. -/
def PlainAddress (s : String) : Prop :=
  (∀ b ∈ strBytes s, PathByte b) ∧ (strBytes s).head? ≠ some 47 ∧ (strBytes s).getLast? ≠ some 32 ∧ s ≠ "*"

end Verif.Spec
