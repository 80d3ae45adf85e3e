import Verif.Model.Builder

/-! # Specification: how long tokens are -/

namespace Verif.Spec

/-- Characters that unpadded base64 takes for so many bytes. -/
def base64Length (n : Nat) : Nat := (4 * n + 2) / 3

/-- Digests of the default hash function have 32 bytes. -/
def Digests32 (D : Deps) : Prop := ∀ b, (D.digest Builder.defaultHasher b).length = 32

/-- A builder after `witnessed_by` with each of the tokens. -/
def citing (D : Deps) (b : Builder) (tokens : List Ucan) : Builder := tokens.foldl (fun b u => b.witnessedBy D u none) b

end Verif.Spec
