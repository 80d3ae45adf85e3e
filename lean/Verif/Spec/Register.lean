import Verif.Spec.DidKey
import Verif.Model.Did

/-! # Specification of which key types a parser can be made to support -/

namespace Verif.Spec

/-- The codes of the multicodec table that take two bytes. -/
def TwoBytes (code : Nat) : Prop := 128 ≤ code ∧ code < 16384

/-- The constructor is registered for a key type, and none later for the same. -/
def RegisteredLast (l : List (Bytes × KeyCtor)) (code : Nat) (ctor : KeyCtor) : Prop :=
  ∃ a b c, l = a ++ (c, ctor) :: b ∧ Leb128 c code ∧ ∀ e ∈ b, e.1 ≠ c

/-- Every constructor is registered under the bytes of a code. -/
def ByCode (l : List (Bytes × KeyCtor)) : Prop := ∀ e ∈ l, ∃ code, Leb128 e.1 code

end Verif.Spec
