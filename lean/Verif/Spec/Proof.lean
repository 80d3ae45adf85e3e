import Verif.Model.Url
import Verif.Model.Capability

/-! # Specification of proof selection -/

namespace Verif.Spec

/-- `Decimal ds n`: the digits `ds` read in base ten give `n`. -/
inductive Decimal : Bytes → Nat → Prop
  | digit (d : UInt8) : 48 ≤ d → d ≤ 57 → Decimal [d] (d.toNat - 48)
  | more {ds : Bytes} {n : Nat} (d : UInt8) : Decimal ds n → 48 ≤ d → d ≤ 57 → Decimal (ds ++ [d]) (10 * n + (d.toNat - 48))

/-- A number that fits 64 bits, optionally with a plus sign. -/
def Numeral (s : Bytes) (n : Nat) : Prop := n < 2 ^ 64 ∧ (Decimal s n ∨ ∃ r, s = 43 :: r ∧ Decimal r n)

/-- The resource is a URL with scheme `prf` whose path is the number `n`. -/
def SelectsProof (D : Deps) (resource : String) (n : Nat) : Prop :=
  ∃ u, Url.parse D resource = some u ∧ u.scheme = "prf" ∧ Numeral (strBytes u.path) n

/-- The claim redelegates the proof at index `n`. -/
def Redelegates (D : Deps) (c : Capability) (n : Nat) : Prop := c.ability = "ucan/DELEGATE" ∧ SelectsProof D c.resource n

end Verif.Spec
