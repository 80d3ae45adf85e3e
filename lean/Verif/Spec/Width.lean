import Verif.Spec.Chain

/-! # Specification of what a target can count -/

namespace Verif.Spec

/-- The claims of the UCAN name no proof beyond what the target can count. -/
def Countable (b : Nat) (D : Deps) (u : Ucan) : Prop := ∀ c ∈ u.payload.cap.iter, ∀ i, Redelegates D c i → i < b

/-- The chain fits the target: no UCAN in it has more proofs than the target can count. -/
def Small (b : Nat) (c : Chain) : Prop := ∀ d, Sub d c → d.proofs.length ≤ b

end Verif.Spec
