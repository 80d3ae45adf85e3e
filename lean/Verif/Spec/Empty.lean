import Verif.Spec.EndToEnd

/-! # Specification: lifetimes without any instant -/

namespace Verif.Spec
open Builder (Op)

/-- The UCAN ends before it begins. -/
def EmptyLifetime (u : Ucan) : Prop := ∃ e n, u.payload.exp = some e ∧ u.payload.nbf = some n ∧ e < n

/-- The calls ask for an end before the beginning: the last expiry asked for is before the last beginning asked for. -/
def AsksEmpty (ops : List Op) (e n : UInt64) : Prop := lastCall expirationCall ops = some e ∧ lastCall notBeforeCall ops = some n ∧ e < n

end Verif.Spec
