import Verif.Spec.Chain
import Verif.Spec.Did

/-!
# Specification of crashes
-/

namespace Verif.Spec

/-- No constructor of the parser panics, nor does a key it makes when it verifies. -/
structure Careful (ctors : BMap Bytes KeyCtor) : Prop where
  construct : ∀ m c, BMap.get? ctors m = some c → ∀ b q, c b ≠ .error (.panic q)
  verify : ∀ m c, BMap.get? ctors m = some c → ∀ b key, c b = .ok key → ∀ x s q, key.verify x s ≠ .error (.panic q)

/-- No read of the store panics. -/
def CarefulStore (E : Env) : Prop := ∀ i cid q, E.read i cid ≠ .error (.panic q)

/-- A `did:key` whose key is cut short: base58 of fewer than the two bytes that name the kind of key. -/
def Stub (did : String) : Prop := ∃ b : Bytes, b.length < 2 ∧ strBytes did = strBytes "did:key:z" ++ Base58.encode b

/-- What the store answered from a tick on. -/
def ReadSince (E : Env) (lo : Nat) (cid : Cid) (b : Bytes) : Prop := ∃ i, lo ≤ i ∧ E.read i cid = .ok (some (.bytes b))

/-- The UCAN was neither expired nor early when it was looked at, at some tick from `lo` on. -/
structure TimelySince (E : Env) (nowTime : Option UInt64) (lo : Nat) (u : Ucan) : Prop where
  unexpired : ∃ i, lo ≤ i ∧ Unexpired u (nowTime.getD (E.clock i))
  active : ∃ i, lo ≤ i ∧ Active u (E.clock i)

end Verif.Spec
