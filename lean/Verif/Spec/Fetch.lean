import Verif.Model.Async
import Verif.Spec.Did

/-!
# Specification of what a validation asks the store for
-/

namespace Verif.Spec
open Async

/-- What the future does next depends on the answer of the store for this CID. -/
def Asks (D : Deps) (nowTime : Option UInt64) (t : Task) (cid : Cid) : Prop :=
  ∃ a b : Snap, a.clock = b.clock ∧ (∀ c, c ≠ cid → a.read c = b.read c) ∧ step D nowTime a t ≠ step D nowTime b t

/-- The UCAN is signed by its issuer, was not expired and was active, each at one of the moments `at_` if the clock was looked at. -/
structure CheckedAt (nowTime : Option UInt64) (ctors : BMap Bytes KeyCtor) (G : Nat → Snap) (at_ : Nat → Prop) (u : Ucan) : Prop where
  unexpired : ∀ e, u.payload.exp = some e → (∃ n, nowTime = some n ∧ n ≤ e) ∨ (nowTime = none ∧ ∃ j, at_ j ∧ (G j).clock ≤ e)
  active : ∀ b, u.payload.nbf = some b → ∃ j, at_ j ∧ b ≤ (G j).clock
  signed : ∃ key, Denotes ctors u.payload.iss key ∧ key.verify u.signedData u.signature = .ok ()

/-- The UCANs that a text leads to: its own, and those which the store gave for a reference in the proof list of one that had been checked. -/
inductive LedTo (D : Deps) (nowTime : Option UInt64) (ctors : BMap Bytes KeyCtor) (G : Nat → Snap) (at_ : Nat → Prop) (token : String) : Ucan → Prop
  | root {u : Ucan} : Ucan.fromStr D token = .ok u → LedTo D nowTime ctors G at_ token u
  | proof {v u : Ucan} {s t : String} {cid : Cid} {j : Nat} : LedTo D nowTime ctors G at_ token v → CheckedAt nowTime ctors G at_ v →
      s ∈ v.payload.prf.getD [] → Cid.parse D s = some cid → cid.codec = 0x55 → at_ j → (G j).read cid = .ok (some (.bytes (strBytes t))) →
      Ucan.fromStr D t = .ok u → LedTo D nowTime ctors G at_ token u

end Verif.Spec
