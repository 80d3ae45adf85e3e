import Verif.Model.Ucan
import Verif.Spec.Did

/-! # Specification of lifetimes and validity -/

namespace Verif.Spec

/-- The instant `t` is within optional bounds; a missing bound is no bound. Instants are integers, so that a lifetime without
bound is longer than any other. -/
def Within (nbf exp : Option UInt64) (t : Int) : Prop :=
  (∀ n, nbf = some n → (n.toNat : Int) ≤ t) ∧ (∀ e, exp = some e → t ≤ (e.toNat : Int))

/-- `t` is in the lifetime of `u`. -/
def InLifetime (u : Ucan) (t : Int) : Prop := Within u.payload.nbf u.payload.exp t

/-- The signature of `u` verifies under a key that its issuer DID denotes. -/
def Authentic (ctors : BMap Bytes KeyCtor) (u : Ucan) : Prop :=
  ∃ key, Denotes ctors u.payload.iss key ∧ key.verify u.signedData u.signature = .ok ()

/-- Not expired at `t`. -/
def Unexpired (u : Ucan) (t : UInt64) : Prop := ∀ e, u.payload.exp = some e → t ≤ e
/-- Active at `t`. -/
def Active (u : Ucan) (t : UInt64) : Prop := ∀ n, u.payload.nbf = some n → n ≤ t

end Verif.Spec
