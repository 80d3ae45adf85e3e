import Verif.Spec.Withdraw
import Verif.Spec.Crypto

/-!
# Specification: lists of withdrawn CIDs
-/

namespace Verif.Spec

/-- No token in the chain refers to the UCAN by its CID, with any hash function. -/
def NeverCites (D : Deps) (c : Chain) (u : Ucan) : Prop := ∀ hasher : UInt64, ¬ RefersTo D c (u.toCid D hasher)

/-- There is at most one signature of every message. -/
def OneSignature (ctors : BMap Bytes KeyCtor) : Prop :=
  ∀ did key m s s', Denotes ctors did key → key.verify m s = .ok () → key.verify m s' = .ok () → s = s'

/-- The UCAN with another signature. -/
def resigned (u : Ucan) (s : Bytes) : Ucan := { u with signature := s }

end Verif.Spec
