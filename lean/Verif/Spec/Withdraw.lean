import Verif.Spec.Chain
import Verif.Spec.Did

/-!
# Specification: withdrawing stored tokens and kinds of keys
-/

namespace Verif.Spec

/-- A token somewhere in the chain refers to the CID in its proof list. -/
def RefersTo (D : Deps) (c : Chain) (cid : Cid) : Prop := ∃ d, Sub d c ∧ ∃ s ∈ d.ucan.payload.prf.getD [], Cid.parse D s = some cid

/-- The store without what it has for the CID. -/
def without (m : Cid → Option Bytes) (cid : Cid) : Cid → Option Bytes := fun x => if x = cid then none else m x

/-- The second set of key types has all of the first. -/
def KindsWithin (ctors ctors' : BMap Bytes KeyCtor) : Prop := ∀ m c, BMap.get? ctors m = some c → BMap.get? ctors' m = some c

/-- The DID names a kind of key that is in the set. -/
def KindKnown (ctors : BMap Bytes KeyCtor) (did : String) : Prop :=
  ∃ b0 b1 r c, strBytes did = strBytes "did:key:z" ++ Base58.encode (b0 :: b1 :: r) ∧ BMap.get? ctors [b0, b1] = some c

end Verif.Spec
