import Verif.Spec.EndToEnd

/-!
# Specification of delegation with any store

As `Spec/EndToEnd`, for any store and any hash functions: `F` says what is published under which CID.
-/

namespace Verif.Spec
open Builder (Op)

variable {S A : Type}

/-- The CID by which a token is named with a hash function. -/
def nameOf (D : Deps) (u : Ucan) (hasher : UInt64) : Cid := ⟨true, 0x55, hasher, D.digest hasher (strBytes (u.encode D))⟩

/-- `u` is made by the calls `ops`, is in its lifetime (`V`), each authority is published under the CID by which it is named and
delegates to `u`, and a claim that the caller adds refers to an authority if it redelegates. -/
structure MadeIn (D : Deps) (ctors : BMap Bytes KeyCtor) (V : Ucan → Prop) (F : Cid → Bytes → Prop) (ops : List Op) (u : Ucan) : Prop where
  short : ops.length < 2 ^ 64
  signed : SignedBy D ctors ops u
  timely : V u
  published : ∀ p ∈ ops.filterMap proofCall, F (nameOf D p.1 p.2) (strBytes (p.1.encode D))
  delegated : ∀ p ∈ ops.filterMap proofCall, Delegates p.1 u
  inRange : ∀ c i, OwnClaim c ops → Redelegates D c i → i < (ops.filterMap proofCall).length

/-- `u` is made properly and so are all its authorities, at any depth. -/
inductive ProperIn (D : Deps) (ctors : BMap Bytes KeyCtor) (V : Ucan → Prop) (F : Cid → Bytes → Prop) : Ucan → Prop
  | mk (ops : List Op) (u : Ucan) : MadeIn D ctors V F ops u → (∀ p ∈ ops.filterMap proofCall, ProperIn D ctors V F p.1) → ProperIn D ctors V F u

/-- The capability `v` was granted by `o` and handed on, by redelegation and attenuation, to the token `u`. -/
inductive HandedIn (D : Deps) (sem : Semantics S A) (ctors : BMap Bytes KeyCtor) (V : Ucan → Prop) (F : Cid → Bytes → Prop) : Ucan → View S A → String → Prop
  /-- A token without authorities grants what it claims. -/
  | granted (ops : List Op) (u : Ucan) (v : View S A) : MadeIn D ctors V F ops u → ops.filterMap proofCall = [] → Claimed D sem u v →
      HandedIn D sem ctors V F u v u.payload.iss
  /-- A claim enabled by what an authority was handed; the authority is not redelegated as a whole. -/
  | attenuated (ops : List Op) (u : Ucan) (v v' : View S A) (o : String) (k : Nat) (p : Ucan × UInt64) : MadeIn D ctors V F ops u →
      (ops.filterMap proofCall)[k]? = some p → (∀ c ∈ u.payload.cap.iter, ¬ Redelegates D c k) → HandedIn D sem ctors V F p.1 v' o →
      sem.enables v' v = true → Claimed D sem u v → HandedIn D sem ctors V F u v o
  /-- Everything an authority was handed is handed on by `delegating_from`. -/
  | redelegated (ops : List Op) (u p : Ucan) (h : Option UInt64) (v : View S A) (o : String) : MadeIn D ctors V F ops u → .delegatingFrom p h ∈ ops →
      HandedIn D sem ctors V F p v o → HandedIn D sem ctors V F u v o

/-- From tick `lo` on, the store answers with what is published. -/
def ServesFrom (E : Env) (lo : Nat) (F : Cid → Bytes → Prop) : Prop := ∀ i c b, lo ≤ i → F c b → E.read i c = .ok (some (.bytes b))

end Verif.Spec
