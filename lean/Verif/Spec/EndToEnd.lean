import Verif.Props.Token
import Verif.Spec.Builder
import Verif.Spec.Crypto
import Verif.Spec.Reduce

/-!
# Specification of delegation from end to end

Parties make tokens with the builder, naming tokens of others as authorities. Nothing here mentions chains.
-/

namespace Verif.Spec
open Builder (Op)

variable {S A : Type}

/-- The builder calls `ops` lead to the signed UCAN `u`, on some machine at some time; the key accepts what it signs, for a reader with the
constructors `ctors`; facts and caveats have no reserved form. -/
def SignedBy (D : Deps) (ctors : BMap Bytes KeyCtor) (ops : List Op) (u : Ucan) : Prop :=
  ∃ (E : Env) (checked : Bool) (w w' : World) (s : Signable) (rnd : Bytes) (key : Key), (Builder.run D ops).build E checked w = (.ok s, w') ∧
    s.sign D rnd = .ok u ∧ SignableOk D s ∧ (∀ did, s.issuer.did = .ok did → Denotes ctors did key) ∧ Accepts key s.issuer

/-- The caller, not the builder, adds the claim. -/
def OwnClaim (c : Capability) (ops : List Op) : Prop := .claimingCapability c ∈ ops ∨ ∃ l, .claimingCapabilities l ∈ ops ∧ c ∈ l

/-- `u` is made by the calls `ops`, is in its lifetime (`V`), each authority is named with the default hash, published (`H`) and
delegates to `u`, and a claim that the caller adds refers to an authority if it redelegates. -/
structure Made (D : Deps) (ctors : BMap Bytes KeyCtor) (V : Ucan → Prop) (H : Bytes → Prop) (ops : List Op) (u : Ucan) : Prop where
  short : ops.length < 2 ^ 64
  signed : SignedBy D ctors ops u
  timely : V u
  hashed : ∀ p ∈ ops.filterMap proofCall, p.2 = 0x1e
  published : ∀ p ∈ ops.filterMap proofCall, H (strBytes (p.1.encode D))
  delegated : ∀ p ∈ ops.filterMap proofCall, Delegates p.1 u
  inRange : ∀ c i, OwnClaim c ops → Redelegates D c i → i < (ops.filterMap proofCall).length

/-- `u` is made properly and so are all its authorities, at any depth. -/
inductive Proper (D : Deps) (ctors : BMap Bytes KeyCtor) (V : Ucan → Prop) (H : Bytes → Prop) : Ucan → Prop
  | mk (ops : List Op) (u : Ucan) : Made D ctors V H ops u → (∀ p ∈ ops.filterMap proofCall, Proper D ctors V H p.1) → Proper D ctors V H u

/-- The capability `v` was granted by `o` and handed on, by redelegation and attenuation, to the token `u`. -/
inductive Handed (D : Deps) (sem : Semantics S A) (ctors : BMap Bytes KeyCtor) (V : Ucan → Prop) (H : Bytes → Prop) : Ucan → View S A → String → Prop
  /-- A token without authorities grants what it claims. -/
  | granted (ops : List Op) (u : Ucan) (v : View S A) : Made D ctors V H ops u → ops.filterMap proofCall = [] → Claimed D sem u v →
      Handed D sem ctors V H u v u.payload.iss
  /-- A claim enabled by what an authority was handed; the authority is not redelegated as a whole. -/
  | attenuated (ops : List Op) (u : Ucan) (v v' : View S A) (o : String) (k : Nat) (p : Ucan × UInt64) : Made D ctors V H ops u →
      (ops.filterMap proofCall)[k]? = some p → (∀ c ∈ u.payload.cap.iter, ¬ Redelegates D c k) → Handed D sem ctors V H p.1 v' o →
      sem.enables v' v = true → Claimed D sem u v → Handed D sem ctors V H u v o
  /-- Everything an authority was handed is handed on by `delegating_from`. -/
  | redelegated (ops : List Op) (u p : Ucan) (h : Option UInt64) (v : View S A) (o : String) : Made D ctors V H ops u → .delegatingFrom p h ∈ ops →
      Handed D sem ctors V H p v o → Handed D sem ctors V H u v o

end Verif.Spec
