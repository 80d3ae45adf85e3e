import Verif.Spec.EndToEnd
import Verif.Spec.Merge

/-! # Specification: what the programs of the test suite are about

Tokens that cite tokens without proofs, and claim what these grant. -/

namespace Verif.Spec
open Builder (Op)

variable {S A : Type}

/-- `p` grants `v`: it claims something that enables it. -/
def Grants (D : Deps) (sem : Semantics S A) (p : Ucan) (v : View S A) : Prop := ∃ x, Claimed D sem p x ∧ sem.enables x v = true

/-- Who is to be reported for the claim `v` of `u`: the issuers of the cited tokens that grant it or, if none does, the issuer of `u`. -/
def Vouchers (D : Deps) (sem : Semantics S A) (u : Ucan) (cited : List Ucan) (v : View S A) (o : String) : Prop :=
  (∃ p ∈ cited, p.payload.iss = o ∧ Grants D sem p v) ∨ (o = u.payload.iss ∧ ∀ p ∈ cited, ¬ Grants D sem p v)

/-- No claim enables one that comes after it. -/
def NoneEnablesLater (sem : Semantics S A) (l : List (View S A)) : Prop := l.Pairwise fun a b => sem.enables a b = false

/-- A token without proofs, none of whose claims refers to proofs. -/
structure Leaf (D : Deps) (ctors : BMap Bytes KeyCtor) (V : Ucan → Prop) (p : Ucan) : Prop where
  made : ∃ ops, ops.length < 2 ^ 64 ∧ SignedBy D ctors ops p ∧ ops.filterMap proofCall = []
  timely : V p
  plain : ∀ c ∈ p.payload.cap.iter, ∀ i, ¬ Redelegates D c i

/-- The builder calls of the programs of the test suite (attenuation.rs 20-300, chain.rs 18-254): a party issues a token for another, with a lifetime, citing tokens and
claiming capabilities. -/
def programCalls (k : Key) (aud : String) (lifetime : UInt64) (cited : List Ucan) (caps : List Capability) : List Op :=
  [.issuedBy k, .forAudience aud, .withLifetime lifetime] ++ cited.map (.witnessedBy · none) ++ caps.map .claimingCapability

end Verif.Spec
