import Verif.Model.Chain
import Verif.Spec.Capability
import Verif.Spec.Chain

/-!
# Specification of reported capabilities

What a chain offers, and who granted it, by recursion on the chain alone: nothing here mentions how
infos are collected or merged.
-/

namespace Verif.Spec

variable {S A : Type}

/-- `v` is a claim of `u`, and so is everything before it understood by the semantics. -/
def Claimed (D : Deps) (sem : Semantics S A) (u : Ucan) (v : View S A) : Prop :=
  ∃ pre c post, u.payload.cap.iter = pre ++ c :: post ∧ (∀ x ∈ pre, sem.parseCapability D x ≠ none) ∧ sem.parseCapability D c = some v

/-- The semantics does not read claims that delegate proofs. -/
def NoDelegations (D : Deps) (sem : Semantics S A) : Prop := ∀ c : Capability, c.ability = "ucan/DELEGATE" → sem.parseCapability D c = none

/-- `v` is a claim of `u` somewhere. -/
def ClaimedAnywhere (D : Deps) (sem : Semantics S A) (u : Ucan) (v : View S A) : Prop :=
  ∃ c ∈ u.payload.cap.iter, sem.parseCapability D c = some v

/-- What a chain offers: its own claims, and what its redelegated proofs offer. -/
inductive Offers (D : Deps) (sem : Semantics S A) : Chain → View S A → Prop
  | claim {c : Chain} {v : View S A} : Claimed D sem c.ucan v → Offers D sem c v
  | redelegated {c p : Chain} {v : View S A} (k : Nat) : k ∈ c.redel → c.proofs[k]? = some p → Offers D sem p v → Offers D sem c v

/-- Who may have granted: an unbroken chain of claims, each enabled by the one before, from a token of `o` to the root. -/
inductive Flows (D : Deps) (sem : Semantics S A) : Chain → View S A → String → Prop
  | origin {c : Chain} {v : View S A} : Claimed D sem c.ucan v → Flows D sem c v c.ucan.payload.iss
  | attenuated {c p : Chain} {v v' : View S A} {o : String} (k : Nat) : Claimed D sem c.ucan v → k ∉ c.redel → c.proofs[k]? = some p →
      Flows D sem p v' o → sem.enables v' v = true → Flows D sem c v o
  | redelegated {c p : Chain} {v : View S A} {o : String} (k : Nat) : k ∈ c.redel → c.proofs[k]? = some p → Flows D sem p v o →
      Flows D sem c v o

mutual
/-- Who granted `v`: for a claim, those who granted something enabling it to a proof that is not redelegated, or else the
issuer; for a redelegated proof, those who granted it there. -/
def Granted (D : Deps) (sem : Semantics S A) : Chain → View S A → String → Prop
  | .mk u proofs redel, v, o =>
    (Claimed D sem u v ∧
      ((∃ (k : Nat) (G : View S A → String → Prop) (v' : View S A), (GrantedAll D sem proofs)[k]? = some G ∧ k ∉ redel ∧ G v' o ∧
          sem.enables v' v = true) ∨
        (o = u.payload.iss ∧ ¬ ∃ (o' : String) (k : Nat) (G : View S A → String → Prop) (v' : View S A),
          (GrantedAll D sem proofs)[k]? = some G ∧ k ∉ redel ∧ G v' o' ∧ sem.enables v' v = true))) ∨
    ∃ (k : Nat) (G : View S A → String → Prop), k ∈ redel ∧ (GrantedAll D sem proofs)[k]? = some G ∧ G v o
def GrantedAll (D : Deps) (sem : Semantics S A) : List Chain → List (View S A → String → Prop)
  | [] => []
  | c :: cs => Granted D sem c :: GrantedAll D sem cs
end

/-- What a token offers through the content `F` of the store: its own claims, and what the proofs offer that its claims redelegate. No chain is involved. -/
inductive TokenOffers (D : Deps) (sem : Semantics S A) (F : Cid → Bytes → Prop) : Ucan → View S A → Prop
  | claim {u : Ucan} {v : View S A} : Claimed D sem u v → TokenOffers D sem F u v
  | redelegated {u q : Ucan} {v : View S A} (i : Nat) (s : String) : (∃ c ∈ u.payload.cap.iter, Redelegates D c i) →
      (u.payload.prf.getD [])[i]? = some s → Resolves D F s q → TokenOffers D sem F q v → TokenOffers D sem F u v

/-- Enabling composes. -/
def EnablesTrans (sem : Semantics S A) : Prop := ∀ a b c : View S A, sem.enables a b = true → sem.enables b c = true → sem.enables a c = true

/-- Nothing a token of the chain offers is broader than something else it offers. -/
def Separate (D : Deps) (sem : Semantics S A) (c : Chain) : Prop :=
  ∀ d, Sub d c → ∀ v v', Offers D sem d v → Offers D sem d v' → sem.enables v v' = true → v = v'

/-- Redelegations point to existing proofs, at every depth. -/
def InRange (c : Chain) : Prop := ∀ d, Sub d c → ∀ i ∈ d.redel, i < d.proofs.length

/-- `w` covers `v`: it is the same or enables it. -/
def CoveredBy (sem : Semantics S A) (w v : View S A) : Prop := w = v ∨ sem.enables w v = true

end Verif.Spec
