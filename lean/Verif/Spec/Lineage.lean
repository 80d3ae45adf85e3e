import Verif.Spec.Suite

/-! # Specification: where a claim comes from

Followed from token to cited token, in a chain whose tokens do not redelegate. -/

namespace Verif.Spec

variable {S A : Type}

/-- `o` is where the claim `v` of the first token of the chain comes from: a cited token claims something that enables it, and `o` is where that comes from; or no cited
token does, and `o` issued the first token. -/
inductive Source (D : Deps) (sem : Semantics S A) : Chain → View S A → String → Prop
  | own {c : Chain} {v : View S A} : (∀ p ∈ c.proofs, ¬ Grants D sem p.ucan v) → Source D sem c v c.ucan.payload.iss
  | cited {c p : Chain} {v x : View S A} {o : String} : p ∈ c.proofs → Claimed D sem p.ucan x → sem.enables x v = true → Source D sem p x o → Source D sem c v o

/-- No token of the chain redelegates, and in none of them a claim enables a later one. -/
def Simple (D : Deps) (sem : Semantics S A) (c : Chain) : Prop :=
  ∀ d, Sub d c → (∀ cap ∈ d.ucan.payload.cap.iter, ∀ i, ¬ Redelegates D cap i) ∧ NoneEnablesLater sem (understood D sem d.ucan)

/-- The tokens of the chain form a line, the first one first: each cites just the next. -/
def Line : List Ucan → Chain → Prop
  | [], _ => False
  | u :: us, c => c.ucan = u ∧ ((us = [] ∧ c.proofs = []) ∨ ∃ p, c.proofs = [p] ∧ Line us p)

/-- Each of the capabilities is enabled by the next. -/
def Unbroken (sem : Semantics S A) : List (View S A) → Prop
  | v :: x :: l => sem.enables x v = true ∧ Unbroken sem (x :: l)
  | _ => True

end Verif.Spec
