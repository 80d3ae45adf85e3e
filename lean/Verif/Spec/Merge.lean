import Verif.Spec.Reduce

/-!
# Specification: exactly what is reported

A closed form of the reported capabilities and originators, by recursion on the chain. Merging is described without any
loop: entry `j` is reported when no earlier entry enables it, and the identities of every entry go where the pointers to the
first enabling entry lead.
-/

namespace Verif.Spec

variable {S A : Type}

/-- A capability and the set of identities it is attributed to. -/
abbrev Attribution (S A : Type) : Type := View S A × (String → Prop)

/-- `k` is the first entry that enables entry `m`, among those before it. -/
def FirstEnabler (sem : Semantics S A) (L : List (Attribution S A)) (m k : Nat) : Prop :=
  k < m ∧ ∃ a b, L[k]? = some a ∧ L[m]? = some b ∧ sem.enables a.1 b.1 = true ∧ ∀ x ∈ L.take k, sem.enables x.1 b.1 = false

/-- Following first enablers leads from `m` to `j`. -/
inductive Leads (sem : Semantics S A) (L : List (Attribution S A)) : Nat → Nat → Prop
  | here (j : Nat) : Leads sem L j j
  | up {m k j : Nat} : FirstEnabler sem L m k → Leads sem L k j → Leads sem L m j

/-- No earlier entry enables entry `j`. -/
def unenabled (sem : Semantics S A) (L : List (Attribution S A)) (j : Nat) : Bool :=
  match L[j]? with
  | none => false
  | some b => (L.take j).all fun a => !sem.enables a.1 b.1

/-- The entries no earlier one enables, last first, each with the identities of all entries that lead to it. -/
def collect (sem : Semantics S A) (L : List (Attribution S A)) : List (Attribution S A) :=
  ((List.range L.length).filter (unenabled sem L)).reverse.filterMap fun j =>
    L[j]?.map fun e => (e.1, fun o => ∃ m x, Leads sem L m j ∧ L[m]? = some x ∧ x.2 o)

/-- The claims of a token up to the first the semantics does not understand. -/
def understood (D : Deps) (sem : Semantics S A) (u : Ucan) : List (View S A) :=
  (u.payload.cap.iter.takeWhile fun c => (sem.parseCapability D c).isSome).filterMap (sem.parseCapability D)

/-- Whom a claim is attributed to: all identities attributed to what enables it in a proof that is not redelegated, or else the issuer. -/
def claimants (sem : Semantics S A) (u : Ucan) (redel : List Nat) (proofs : List (List (Attribution S A))) (v : View S A) (o : String) : Prop :=
  (∃ (k : Nat) (r : List (Attribution S A)) (a : Attribution S A), proofs[k]? = some r ∧ k ∉ redel ∧ a ∈ r ∧ sem.enables a.1 v = true ∧ a.2 o) ∨
    (o = u.payload.iss ∧ ¬ ∃ (o' : String) (k : Nat) (r : List (Attribution S A)) (a : Attribution S A), proofs[k]? = some r ∧ k ∉ redel ∧
      a ∈ r ∧ sem.enables a.1 v = true ∧ a.2 o')

/-- The claims of a token and, after them, what its redelegated proofs report. -/
def entries (D : Deps) (sem : Semantics S A) (u : Ucan) (redel : List Nat) (proofs : List (List (Attribution S A))) : List (Attribution S A) :=
  (understood D sem u).map (fun v => (v, claimants sem u redel proofs v)) ++ redel.flatMap fun k => proofs[k]?.getD []

mutual
/-- What a chain reports. -/
def attributed (D : Deps) (sem : Semantics S A) : Chain → List (Attribution S A)
  | .mk u proofs redel => collect sem (entries D sem u redel (attributedAll D sem proofs))
def attributedAll (D : Deps) (sem : Semantics S A) : List Chain → List (List (Attribution S A))
  | [] => []
  | c :: cs => attributed D sem c :: attributedAll D sem cs
end

/-- Connected by comparisons between capabilities that tokens of the chain offer. -/
inductive Related (D : Deps) (sem : Semantics S A) (c : Chain) : View S A → View S A → Prop
  | refl (v : View S A) : Related D sem c v v
  | enables {v w : View S A} {d e : Chain} : Sub d c → Sub e c → Offers D sem d v → Offers D sem e w → sem.enables v w = true → Related D sem c v w
  | symm {v w : View S A} : Related D sem c v w → Related D sem c w v
  | trans {v w x : View S A} : Related D sem c v w → Related D sem c w x → Related D sem c v x

end Verif.Spec
