import Verif.Spec.Reduce

/-! # Specification for C97: other names for the same parties and capabilities -/

namespace Verif.Spec

variable {S A S' A' : Type}

mutual
/-- The chain with other issuers; audiences, signatures and the rest do not matter to reports (C85). -/
def renamed (f : String → String) : Chain → Chain
  | .mk u proofs redel => .mk { u with payload := { u.payload with iss := f u.payload.iss } } (renamedAll f proofs) redel
def renamedAll (f : String → String) : List Chain → List Chain
  | [] => []
  | c :: cs => renamed f c :: renamedAll f cs
end

/-- A set of originators under their other names. -/
def renamedSet (f : String → String) (s : BSet String) : BSet String := BSet.extend [] (s.map f)

/-- The resource with its scope in another type. -/
def Resource.scopeMap (h : S → S') : Resource S → Resource S'
  | .resource (.scoped s) => .resource (.scoped (h s))
  | .resource .unscoped => .resource .unscoped
  | .my (.scoped s) => .my (.scoped (h s))
  | .my .unscoped => .my .unscoped
  | .as_ d (.scoped s) => .as_ d (.scoped (h s))
  | .as_ d .unscoped => .as_ d .unscoped

/-- The view with scope and ability in other types. -/
def View.translated (h : S → S') (k : A → A') (v : View S A) : View S' A' := ⟨Resource.scopeMap h v.resource, k v.ability, v.caveat⟩

/-- Two applications with the same capabilities in different types: the second reads what the first reads, as the image of what the first makes of
it, and compares images as the first compares. -/
structure Translates (sem : Semantics S A) (sem' : Semantics S' A') (h : S → S') (k : A → A') : Prop where
  scope : ∀ u, sem'.parseScope u = (sem.parseScope u).map h
  action : ∀ s, sem'.parseAction s = (sem.parseAction s).map k
  contains : ∀ s t, sem'.contains (h s) (h t) = sem.contains s t
  ge : ∀ a b, sem'.ge (k a) (k b) = sem.ge a b
  overridden : sem'.overridden = sem.overridden.map fun f c => (f c).map (View.translated h k)

end Verif.Spec
