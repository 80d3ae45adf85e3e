import Verif.Spec.EndToEnd

/-!
# Specification: what a party that issues tokens relies on the builder for
-/

namespace Verif.Spec
open Builder (Op)

/-- The calls say when the UCAN is to end. -/
def SaysEnd (ops : List Op) : Prop := (∃ t, .withExpiration t ∈ ops) ∨ ∃ s, .withLifetime s ∈ ops

/-- The calls say when the UCAN is to begin. -/
def SaysBegin (ops : List Op) : Prop := ∃ t, .notBefore t ∈ ops

/-- The calls name the UCAN as an authority, to be referred to with the hash function. -/
def CitedFor (ops : List Op) (p : Ucan) (hasher : UInt64) : Prop :=
  ∃ h : Option UInt64, h.getD 0x1e = hasher ∧ (.witnessedBy p h ∈ ops ∨ .delegatingFrom p h ∈ ops)

/-- Whatever the store says about the authority's CID is the authority's text. -/
def AnswersTruly (D : Deps) (E : Env) (p : Ucan) (hasher : UInt64) : Prop :=
  ∀ i b, E.read i ⟨true, 0x55, hasher, D.digest hasher (strBytes (p.encode D))⟩ = .ok (some (.bytes b)) → b = strBytes (p.encode D)

end Verif.Spec
