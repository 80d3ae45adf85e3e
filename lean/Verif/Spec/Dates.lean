import Verif.Spec.Chain
import Verif.Spec.Reduce

/-!
# Specification: the same tokens at another date
-/

namespace Verif.Spec

/-- The second token is the first at another date: the same parties and claims, the bounds moved by `f`. Proof references, signature, nonce and
facts may differ; they do, since the bounds are signed and references are hashes. -/
structure Redated (f : UInt64 → UInt64) (u u' : Ucan) : Prop where
  iss : u'.payload.iss = u.payload.iss
  aud : u'.payload.aud = u.payload.aud
  cap : u'.payload.cap = u.payload.cap
  nbf : u'.payload.nbf = u.payload.nbf.map f
  exp : u'.payload.exp = u.payload.exp.map f

mutual
/-- The second chain is the first at another date. -/
def RedatedChain (f : UInt64 → UInt64) : Chain → Chain → Prop
  | .mk u proofs redel, .mk u' proofs' redel' => Redated f u u' ∧ RedatedChains f proofs proofs' ∧ redel' = redel
def RedatedChains (f : UInt64 → UInt64) : List Chain → List Chain → Prop
  | [], [] => True
  | c :: cs, c' :: cs' => RedatedChain f c c' ∧ RedatedChains f cs cs'
  | _, _ => False
end

mutual
/-- Everything about the chain is in order except, perhaps, the dates: signatures, references, audiences, redelegations. -/
def Assembled (D : Deps) (ctors : BMap Bytes KeyCtor) (F : Cid → Bytes → Prop) : Chain → Prop
  | .mk u proofs redel => Authentic ctors u ∧ AssembledAll D ctors F u (u.payload.prf.getD []) proofs ∧ RedelOk D u proofs.length redel
def AssembledAll (D : Deps) (ctors : BMap Bytes KeyCtor) (F : Cid → Bytes → Prop) (u : Ucan) : List String → List Chain → Prop
  | ss, [] => ss = []
  | ss, c :: cs => ∃ s ss', ss = s :: ss' ∧ Resolves D F s c.ucan ∧ c.ucan.payload.aud = u.payload.iss ∧ Assembled D ctors F c ∧
      AssembledAll D ctors F u ss' cs
end

/-- The instant is a bound of a token of the chain. -/
def Bounds (c : Chain) (x : UInt64) : Prop := ∃ d, Sub d c ∧ (d.ucan.payload.nbf = some x ∨ d.ucan.payload.exp = some x)

/-- `f` neither swaps nor merges the instants in `T`. -/
def KeepsOrder (T : UInt64 → Prop) (f : UInt64 → UInt64) : Prop := ∀ a b, T a → T b → (f a ≤ f b ↔ a ≤ b)

end Verif.Spec
