import Verif.Model.Did

/-! # Specification of DIDs: what a DID denotes -/

namespace Verif.Spec

/-- The DID is `did:key:z` followed by the base58 text of two bytes naming a constructor and the bytes from which that
constructor makes `key`. -/
def Denotes (ctors : BMap Bytes KeyCtor) (did : String) (key : Key) : Prop :=
  ∃ b0 b1 rest ctor, strBytes did = strBytes "did:key:z" ++ Base58.encode (b0 :: b1 :: rest) ∧
    BMap.get? ctors [b0, b1] = some ctor ∧ ctor rest = .ok key

/-- Every cached key is the one its DID denotes. -/
structure Coherent (p : DidParser) : Prop where
  sorted : BMap.Sorted p.cache
  denotes : ∀ did key, BMap.get? p.cache did = some key → Denotes p.ctors did key

/-- Parsers reachable from a fresh one by calls of `parse`. -/
inductive Reachable (ctors : BMap Bytes KeyCtor) : DidParser → Prop
  | fresh : Reachable ctors ⟨ctors, []⟩
  | parse {p : DidParser} (did : String) : Reachable ctors p → Reachable ctors (p.parse did).2

end Verif.Spec
