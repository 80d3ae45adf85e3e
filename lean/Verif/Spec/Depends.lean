import Verif.Spec.Authority

/-!
# Specification: what validation may depend on

Which part of the store, and which key types, a token has to do with; and which of its proofs it hands on whole.
-/

namespace Verif.Spec

/-- Two sets of key types treat the DID alike: they have the same constructor, or none, for its key type. -/
def SameKeyType (ctors ctors' : BMap Bytes KeyCtor) (did : String) : Prop :=
  ∀ b0 b1 r, strBytes did = strBytes "did:key:z" ++ Base58.encode (b0 :: b1 :: r) → BMap.get? ctors [b0, b1] = BMap.get? ctors' [b0, b1]

/-- The store has this content for the CID at some time. -/
def Ever (E : Env) (c : Cid) (b : Bytes) : Prop := ∃ i, E.read i c = .ok (some (.bytes b))

/-- Two processes are alike as far as the UCAN is concerned: at all times their stores answer alike for the references in its proof list,
and they treat its issuer alike. -/
structure Alike (D : Deps) (E E' : Env) (ctors ctors' : BMap Bytes KeyCtor) (u : Ucan) : Prop where
  store : ∀ s ∈ u.payload.prf.getD [], ∀ c, Cid.parse D s = some c → ∀ i, E.read i c = E'.read i c
  keys : SameKeyType ctors ctors' u.payload.iss

/-- And for everything its proof lists lead to. -/
def AlikeFrom (D : Deps) (E E' : Env) (ctors ctors' : BMap Bytes KeyCtor) (u : Ucan) : Prop :=
  ∀ v, Reaches D (Ever E) u v → Alike D E E' ctors ctors' v

/-- `u` lists `q` among the proofs it hands on whole. -/
def HandsOnWhole (D : Deps) (F : Cid → Bytes → Prop) (u q : Ucan) : Prop :=
  ∃ i, (∃ c ∈ u.payload.cap.iter, Redelegates D c i) ∧ Cites D F u i q

/-- `u` lists `q` among its other proofs. -/
def Invokes (D : Deps) (F : Cid → Bytes → Prop) (u q : Ucan) : Prop :=
  ∃ i, (¬ ∃ c ∈ u.payload.cap.iter, Redelegates D c i) ∧ Cites D F u i q

mutual
/-- The chains have the same shape, and the tokens at each place have the same issuer, claims and redelegations. Everything else may differ: header, version,
audience, bounds, nonce, facts, the text of the proof list, signature. -/
def SameAuthority : Chain → Chain → Prop
  | .mk u ps r, .mk u' ps' r' => u.payload.iss = u'.payload.iss ∧ u.payload.cap.iter = u'.payload.cap.iter ∧ r = r' ∧ SameAuthorities ps ps'
def SameAuthorities : List Chain → List Chain → Prop
  | [], [] => True
  | c :: cs, c' :: cs' => SameAuthority c c' ∧ SameAuthorities cs cs'
  | _, _ => False
end

mutual
/-- The number of claims a chain hands on: its own, and those its redelegated proofs hand on. -/
def claimCount : Chain → Nat
  | .mk u ps r => u.payload.cap.iter.length + (r.map fun i => ((claimCounts ps)[i]?).getD 0).sum
def claimCounts : List Chain → List Nat
  | [] => []
  | c :: cs => claimCount c :: claimCounts cs
end

end Verif.Spec
