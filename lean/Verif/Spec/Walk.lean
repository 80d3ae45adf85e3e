import Verif.Spec.Reduce

/-!
# What a service can compute from an accepted chain

With the accessors of chains and UCANs and the public semantics of proof delegation only. The set of handed-on proofs that a chain keeps for itself is not used.
-/

namespace Verif.Spec

variable {S A : Type}

/-- The proofs that the claims of the UCAN hand on, read with `ProofDelegationSemantics`. -/
def handedOver (D : Deps) (u : Ucan) : List Nat :=
  u.payload.cap.iter.filterMap fun c =>
    match (proofSemantics.parseCapability D c).map View.resource with
    | some (.resource (.scoped (.index i))) => some i
    | _ => none

/-- One UCAN, given what its proofs grant and by whom. -/
def walkOne (D : Deps) (sem : Semantics S A) (u : Ucan) (proofs : List (List (View S A × String))) : List (View S A × String) :=
  let kept := proofs.zipIdx.flatMap fun g => if g.2 ∈ handedOver D u then [] else g.1
  let given := (handedOver D u).flatMap fun k => proofs[k]?.getD []
  let own := (Reduce.mapWhile (sem.parseCapability D) u.payload.cap.iter).flatMap fun v =>
    let from' := (kept.filter fun g => sem.enables g.1 v).map Prod.snd
    (if from'.isEmpty then [u.payload.iss] else from').map fun o => (v, o)
  own ++ given

mutual
/-- Who grants what. -/
def walk (D : Deps) (sem : Semantics S A) : Chain → List (View S A × String)
  | .mk u proofs _ => walkOne D sem u (walkAll D sem proofs)
def walkAll (D : Deps) (sem : Semantics S A) : List Chain → List (List (View S A × String))
  | [] => []
  | c :: cs => walk D sem c :: walkAll D sem cs
end

/-- The decision. -/
def walkCheck (D : Deps) (sem : Semantics S A) (c : Chain) (owner : String) (request : View S A) : Bool :=
  (walk D sem c).any fun g => g.2 == owner && sem.enables g.1 request

mutual
/-- The two chains show the same through the accessors `ucan` and `proofs`. -/
def SameSeen : Chain → Chain → Prop
  | .mk u ps _, .mk u' ps' _ => u = u' ∧ SameSeenAll ps ps'
def SameSeenAll : List Chain → List Chain → Prop
  | [], [] => True
  | c :: cs, c' :: cs' => SameSeen c c' ∧ SameSeenAll cs cs'
  | _, _ => False
end

end Verif.Spec
