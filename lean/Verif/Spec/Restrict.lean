import Verif.Spec.Reduce
import Verif.Spec.Chain

/-! # Specification: caveats of delegated proofs -/

namespace Verif.Spec

variable {S A : Type}

/-- The same claims in the same order; only the caveats under which proofs are delegated may differ. -/
def SameButDelegations (l l' : List Capability) : Prop :=
  l.length = l'.length ∧ ∀ (i : Nat) (c c' : Capability), l[i]? = some c → l'[i]? = some c' →
    c.resource = c'.resource ∧ c.ability = c'.ability ∧ (c.ability ≠ "ucan/DELEGATE" → c.caveat = c'.caveat)

mutual
/-- Chains of the same shape whose tokens, place by place, have the same issuer and the same claims up to the caveats of delegated proofs. Everything else
may differ. -/
def SameGrants : Chain → Chain → Prop
  | .mk u ps _, .mk u' ps' _ => u.payload.iss = u'.payload.iss ∧ SameButDelegations u.payload.cap.iter u'.payload.cap.iter ∧ SameGrantsAll ps ps'
def SameGrantsAll : List Chain → List Chain → Prop
  | [], [] => True
  | c :: cs, c' :: cs' => SameGrants c c' ∧ SameGrantsAll cs cs'
  | _, _ => False
end

/-- The token delegates its proof at index `i` under the caveat `m`, and under no other. -/
def DelegatesUnder (D : Deps) (u : Ucan) (i : Nat) (m : List (String × Json)) : Prop :=
  (∃ c ∈ u.payload.cap.iter, Redelegates D c i) ∧ ∀ c ∈ u.payload.cap.iter, Redelegates D c i → c.caveat = .obj m

/-- All that the chain may do by virtue of delegated proofs is subject to `m`. -/
def SubjectTo (m : List (String × Json)) (v : View S A) : Prop := ∃ m', v.caveat = .obj m' ∧ Keeps m m'

end Verif.Spec
