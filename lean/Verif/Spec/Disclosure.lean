import Verif.Spec.Builder
import Verif.Spec.Capability

/-! # Specification: what a token tells about the calls that issued it -/

namespace Verif.Spec
open Builder (Op)

/-- The value last given for the fact `k`. -/
def lastFact (k : String) (ops : List Op) : Option Json :=
  lastCall (fun op => match factCall op with
    | some (k', v) => if k' = k then some v else none
    | none => none) ops

/-- When the token is to expire, if it is built at time `t`. -/
def expiryAt (t : UInt64) (ops : List Op) : Option UInt64 := (lastCall expirationCall ops).or ((lastCall lifetimeCall ops).map fun l => t + l)

/-- Two programs, run at the times `t` and `t'` with the random bytes `rnd` and `rnd'`, say the same: the names of the issuer and of its algorithm, the audience, when the
token is to begin and to expire, each fact, the references to authorities in order, the claims to each ability on each resource in order and, if there is one, the nonce. -/
structure SayTheSame (D : Deps) (ops ops' : List Op) (t t' : UInt64) (rnd rnd' : Bytes) : Prop where
  issuer : (lastCall issuerCall ops).map (fun k => (k.did, k.alg)) = (lastCall issuerCall ops').map fun k => (k.did, k.alg)
  audience : lastCall audienceCall ops = lastCall audienceCall ops'
  expiry : expiryAt t ops = expiryAt t' ops'
  beginning : lastCall notBeforeCall ops = lastCall notBeforeCall ops'
  facts : ∀ k, lastFact k ops = lastFact k ops'
  authorities : references D ops = references D ops'
  claims : ∀ r a, claims r a (claimed 0 ops) = Spec.claims r a (claimed 0 ops')
  nonce : lastCall nonceCall ops = lastCall nonceCall ops'
  random : lastCall nonceCall ops ≠ none → rnd = rnd'

/-- Calls that differ at most in which token is cited, where both have the same reference. -/
inductive SameButCited (D : Deps) : Op → Op → Prop
  | same (o : Op) : SameButCited D o o
  | witnessed (u u' : Ucan) (h h' : Option UInt64) : reference D u (h.getD 0x1e) = reference D u' (h'.getD 0x1e) → SameButCited D (.witnessedBy u h) (.witnessedBy u' h')
  | delegated (u u' : Ucan) (h h' : Option UInt64) : reference D u (h.getD 0x1e) = reference D u' (h'.getD 0x1e) →
      SameButCited D (.delegatingFrom u h) (.delegatingFrom u' h')

/-- Programs of such calls. -/
inductive AllSameButCited (D : Deps) : List Op → List Op → Prop
  | nil : AllSameButCited D [] []
  | cons {o o' : Op} {l l' : List Op} : SameButCited D o o' → AllSameButCited D l l' → AllSameButCited D (o :: l) (o' :: l')

end Verif.Spec
