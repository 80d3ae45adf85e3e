import Verif.Props.Token
import Verif.Spec.Crypto
import Verif.Spec.Reduce

/-!
# Specification of authority

How a capability gets from the one who granted it into a token, in terms of signed tokens only: nothing here mentions how chains
are built or reduced.
-/

namespace Verif.Spec

variable {S A : Type}

/-- Signatures of the DIDs in `honest` cannot be forged: what verifies under such a DID is in the history `H`. -/
def UnforgeableFor (honest : String → Prop) (ctors : BMap Bytes KeyCtor) (H : String → Bytes → Prop) : Prop :=
  ∀ did, honest did → ∀ key, Denotes ctors did key → ∀ m s, key.verify m s = .ok () → H did m

/-- The holders of the keys in `honest` sign nothing but UCANs, with this library; `Signed` is the log of those. -/
structure OnlyUcansFor (D : Deps) (honest : String → Prop) (H : String → Bytes → Prop) (Signed : Ucan → Prop) : Prop where
  logged : ∀ did m, honest did → H did m → ∃ u, Signed u ∧ u.payload.iss = did ∧ u.signedData = m
  here : ∀ u, Signed u → ∃ (s : Signable) (rnd : Bytes), SignableOk D s ∧ s.sign D rnd = .ok u

/-- A UCAN in the log has the header and payload of `u`. -/
def Genuine (Signed : Ucan → Prop) (u : Ucan) : Prop := ∃ u', Signed u' ∧ u'.header = u.header ∧ u'.payload = u.payload

/-- The entry at position `i` of the proof list of `u` stands for `q`. -/
def Cites (D : Deps) (F : Cid → Bytes → Prop) (u : Ucan) (i : Nat) (q : Ucan) : Prop :=
  ∃ s, (u.payload.prf.getD [])[i]? = some s ∧ Resolves D F s q

/-- Authority for `v` got from `o` into the token `u`, through tokens that satisfy `P`: `o` claims it in a token of their own; or `u` claims
it and cites a token addressed to its issuer that holds authority for something that enables it; or `u` redelegates all of a token that it cites,
which is addressed to its issuer and holds the authority. -/
inductive Authority (D : Deps) (sem : Semantics S A) (F : Cid → Bytes → Prop) (P : Ucan → Prop) : Ucan → View S A → String → Prop
  | granted {u : Ucan} {v : View S A} : P u → Claimed D sem u v → Authority D sem F P u v u.payload.iss
  | attenuated {u q : Ucan} {v v' : View S A} {o : String} (i : Nat) : P u → Claimed D sem u v → Cites D F u i q → Delegates q u →
      Authority D sem F P q v' o → sem.enables v' v = true → Authority D sem F P u v o
  | redelegated {u q : Ucan} {v : View S A} {o : String} (i : Nat) : P u → (∃ c ∈ u.payload.cap.iter, Redelegates D c i) → Cites D F u i q →
      Delegates q u → Authority D sem F P q v o → Authority D sem F P u v o

/-- What a resource server does with a report: accept the request when a reported capability enables it and `owner` is its only originator. -/
def Authorises (sem : Semantics S A) (out : List (Info S A)) (owner : String) (request : View S A) : Prop :=
  ∃ i ∈ out, i.originators = [owner] ∧ CoveredBy sem i.capability request

/-- The token hands on authority for `request`: it claims something that covers it, or redelegates a proof. -/
def HandsOn (D : Deps) (sem : Semantics S A) (request : View S A) (u : Ucan) : Prop :=
  (∃ v, Claimed D sem u v ∧ CoveredBy sem v request) ∨ ∃ c ∈ u.payload.cap.iter, ∃ i, Redelegates D c i

mutual
/-- Number of nodes of a chain. -/
def nodes : Chain → Nat
  | .mk _ proofs _ => nodesAll proofs + 1
def nodesAll : List Chain → Nat
  | [] => 0
  | c :: cs => nodes c + nodesAll cs
end

end Verif.Spec
