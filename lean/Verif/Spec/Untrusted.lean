import Verif.Spec.Check

/-!
# Specification for C96: stores that are not trusted

A reference is signed along with everything else in a token. It contains a hash of what it refers to.
-/

namespace Verif.Spec
open Builder (Op)

/-- The bytes have the hash that is in the CID. -/
def ContentOf (D : Deps) (cid : Cid) (b : Bytes) : Prop := D.digest cid.hashCode b = cid.digest

/-- A store that never answers with bytes other than those asked for. -/
def Faithful (D : Deps) (E : Env) : Prop := ∀ i cid b, E.read i cid = .ok (some (.bytes b)) → ContentOf D cid b

/-- Every proof of the chain, at any depth, was read at some tick of the run from a text that has the hash in the reference to it. -/
def Pinned (D : Deps) (E : Env) (lo hi : Nat) (c : Chain) : Prop :=
  Sound D (fun _ => True) (fun cid b => ReadIn E lo hi cid b ∧ ContentOf D cid b) c

/-- A reader whose clock stands at `t` and whose store gives these answers. -/
def answering (t : UInt64) (r : Nat → Cid → Res (Option Ipld)) : Env := ⟨fun _ => t, r⟩

/-- The calls that hand on everything in a token and claim nothing else. -/
def passCalls (k : Key) (aud : String) (exp : UInt64) (u : Ucan) : List Op :=
  [.issuedBy k, .forAudience aud, .withExpiration exp, .delegatingFrom u none]

end Verif.Spec
