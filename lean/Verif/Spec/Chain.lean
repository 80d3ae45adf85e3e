import Verif.Model.Chain
import Verif.Spec.Proof
import Verif.Spec.Time

/-!
# Specification of proof chains

A chain is sound when every UCAN in it is valid, every child is what the store holds for the corresponding entry of the
proof list, every link is a delegation, and the recorded redelegations are those claimed. Validity (`V`) and the content of the
store (`F`) are parameters.
-/

namespace Verif.Spec

/-- `proof` delegates to `u`: it is addressed to the issuer of `u` and each of its bounds is matched by a bound of `u` within it. -/
structure Delegates (proof u : Ucan) : Prop where
  addressed : proof.payload.aud = u.payload.iss
  begins : ∀ n, proof.payload.nbf = some n → ∃ m, u.payload.nbf = some m ∧ n ≤ m
  ends : ∀ e, proof.payload.exp = some e → ∃ f, u.payload.exp = some f ∧ f ≤ e

/-- The entry `s` of a proof list stands for the UCAN `child`: it is the text of a raw CID under which the store holds the text of
a token with that content. -/
def Resolves (D : Deps) (F : Cid → Bytes → Prop) (s : String) (child : Ucan) : Prop :=
  ∃ cid token, Cid.parse D s = some cid ∧ cid.codec = Cid.rawCodec ∧ F cid (strBytes token) ∧ Ucan.fromStr D token = .ok child

/-- `redel` is the set of proofs that the claims of `u` redelegate, all among its `n` proofs. -/
structure RedelOk (D : Deps) (u : Ucan) (n : Nat) (redel : BSet Nat) : Prop where
  sorted : BSet.Sorted redel
  claimed : ∀ i, i ∈ redel ↔ ∃ c ∈ u.payload.cap.iter, Redelegates D c i
  inRange : ∀ i ∈ redel, i < n

mutual
/-- The chain is sound at every depth. -/
def Sound (D : Deps) (V : Ucan → Prop) (F : Cid → Bytes → Prop) : Chain → Prop
  | .mk u proofs redel => V u ∧ SoundAll D V F u (u.payload.prf.getD []) proofs ∧ RedelOk D u proofs.length redel
/-- One sound child per entry of the proof list, in order. -/
def SoundAll (D : Deps) (V : Ucan → Prop) (F : Cid → Bytes → Prop) (u : Ucan) : List String → List Chain → Prop
  | ss, [] => ss = []
  | ss, c :: cs => ∃ s ss', ss = s :: ss' ∧ Resolves D F s c.ucan ∧ Delegates c.ucan u ∧ Sound D V F c ∧ SoundAll D V F u ss' cs
end

/-- `c` is `d` or occurs among its proofs at some depth. -/
inductive Sub : Chain → Chain → Prop
  | self (c : Chain) : Sub c c
  | proof {c d e : Chain} : e ∈ d.proofs → Sub c e → Sub c d

mutual
/-- Number of levels. -/
def levels : Chain → Nat
  | .mk _ proofs _ => levelsAll proofs + 1
def levelsAll : List Chain → Nat
  | [] => 0
  | c :: cs => max (levels c) (levelsAll cs)
end

/-- Valid at some instants of a run that reads the clock at ticks `lo ≤ i < hi`; a supplied time replaces the clock for the expiry. -/
structure ValidIn (E : Env) (nowTime : Option UInt64) (ctors : BMap Bytes KeyCtor) (lo hi : Nat) (u : Ucan) : Prop where
  authentic : Authentic ctors u
  unexpired : ∀ e, u.payload.exp = some e →
    match nowTime with
    | some t => t ≤ e
    | none => ∃ i, lo ≤ i ∧ i < hi ∧ E.clock i ≤ e
  active : ∀ n, u.payload.nbf = some n → ∃ i, lo ≤ i ∧ i < hi ∧ n ≤ E.clock i

/-- The store returned these bytes for the CID at some tick of the run. -/
def ReadIn (E : Env) (lo hi : Nat) (cid : Cid) (b : Bytes) : Prop := ∃ i, lo ≤ i ∧ i < hi ∧ E.read i cid = .ok (some (.bytes b))

/-- Valid when the clock stands at `t`. -/
structure ValidAt (nowTime : Option UInt64) (ctors : BMap Bytes KeyCtor) (t : UInt64) (u : Ucan) : Prop where
  authentic : Authentic ctors u
  unexpired : Unexpired u (nowTime.getD t)
  active : Active u t

/-- The store answers with the same content whenever it is read. -/
def StoreFixed (E : Env) : Prop := ∀ i j c, E.read i c = E.read j c
def ClockFixed (E : Env) (t : UInt64) : Prop := ∀ i, E.clock i = t
/-- What a fixed store holds. -/
def Holds (E : Env) (cid : Cid) (b : Bytes) : Prop := E.read 0 cid = .ok (some (.bytes b))

/-- `v` is reachable from `u` through the proof lists and the store content `F`. -/
inductive Reaches (D : Deps) (F : Cid → Bytes → Prop) : Ucan → Ucan → Prop
  | self (u : Ucan) : Reaches D F u u
  | step {u v x : Ucan} {s : String} : s ∈ u.payload.prf.getD [] → Resolves D F s v → Reaches D F v x → Reaches D F u x

end Verif.Spec
