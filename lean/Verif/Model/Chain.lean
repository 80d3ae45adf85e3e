import Verif.Model.Proof
import Verif.Model.Store
import Verif.Model.Ucan

/-! # `ucan/src/chain.rs` -/

namespace Verif

/-- `struct ProofChain` (chain.rs 41-46). `redel` is the `BTreeSet<usize>`, ascending. The accessors `ucan`
and `proofs` (165-171) are projections. -/
inductive Chain where
  | mk (ucan : Ucan) (proofs : List Chain) (redel : BSet Nat)

namespace Chain

def ucan : Chain → Ucan
  | mk u _ _ => u
def proofs : Chain → List Chain
  | mk _ p _ => p
def redel : Chain → BSet Nat
  | mk _ _ r => r

/-- `validate_link_to` (chain.rs 148-163). -/
def validateLink (self : Ucan) (ucan : Ucan) : Res Unit :=
  if self.audience = ucan.issuer then
    if self.lifetimeEncompasses ucan then .ok () else err .lifetime
  else err .audience

/-- One redelegation claim (chain.rs 83-103); `n` is the number of proofs. -/
def redelStep (n : Nat) (acc : BSet Nat) (v : View ProofSelection ProofAction) : Res (BSet Nat) :=
  match v.resource with
  | .resource (.scoped .all) => .ok (BSet.extend acc (List.range n))
  | .resource (.scoped (.index i)) => if i < n then .ok (BSet.insert acc i) else err .noProofAt
  | _ => .ok acc

/-- The loop of chain.rs 78-105. -/
def redelLoop (n : Nat) : BSet Nat → List (View ProofSelection ProofAction) → Res (BSet Nat)
  | acc, [] => .ok acc
  | acc, v :: vs =>
    match redelStep n acc v with
    | .ok acc' => redelLoop n acc' vs
    | .error e => .error e

/-- chain.rs 76-105. -/
def redelegations (D : Deps) (n : Nat) (u : Ucan) : Res (BSet Nat) :=
  redelLoop n [] (u.capabilities.iter.filterMap (proofSemantics.parseCapability D))

/-- The loop over the proof list (chain.rs 66-72); `rec` is the recursive call on a token. -/
def proofsLoop (D : Deps) (E : Env) (rec : String → M Chain) (u : Ucan) : List String → M (List Chain)
  | [] => pure []
  | s :: ss => do
    let cid ← M.lift (orErr .cidText (Cid.parse D s))
    let token ← Store.requireToken E cid
    let c ← rec token
    M.lift (validateLink c.ucan u)
    let cs ← proofsLoop D E rec u ss
    pure (c :: cs)

/-- `from_ucan` (chain.rs 52-112) for a given recursive call. -/
def fromUcanWith (D : Deps) (E : Env) (nowTime : Option UInt64) (rec : String → M Chain) (u : Ucan) : M Chain := do
  u.validate E nowTime
  let proofs ← proofsLoop D E rec u (u.proofs.getD [])
  let redel ← M.lift (redelegations D proofs.length u)
  pure (mk u proofs redel)

/-- `try_from_token_string` (chain.rs 135-146). The recursion is cut off after `fuel` levels. -/
def ofToken (D : Deps) (E : Env) (nowTime : Option UInt64) : Nat → String → M Chain
  | 0, _ => M.lift (.error .diverge)
  | fuel + 1, token => do
    let u ← M.lift (Ucan.fromStr D token)
    fromUcanWith D E nowTime (ofToken D E nowTime fuel) u

/-- `from_ucan` (chain.rs 52-112). -/
def fromUcan (D : Deps) (E : Env) (nowTime : Option UInt64) (fuel : Nat) (u : Ucan) : M Chain :=
  fromUcanWith D E nowTime (ofToken D E nowTime fuel) u

/-- `from_cid` (chain.rs 116-132). -/
def fromCid (D : Deps) (E : Env) (nowTime : Option UInt64) (fuel : Nat) (c : Cid) : M Chain := do
  let token ← Store.requireToken E c
  ofToken D E nowTime fuel token

end Chain

/-- `struct CapabilityInfo<S, A>` (chain.rs 17-23). -/
structure Info (S A : Type) where
  originators : BSet String
  notBefore : Option UInt64
  expiresAt : Option UInt64
  capability : View S A
deriving DecidableEq

namespace Reduce

variable {S A : Type}

/-- `Iterator::map_while`. -/
def mapWhile {α β : Type} (f : α → Option β) : List α → List β
  | [] => []
  | x :: xs =>
    match f x with
    | some y => y :: mapWhile f xs
    | none => []

/-- Redelegated capabilities take the lifetime of this UCAN (chain.rs 208-214). -/
def relifetime (u : Ucan) (i : Info S A) : Info S A := { i with notBefore := u.notBefore, expiresAt := u.expiresAt }

/-- Union of the originators of the ancestral capabilities that enable `v` (chain.rs 239-247). -/
def gather (sem : Semantics S A) (v : View S A) : BSet String → List (Info S A) → BSet String
  | acc, [] => acc
  | acc, i :: is => if sem.enables i.capability v then gather sem v (BSet.extend acc i.originators) is else gather sem v acc is

/-- Originators of a claim (chain.rs 237-253). -/
def originators (sem : Semantics S A) (u : Ucan) (anc : List (Info S A)) (v : View S A) : BSet String :=
  if (gather sem v [] anc).isEmpty then [u.issuer] else gather sem v [] anc

/-- Claims of this UCAN (chain.rs 218-263). -/
def selfInfos (D : Deps) (sem : Semantics S A) (u : Ucan) (nproofs : Nat) (anc : List (Info S A)) : List (Info S A) :=
  (mapWhile (sem.parseCapability D) u.capabilities.iter).map fun v =>
    ⟨if nproofs = 0 then [u.issuer] else originators sem u anc v, u.notBefore, u.expiresAt, v⟩

/-- The inner loop of the merge (chain.rs 272-282): the first remaining capability that enables the popped one takes its originators. -/
def absorb (sem : Semantics S A) (p : Info S A) : List (Info S A) → Option (List (Info S A))
  | [] => none
  | r :: rs =>
    if sem.enables r.capability p.capability then some ({ r with originators := BSet.extend r.originators p.originators } :: rs)
    else (absorb sem p rs).map (r :: ·)

/-- The merge loop (chain.rs 267-287): pops from the end of the vector, `fuel` is its length. -/
def mergeLoop (sem : Semantics S A) : Nat → List (Info S A) → List (Info S A) → List (Info S A)
  | 0, _, acc => acc
  | fuel + 1, infos, acc =>
    match infos.getLast? with
    | none => acc
    | some p =>
      match absorb sem p infos.dropLast with
      | some rest => mergeLoop sem fuel rest acc
      | none => mergeLoop sem fuel infos.dropLast (acc ++ [p])

def merge (sem : Semantics S A) (infos : List (Info S A)) : List (Info S A) := mergeLoop sem infos.length infos []

/-- Concatenate the results of the proofs that are not redelegated (chain.rs 184-195), `i` being the index of the first. -/
def ancestral {α : Type} (redel : BSet Nat) : Nat → List (Res (List α)) → Res (List α)
  | _, [] => .ok []
  | i, r :: rs =>
    if i ∈ redel then ancestral redel (i + 1) rs
    else
      match r with
      | .error e => .error e
      | .ok l =>
        match ancestral redel (i + 1) rs with
        | .error e => .error e
        | .ok ls => .ok (l ++ ls)

/-- Concatenate the results of the redelegated proofs (chain.rs 199-216); a missing index panics. -/
def redelegated {α : Type} (results : List (Res (List α))) : List Nat → Res (List α)
  | [] => .ok []
  | i :: is =>
    match results[i]? with
    | none => panicked .unwrapProof
    | some (.error e) => .error e
    | some (.ok l) =>
      match redelegated results is with
      | .error e => .error e
      | .ok ls => .ok (l ++ ls)

/-- chain.rs 173-288 given the results of all proofs. -/
def combine (D : Deps) (sem : Semantics S A) (u : Ucan) (redel : BSet Nat) (results : List (Res (List (Info S A)))) :
    Res (List (Info S A)) :=
  match ancestral redel 0 results with
  | .error e => .error e
  | .ok anc =>
    match redelegated results redel with
    | .error e => .error e
    | .ok red => .ok (merge sem (selfInfos D sem u results.length anc ++ red.map (relifetime u)))

mutual
/-- `reduce_capabilities` (chain.rs 173-288). -/
def reduce (D : Deps) (sem : Semantics S A) : Chain → Res (List (Info S A))
  | .mk u proofs redel => combine D sem u redel (reduceAll D sem proofs)
/-- `reduce_capabilities` of every proof. -/
def reduceAll (D : Deps) (sem : Semantics S A) : List Chain → List (Res (List (Info S A)))
  | [] => []
  | c :: cs => reduce D sem c :: reduceAll D sem cs
end

end Reduce
end Verif
