import Verif.Model.Chain

/-!
# Validation as a state machine

`try_from_token_string` and `from_ucan` are asynchronous: the future may be polled at any times, other tasks and threads run in between, and it
may be dropped before it is finished. Here the future is a state machine with an explicit stack (the boxed futures of the recursive calls), and
there is no bound on the recursion. One step goes at most to the next reading of the clock or the store, or to the next `await`.
-/

namespace Verif
namespace Async

/-- What the clock and the store answer at some moment. -/
structure Snap where
  clock : UInt64
  read : Cid → Res (Option Ipld)

/-- Where the innermost call is. -/
inductive Ctl where
  /-- `try_from_token_string` begins (chain.rs 135-146). -/
  | token (t : String)
  /-- `validate` begins (ucan.rs 69-76). -/
  | expiry (u : Ucan)
  /-- Before `is_too_early` (ucan.rs 78-80). -/
  | early (u : Ucan)
  /-- Before `did_parser.parse` (ucan.rs 87). -/
  | issuer (u : Ucan)
  /-- At the `await` of `key.verify` (ucan.rs 88). -/
  | verify (u : Ucan) (key : Key)
  /-- At the head of the loop over the proofs (chain.rs 66-72), then after it (chain.rs 75-111). -/
  | proofs (u : Ucan) (done : List Chain) (rest : List String)
  /-- The call has returned. -/
  | ret (r : Res Chain)

/-- A call of `from_ucan` waiting for the chain of one of its proofs (chain.rs 69-72). -/
structure Frame where
  ucan : Ucan
  done : List Chain
  rest : List String

/-- A future, with the `DidParser` that it borrows. -/
structure Task where
  ctl : Ctl
  stack : List Frame
  parser : DidParser

/-- The next CID and what `require_token` makes of the store's answer (chain.rs 67-69, store.rs 65-86); the flag says whether the store was read. -/
def fetch (D : Deps) (snap : Snap) (s : String) : Bool × Res String :=
  match orErr .cidText (Cid.parse D s) with
  | .error e => (false, .error e)
  | .ok cid =>
    if cid.codec ≠ Cid.rawCodec then (false, err .wrongCodec)
    else
      match snap.read cid with
      | .error e => (true, .error e)
      | .ok r => (true, Store.tokenOf r)

/-- One step of the innermost call (chain.rs 52-112, 135-163, ucan.rs 69-89). The flag says whether the clock or the store was read. -/
def step (D : Deps) (nowTime : Option UInt64) (snap : Snap) (t : Task) : Bool × Task :=
  match t.ctl with
  | .token s =>
    match Ucan.fromStr D s with
    | .ok u => (false, { t with ctl := .expiry u })
    | .error e => (false, { t with ctl := .ret (.error e) })
  | .expiry u =>
    match u.payload.exp with
    | none => (false, { t with ctl := .early u })
    | some exp =>
      match nowTime with
      | some n => (false, { t with ctl := if exp < n then .ret (err .expired) else .early u })
      | none => (true, { t with ctl := if exp < snap.clock then .ret (err .expired) else .early u })
  | .early u =>
    match u.payload.nbf with
    | none => (false, { t with ctl := .issuer u })
    | some nbf => (true, { t with ctl := if nbf > snap.clock then .ret (err .tooEarly) else .issuer u })
  | .issuer u =>
    match t.parser.parse u.payload.iss with
    | (.ok key, p) => (false, { t with ctl := .verify u key, parser := p })
    | (.error e, p) => (false, { t with ctl := .ret (.error e), parser := p })
  | .verify u key =>
    match key.verify u.signedData u.signature with
    | .ok _ => (false, { t with ctl := .proofs u [] (u.proofs.getD []) })
    | .error e => (false, { t with ctl := .ret (.error e) })
  | .proofs u done [] =>
    match Chain.redelegations D done.length u with
    | .ok r => (false, { t with ctl := .ret (.ok (.mk u done r)) })
    | .error e => (false, { t with ctl := .ret (.error e) })
  | .proofs u done (s :: ss) =>
    match fetch D snap s with
    | (b, .ok token) => (b, { t with ctl := .token token, stack := ⟨u, done, ss⟩ :: t.stack })
    | (b, .error e) => (b, { t with ctl := .ret (.error e) })
  | .ret r =>
    match t.stack with
    | [] => (false, t)
    | f :: fs =>
      match r with
      | .error _ => (false, { t with stack := fs })
      | .ok c =>
        match Chain.validateLink c.ucan f.ucan with
        | .ok _ => (false, { t with ctl := .proofs f.ucan (f.done ++ [c]) f.rest, stack := fs })
        | .error e => (false, { t with ctl := .ret (.error e), stack := fs })

/-- The future of `try_from_token_string` before it is first polled. -/
def start (token : String) (p : DidParser) : Task := ⟨.token token, [], p⟩

/-- The result of a finished future. -/
def Task.result (t : Task) : Option (Res Chain) :=
  match t.ctl, t.stack with
  | .ret r, [] => some r
  | _, _ => none

/-- The environment at a tick. -/
def snapOf (E : Env) (n : Nat) : Snap := ⟨E.clock n, E.read n⟩

/-- A step of one future that has the environment for itself. -/
def stepIn (D : Deps) (E : Env) (nowTime : Option UInt64) (s : Nat × Task) : Nat × Task :=
  match step D nowTime (snapOf E s.1) s.2 with
  | (used, t) => (s.1 + used.toNat, t)

/-- `k` steps. -/
def runIn (D : Deps) (E : Env) (nowTime : Option UInt64) : Nat → Nat × Task → Nat × Task
  | 0, s => s
  | k + 1, s => runIn D E nowTime k (stepIn D E nowTime s)

/-- Any number of futures, of which `sched` says which makes a step at each moment; the answers of clock and store at each moment are given by
`G`, so other threads may write in between. -/
def runAll (D : Deps) (nowTime : Nat → Option UInt64) (G : Nat → Snap) (sched : Nat → Option Nat) (tasks : Nat → Task) : Nat → Nat → Task
  | 0 => tasks
  | T + 1 => fun i =>
    if sched T = some i then (step D (nowTime i) (G T) (runAll D nowTime G sched tasks T i)).2 else runAll D nowTime G sched tasks T i

end Async
end Verif
