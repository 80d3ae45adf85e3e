import Verif.Codec.DagJson
import Verif.Model.Did

/-!
# Environment and state

The clock (`ucan/src/time.rs`) and the store are read at *ticks*: each reading advances the tick, so
the clock may move (even backwards) and other threads may change the store between any two
readings. The only state of the library that survives a call is the cache of the `DidParser`.
-/

namespace Verif

structure Env where
  /-- `now()` at a tick. -/
  clock : Nat → UInt64
  /-- `UcanStore::read::<Ipld>` at a tick (store.rs 49). -/
  read : Nat → Cid → Res (Option Ipld)

structure World where
  tick : Nat
  parser : DidParser

/-- A computation that may fail but keeps its state changes when it does. -/
def M (α : Type) := World → Res α × World

namespace M

def pure {α : Type} (a : α) : M α := fun w => (.ok a, w)
def bind {α β : Type} (x : M α) (f : α → M β) : M β := fun w =>
  match x w with
  | (.ok a, w') => f a w'
  | (.error e, w') => (.error e, w')

instance : Monad M where
  pure := pure
  bind := bind

/-- A pure computation. -/
def lift {α : Type} (r : Res α) : M α := fun w => (r, w)

theorem bind_ok {α β : Type} {x : M α} {f : α → M β} {w w' : World} {b : β} :
    (x >>= f) w = (.ok b, w') ↔ ∃ a w1, x w = (.ok a, w1) ∧ f a w1 = (.ok b, w') := by
  show bind x f w = _ ↔ _
  unfold bind
  split
  · rename_i a w1 h
    constructor
    · intro h'; exact ⟨a, w1, h, h'⟩
    · rintro ⟨a', w1', h1, h2⟩
      rw [h] at h1; cases h1; exact h2
  · rename_i e w1 h
    constructor
    · intro h'; cases h'
    · rintro ⟨a', w1', h1, h2⟩
      rw [h] at h1; cases h1

theorem bind_of_ok {α β : Type} {x : M α} {f : α → M β} {w w1 : World} {a : α} (h : x w = (.ok a, w1)) :
    (x >>= f) w = f a w1 := by
  show bind x f w = _
  unfold bind; rw [h]

theorem bind_of_error {α β : Type} {x : M α} {f : α → M β} {w w1 : World} {e : Fail} (h : x w = (.error e, w1)) :
    (x >>= f) w = (.error e, w1) := by
  show bind x f w = _
  unfold bind; rw [h]

@[simp] theorem pure_apply {α : Type} (a : α) (w : World) : (Pure.pure a : M α) w = (.ok a, w) := rfl
@[simp] theorem lift_apply {α : Type} (r : Res α) (w : World) : lift r w = (r, w) := rfl

end M

/-- `now()` (time.rs 3-8). -/
def Env.now (E : Env) : M UInt64 := fun w => (.ok (E.clock w.tick), { w with tick := w.tick + 1 })

/-- A store read. -/
def Env.readM (E : Env) (c : Cid) : M (Option Ipld) := fun w => (E.read w.tick c, { w with tick := w.tick + 1 })

/-- `did_parser.parse(did)`. -/
def parseDid (did : String) : M Key := fun w =>
  match w.parser.parse did with
  | (r, p) => (r, { w with parser := p })

end Verif
