import Verif.Model.Async

/-!
# Specification of asynchronous validation
-/

namespace Verif.Spec
open Async

/-- The readings of `E` are, in this order, answers that clock and store gave: the first `m` before moment `T`, when it was the turn of task `i`. -/
def InOrder (E : Env) (G : Nat → Snap) (sched : Nat → Option Nat) (i T m : Nat) : Prop :=
  ∃ g : Nat → Nat, (∀ a b, a < b → g a < g b) ∧ (∀ k, E.clock k = (G (g k)).clock ∧ E.read k = (G (g k)).read) ∧
    ∀ k, k < m → g k < T ∧ sched (g k) = some i

end Verif.Spec
