import Verif.Model.Store

/-!
# Specification of memory stores: a log

A history is a list of operations, the latest first. What a store holds is read off the log: there are no maps, allocations
or handles here.
-/

namespace Verif.Spec
open Store (Op)

/-- The number of independent stores created so far. -/
def creates : List Op → Nat
  | [] => 0
  | .create :: l => creates l + 1
  | _ :: l => creates l

/-- For each handle, the store it belongs to: a clone belongs to the store of the original. -/
def families : List Op → List Nat
  | [] => []
  | .create :: l => families l ++ [creates l]
  | .clone h :: l =>
    match (families l)[h]? with
    | some g => families l ++ [g]
    | none => families l
  | _ :: l => families l

/-- The last bytes written to the store `g`, through any of its handles, that have the CID `c`. -/
def stored (D : Deps) (g : Nat) (c : Cid) : List Op → Option Bytes
  | [] => none
  | .write h (.bytes b) :: l => if (families l)[h]? = some g ∧ Store.blockCid D b = c then some b else stored D g c l
  | _ :: l => stored D g c l

/-- The handle `h` belongs to the store `g` after the history. -/
def Belongs (l : List Op) (h g : Nat) : Prop := (families l)[h]? = some g

/-- Bytes `b` were written to the store `g` at some point of the history. -/
inductive Written (g : Nat) (b : Bytes) : List Op → Prop
  | here {l : List Op} (h : Nat) : Belongs l h g → Written g b (.write h (.bytes b) :: l)
  | earlier {l : List Op} (op : Op) : Written g b l → Written g b (op :: l)

/-- The hash does not collide on the bytes written to the store. -/
def NoCollision (D : Deps) (g : Nat) (l : List Op) : Prop :=
  ∀ b b', Written g b l → Written g b' l → Store.blockCid D b = Store.blockCid D b' → b = b'

end Verif.Spec
