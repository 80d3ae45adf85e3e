import Verif.Codec.JsonLemmas
import Verif.Spec.Json
import Verif.Base.BTree

/-! # Specification: values that tokens can carry -/

namespace Verif.Spec

/-- One value occurs in another, or is that value. -/
inductive Occurs (x : Json) : Json → Prop
  | self : Occurs x x
  | elem {l : List Json} {v : Json} : v ∈ l → Occurs x v → Occurs x (.arr l)
  | member {m : List (String × Json)} {k : String} {v : Json} : (k, v) ∈ m → Occurs x v → Occurs x (.obj m)

/-- Somewhere the value contains an object by which DAG-JSON denotes a link or a byte string. -/
def Reserves (v : Json) : Prop :=
  ∃ s, Occurs (.obj [("/", .str s)]) v ∨ Occurs (.obj [("/", .obj [("bytes", .str s)])]) v

/-- A value that a program can hold in a `serde_json::Value`: objects have ascending keys, integers have 64 bits;
the conversion of its doubles to text and back is taken to be exact. -/
structure Held (D : Deps) (v : Json) : Prop where
  objects : ∀ m, Occurs (.obj m) v → BMap.Sorted m
  integers : ∀ i, Occurs (.int i) v → -(2 ^ 63) ≤ i ∧ i < 2 ^ 64
  doubles : ∀ f, Occurs (.float f) v → Json.FloatOk D f

end Verif.Spec
