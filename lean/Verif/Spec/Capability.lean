import Verif.Model.Semantics

/-!
# Specification of capabilities

Independent of how the code computes: sets of constraints, forms of resources, lists of triples.
-/

namespace Verif.Spec

/-- Zero of either sign. -/
def Zero (a : F64) : Prop := a = ⟨0⟩ ∨ a = ⟨2 ^ 63⟩

/-- The same JSON value. Doubles count as numbers, so that the two zeros are the same; an integer and a double never are. -/
inductive Same : Json → Json → Prop
  | null : Same .null .null
  | bool {b : Bool} : Same (.bool b) (.bool b)
  | int {i : Int} : Same (.int i) (.int i)
  | float {f : F64} : Same (.float f) (.float f)
  | zero {f g : F64} : Zero f → Zero g → Same (.float f) (.float g)
  | str {s : String} : Same (.str s) (.str s)
  | arr {l l' : List Json} : l.length = l'.length → (∀ (i : Nat) x y, l[i]? = some x → l'[i]? = some y → Same x y) → Same (.arr l) (.arr l')
  | obj {m m' : List (String × Json)} : m.length = m'.length →
      (∀ (i : Nat) x y, m[i]? = some x → m'[i]? = some y → x.1 = y.1) →
      (∀ (i : Nat) x y, m[i]? = some x → m'[i]? = some y → Same x.2 y.2) → Same (.obj m) (.obj m')

/-- `b` keeps every constraint of `a`: it has the key, with the same value. -/
def Keeps (a b : List (String × Json)) : Prop := ∀ k v, (k, v) ∈ a → ∃ v', (k, v') ∈ b ∧ Same v v'

/-- How a resource is addressed. -/
inductive Form where
  | plain
  | my
  | as_ (did : String)

variable {S A : Type}

def form : Resource S → Form
  | .resource _ => .plain
  | .my _ => .my
  | .as_ d _ => .as_ d

def kind : Resource S → ResourceUri S
  | .resource k => k
  | .my k => k
  | .as_ _ k => k

/-- `k` covers `k'`: either it is the wildcard, or both are scopes and the user's order says so. -/
def Covers (c : S → S → Prop) (k k' : ResourceUri S) : Prop :=
  k = .unscoped ∨ ∃ s t, k = .scoped s ∧ k' = .scoped t ∧ c s t

/-- Resource containment. -/
def ResContains (c : S → S → Prop) (r r' : Resource S) : Prop := form r = form r' ∧ Covers c (kind r) (kind r')

/-- `a` may be attenuated to `b`. -/
def Attenuates (sem : Semantics S A) (a b : View S A) : Prop :=
  ∃ ca cb, a.caveat = .obj ca ∧ b.caveat = .obj cb ∧
    ResContains (fun s t => sem.contains s t = true) a.resource b.resource ∧ sem.ge a.ability b.ability = true ∧ Keeps ca cb

/-- A user's scope and ability orders are preorders (`Ord` and a sensible `contains`). -/
structure Lawful (sem : Semantics S A) : Prop where
  containsRefl : ∀ s, sem.contains s s = true
  containsTrans : ∀ s t u, sem.contains s t = true → sem.contains t u = true → sem.contains s u = true
  geRefl : ∀ a, sem.ge a a = true
  geTrans : ∀ a b c, sem.ge a b = true → sem.ge b c = true → sem.ge a c = true

/-- The caveat is an object whose keys are sorted (every `serde_json` map is). -/
def ObjCaveat (v : View S A) : Prop := ∃ m, v.caveat = .obj m ∧ BMap.Sorted m

/-- Claims with a given resource and ability, in order. -/
def claims (r a : String) (l : List Capability) : List Capability :=
  l.filter fun c => decide (c.resource = r) && decide (c.ability = a)

/-- Not after in the order of resources, then abilities. -/
def KeyLe (c d : Capability) : Prop :=
  OrdKey.lt c.resource d.resource = true ∨
    (c.resource = d.resource ∧ (OrdKey.lt c.ability d.ability = true ∨ c.ability = d.ability))

def IsObj (v : Json) : Prop := ∃ m, v = .obj m

/-- A capability map with its representation invariant: both levels sorted. -/
def CapsSorted (m : Capabilities) : Prop := BMap.Sorted m ∧ ∀ r ∈ m, BMap.Sorted r.2

end Verif.Spec
