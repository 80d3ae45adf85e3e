import Verif.Spec.Wire

/-!
# Specification of documents that repeat members

JSON (RFC 8259, section 4) leaves open what an object with several members of one name means.
-/

namespace Verif.Spec

/-- The value under a key; of several, the first. -/
def FirstMember {α : Type} (m : List (String × α)) (k : String) (v : α) : Prop := ∃ a b, m = a ++ (k, v) :: b ∧ ∀ e ∈ a, e.1 ≠ k

/-- No object, at any depth, has several members of one name. -/
inductive Single : Json → Prop
  | null : Single .null
  | bool {b : Bool} : Single (.bool b)
  | int {i : Int} : Single (.int i)
  | float {f : F64} : Single (.float f)
  | str {s : String} : Single (.str s)
  | arr {l : List Json} : (∀ v ∈ l, Single v) → Single (.arr l)
  | obj {m : List (String × Json)} : (m.map Prod.fst).Nodup → (∀ e ∈ m, Single e.2) → Single (.obj m)

/-- The document as seen by a reader that goes by the first of several members of one name. -/
inductive TakesFirst : Json → Json → Prop
  | null : TakesFirst .null .null
  | bool {b : Bool} : TakesFirst (.bool b) (.bool b)
  | int {i : Int} : TakesFirst (.int i) (.int i)
  | float {f : F64} : TakesFirst (.float f) (.float f)
  | str {s : String} : TakesFirst (.str s) (.str s)
  | arr {l l' : List Json} : l.length = l'.length → (∀ (i : Nat) x y, l[i]? = some x → l'[i]? = some y → TakesFirst x y) → TakesFirst (.arr l) (.arr l')
  | obj {m m' : List (String × Json)} : (m'.map Prod.fst).Nodup → (∀ k, Absent m k ↔ Absent m' k) →
      (∀ k x y, FirstMember m k x → (k, y) ∈ m' → TakesFirst x y) → TakesFirst (.obj m) (.obj m')

/-- The same document but for the order of members; no name is repeated. -/
inductive Shuffled : Json → Json → Prop
  | null : Shuffled .null .null
  | bool {b : Bool} : Shuffled (.bool b) (.bool b)
  | int {i : Int} : Shuffled (.int i) (.int i)
  | float {f : F64} : Shuffled (.float f) (.float f)
  | str {s : String} : Shuffled (.str s) (.str s)
  | arr {l l' : List Json} : l.length = l'.length → (∀ (i : Nat) x y, l[i]? = some x → l'[i]? = some y → Shuffled x y) → Shuffled (.arr l) (.arr l')
  | obj {m m' : List (String × Json)} : (m.map Prod.fst).Nodup → (m'.map Prod.fst).Nodup → (∀ k, Absent m k ↔ Absent m' k) →
      (∀ k x y, (k, x) ∈ m → (k, y) ∈ m' → Shuffled x y) → Shuffled (.obj m) (.obj m')

/-- The token is made of these two objects and this signature; `signed` is the text that is signed. -/
def Consists (D : Deps) (token : Bytes) (header payload : List (String × Json)) (signed signature : Bytes) : Prop :=
  ∃ hb pb ht pt st tail, token = ht ++ 46 :: pt ++ 46 :: st ++ tail ∧ Tail tail ∧
    BitText 6 base64url hb ht ∧ BitText 6 base64url pb pt ∧ BitText 6 base64url signature st ∧
    Document D hb (.obj header) ∧ Document D pb (.obj payload) ∧ signed = ht ++ 46 :: pt

end Verif.Spec
