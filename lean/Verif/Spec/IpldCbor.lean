import Verif.Spec.Cbor
import Verif.Spec.Wire
import Verif.Model.IpldUcan

/-! # Specification of UCAN-IPLD documents in DAG-CBOR -/

namespace Verif.Spec

/-! ## Plain values -/

/-- No link, no byte string, no integer below the 64-bit range anywhere. -/
inductive PlainTree : Ipld → Prop
  | null : PlainTree .null
  | bool {b : Bool} : PlainTree (.bool b)
  | int {i : Int} : -(2 ^ 63) ≤ i → i < 2 ^ 64 → PlainTree (.int i)
  | float {f : F64} : PlainTree (.float f)
  | str {s : String} : PlainTree (.str s)
  | list {l : List Ipld} : (∀ x ∈ l, PlainTree x) → PlainTree (.list l)
  | map {m : List (String × Ipld)} : (∀ e ∈ m, PlainTree e.2) → PlainTree (.map m)

/-- A tree as the plain value an application sees: keys are unique and in order, of several values under one key the last counts. -/
inductive Means : Ipld → Json → Prop
  | null : Means .null .null
  | bool {b : Bool} : Means (.bool b) (.bool b)
  | int {i : Int} : -(2 ^ 63) ≤ i → i < 2 ^ 64 → Means (.int i) (.int i)
  | float {f : F64} : Means (.float f) (.float f)
  | str {s : String} : Means (.str s) (.str s)
  | list {l : List Ipld} {l' : List Json} : l.length = l'.length → (∀ (i : Nat) x y, l[i]? = some x → l'[i]? = some y → Means x y) →
      Means (.list l) (.arr l')
  | map {m : List (String × Ipld)} {m' : List (String × Json)} : (∀ e ∈ m, PlainTree e.2) → BMap.Sorted m' → (∀ k, Absent m k ↔ Absent m' k) →
      (∀ k x y, Member m k x → (k, y) ∈ m' → Means x y) → Means (.map m) (.obj m')

/-- A list of such things. -/
def ListOf {α : Type} (R : Ipld → α → Prop) (w : Ipld) (l : List α) : Prop :=
  ∃ u, w = .list u ∧ u.length = l.length ∧ ∀ (i : Nat) x a, u[i]? = some x → l[i]? = some a → R x a

/-- A map to such things. Every value must be one, of several under one key the last counts. -/
def MapOf {α : Type} (R : Ipld → α → Prop) (w : Ipld) (m : List (String × α)) : Prop :=
  ∃ u, w = .map u ∧ (∀ e ∈ u, ∃ a, R e.2 a) ∧ BMap.Sorted m ∧ (∀ k, Absent u k ↔ Absent m k) ∧ ∀ k x a, Member u k x → (k, a) ∈ m → R x a

/-! ## Documents -/

/-- The key occurs exactly once, with this value. -/
def Once {α : Type} (m : List (String × α)) (k : String) (v : α) : Prop := ∃ a b, m = a ++ (k, v) :: b ∧ Absent a k ∧ Absent b k

/-- An entry that may be missing or null. -/
def MaybeOnce {α : Type} (m : List (String × Ipld)) (k : String) (R : Ipld → α → Prop) : Option α → Prop
  | none => Absent m k ∨ Once m k .null
  | some a => ∃ w, Once m k w ∧ R w a

/-- A number of eight bits. -/
def Octet (w : Ipld) (x : UInt8) : Prop := w = .int x.toNat

structure ReadsUcanIpld (m : List (String × Ipld)) (x : UcanIpld) : Prop where
  v : Once m "v" (.str x.v)
  iss : ∃ w, Once m "iss" w ∧ ListOf Octet w x.iss.bytes
  aud : ∃ w, Once m "aud" w ∧ ListOf Octet w x.aud.bytes
  s : ∃ w, Once m "s" w ∧ ListOf Octet w x.s.bytes
  cap : ∃ w, Once m "cap" w ∧ MapOf (MapOf (ListOf Means)) w x.cap
  prf : MaybeOnce m "prf" (ListOf fun w c => w = .link c) x.prf
  exp : MaybeOnce m "exp" (fun w (n : UInt64) => w = .int n.toNat) x.exp
  fct : MaybeOnce m "fct" (MapOf Means) x.fct
  nnc : MaybeOnce m "nnc" (fun w s => w = .str s) x.nnc
  nbf : MaybeOnce m "nbf" (fun w (n : UInt64) => w = .int n.toNat) x.nbf

/-! ## What is written -/

mutual
/-- A plain value as a tree. -/
def treeOf : Json → Ipld
  | .null => .null
  | .bool b => .bool b
  | .int i => .int i
  | .float f => .float f
  | .str s => .str s
  | .arr l => .list (treesOf l)
  | .obj m => .map (treesOfMembers m)
def treesOf : List Json → List Ipld
  | [] => []
  | x :: xs => treeOf x :: treesOf xs
def treesOfMembers : List (String × Json) → List (String × Ipld)
  | [] => []
  | (k, x) :: xs => (k, treeOf x) :: treesOfMembers xs
end

/-- A value, or null. -/
def orNull {α : Type} (f : α → Ipld) : Option α → Ipld
  | none => .null
  | some a => f a

/-- Bytes as an array of numbers. -/
def octets (b : Bytes) : Ipld := .list (b.map fun x => .int x.toNat)

/-- The document of a UCAN-IPLD value, in the order of the bytes. All ten entries are always there. -/
def ucanIpldDoc (x : UcanIpld) : Ipld := .map
  [("s", octets x.s.bytes), ("v", .str x.v), ("aud", octets x.aud.bytes), ("cap", treeOf (capDoc x.cap)),
   ("exp", orNull (fun n : UInt64 => .int n.toNat) x.exp), ("fct", orNull (fun f => treeOf (.obj f)) x.fct), ("iss", octets x.iss.bytes),
   ("nbf", orNull (fun n : UInt64 => .int n.toNat) x.nbf), ("nnc", orNull .str x.nnc), ("prf", orNull (fun l => .list (l.map .link)) x.prf)]

/-! ## What the types of the fields guarantee -/

mutual
/-- What `serde_json::Value` can hold: 64-bit integers, finite doubles, objects with unique keys in order. -/
def SoundValue : Json → Prop
  | .int i => -(2 ^ 63) ≤ i ∧ i < 2 ^ 64
  | .float f => Finite f
  | .str s => Fits (strBytes s).length
  | .arr l => Fits l.length ∧ SoundValues l
  | .obj m => Fits m.length ∧ BMap.Sorted m ∧ SoundMembers m
  | _ => True
def SoundValues : List Json → Prop
  | [] => True
  | x :: xs => SoundValue x ∧ SoundValues xs
def SoundMembers : List (String × Json) → Prop
  | [] => True
  | (k, x) :: xs => Fits (strBytes k).length ∧ SoundValue x ∧ SoundMembers xs
end

/-- What the fields of `UcanIpld` can hold in memory. -/
structure SoundUcanIpld (x : UcanIpld) : Prop where
  v : Fits (strBytes x.v).length
  iss : Fits x.iss.bytes.length
  aud : Fits x.aud.bytes.length
  s : Fits x.s.bytes.length
  cap : SoundValue (capDoc x.cap)
  prf : ∀ l, x.prf = some l → Fits l.length ∧ ∀ c ∈ l, c.Valid
  fct : ∀ f, x.fct = some f → SoundValue (.obj f)
  nnc : ∀ s, x.nnc = some s → Fits (strBytes s).length

end Verif.Spec
