import Verif.Spec.Cid
import Verif.Codec.DagJson

/-! # Specification of CBOR (RFC 8949) and of its strict subset DAG-CBOR -/

namespace Verif.Spec

/-- The number that bytes stand for, most significant first. -/
def bigEndian : Bytes → Nat
  | [] => 0
  | x :: r => x.toNat * 256 ^ r.length + bigEndian r

/-- Initial byte (major type in the upper three bits) and argument: in the lower five bits or in 1, 2, 4 or 8 bytes. -/
inductive Head (major : Nat) : Nat → Bytes → Prop
  | short {x : UInt8} {n : Nat} : n < 24 → x.toNat = major * 32 + n → Head major n [x]
  | long {x : UInt8} {k : Nat} {b : Bytes} : k < 4 → b.length = 2 ^ k → x.toNat = major * 32 + 24 + k → Head major (bigEndian b) (x :: b)

/-- No shorter form has the same argument. -/
def ShortestHead (major n : Nat) (h : Bytes) : Prop := Head major n h ∧ ∀ h', Head major n h' → h.length ≤ h'.length

/-- The exponent bits are not all one. -/
def Finite (f : F64) : Prop := f.bits.toNat / 2 ^ 52 % 2048 ≠ 2047

mutual
/-- The CBOR data items of definite length that the IPLD data model has, with map entries in the order in which they are written. -/
inductive Cbor : Bytes → Ipld → Prop
  | null : Cbor [0xf6] .null
  | false : Cbor [0xf4] (.bool false)
  | true : Cbor [0xf5] (.bool true)
  | nat {n : Nat} {h : Bytes} : Head 0 n h → Cbor h (.int n)
  | neg {n : Nat} {h : Bytes} : Head 1 n h → Cbor h (.int (-1 - n))
  | float {f : F64} {b : Bytes} : b.length = 8 → bigEndian b = f.bits.toNat → Finite f → Cbor (0xfb :: b) (.float f)
  | str {s : String} {h : Bytes} : Head 3 (strBytes s).length h → Cbor (h ++ strBytes s) (.str s)
  | bytes {b h : Bytes} : Head 2 b.length h → Cbor (h ++ b) (.bytes b)
  | list {l : List Ipld} {h p : Bytes} : Head 4 l.length h → CborItems p l → Cbor (h ++ p) (.list l)
  | map {m : List (String × Ipld)} {h p : Bytes} : Head 5 m.length h → CborEntries p m → Cbor (h ++ p) (.map m)
  | link {c : Cid} {t h b : Bytes} : Head 6 42 t → Head 2 (b.length + 1) h → StartsWithCid b c → Cbor (t ++ (h ++ 0 :: b)) (.link c)
inductive CborItems : Bytes → List Ipld → Prop
  | nil : CborItems [] []
  | cons {x : Ipld} {xs : List Ipld} {p q : Bytes} : Cbor p x → CborItems q xs → CborItems (p ++ q) (x :: xs)
inductive CborEntries : Bytes → List (String × Ipld) → Prop
  | nil : CborEntries [] []
  | cons {k : String} {x : Ipld} {xs : List (String × Ipld)} {h p q : Bytes} : Head 3 (strBytes k).length h → Cbor p x → CborEntries q xs →
      CborEntries (h ++ (strBytes k ++ (p ++ q))) ((k, x) :: xs)
end

/-- Shorter keys first, keys of equal length bytewise. -/
def KeyBefore (a b : String) : Prop :=
  (strBytes a).length < (strBytes b).length ∨ ((strBytes a).length = (strBytes b).length ∧ OrdKey.lt a b = true)

mutual
/-- DAG-CBOR: every head is as short as possible, the entries of a map are ordered by key. Here a map is given with its entries in any order. -/
inductive DagCbor : Bytes → Ipld → Prop
  | null : DagCbor [0xf6] .null
  | false : DagCbor [0xf4] (.bool false)
  | true : DagCbor [0xf5] (.bool true)
  | nat {n : Nat} {h : Bytes} : ShortestHead 0 n h → DagCbor h (.int n)
  | neg {n : Nat} {h : Bytes} : ShortestHead 1 n h → DagCbor h (.int (-1 - n))
  | float {f : F64} {b : Bytes} : b.length = 8 → bigEndian b = f.bits.toNat → Finite f → DagCbor (0xfb :: b) (.float f)
  | str {s : String} {h : Bytes} : ShortestHead 3 (strBytes s).length h → DagCbor (h ++ strBytes s) (.str s)
  | bytes {b h : Bytes} : ShortestHead 2 b.length h → DagCbor (h ++ b) (.bytes b)
  | list {l : List Ipld} {h p : Bytes} : ShortestHead 4 l.length h → DagCborItems p l → DagCbor (h ++ p) (.list l)
  | map {m w : List (String × Ipld)} {h p : Bytes} : ShortestHead 5 m.length h → w.Perm m → w.Pairwise (fun a b => KeyBefore a.1 b.1) →
      DagCborEntries p w → DagCbor (h ++ p) (.map m)
  | link {c : Cid} {t h : Bytes} : ShortestHead 6 42 t → ShortestHead 2 (c.toBytes.length + 1) h → c.Valid →
      DagCbor (t ++ (h ++ 0 :: c.toBytes)) (.link c)
inductive DagCborItems : Bytes → List Ipld → Prop
  | nil : DagCborItems [] []
  | cons {x : Ipld} {xs : List Ipld} {p q : Bytes} : DagCbor p x → DagCborItems q xs → DagCborItems (p ++ q) (x :: xs)
inductive DagCborEntries : Bytes → List (String × Ipld) → Prop
  | nil : DagCborEntries [] []
  | cons {k : String} {x : Ipld} {xs : List (String × Ipld)} {h p q : Bytes} : ShortestHead 3 (strBytes k).length h → DagCbor p x →
      DagCborEntries q xs → DagCborEntries (h ++ (strBytes k ++ (p ++ q))) ((k, x) :: xs)
end

mutual
/-- The same tree but for the order of map entries. -/
def Reordered : Ipld → Ipld → Prop
  | .list l, w => ∃ l', w = .list l' ∧ ReorderedItems l l'
  | .map m, w => ∃ m' u, w = .map u ∧ u.Perm m' ∧ ReorderedEntries m m'
  | v, w => w = v
def ReorderedItems : List Ipld → List Ipld → Prop
  | [], l => l = []
  | x :: xs, l => ∃ y ys, l = y :: ys ∧ Reordered x y ∧ ReorderedItems xs ys
def ReorderedEntries : List (String × Ipld) → List (String × Ipld) → Prop
  | [], l => l = []
  | (k, x) :: xs, l => ∃ y ys, l = (k, y) :: ys ∧ Reordered x y ∧ ReorderedEntries xs ys
end

/-! ## Which values can be written -/

/-- Fewer than 2⁶⁴ bytes or entries: every value that fits in memory. -/
def Fits (n : Nat) : Prop := n < 2 ^ 64

mutual
/-- Integers have 64 bits beside their sign, doubles are finite, maps have no repeated key, links are CIDs, sizes are those of values in memory. -/
def Storable : Ipld → Prop
  | .null => True
  | .bool _ => True
  | .int i => -(2 ^ 64) ≤ i ∧ i < 2 ^ 64
  | .float f => Finite f
  | .str s => Fits (strBytes s).length
  | .bytes b => Fits b.length
  | .list l => Fits l.length ∧ StorableItems l
  | .map m => Fits m.length ∧ m.Pairwise (fun a b => a.1 ≠ b.1) ∧ StorableEntries m
  | .link c => c.Valid
def StorableItems : List Ipld → Prop
  | [] => True
  | x :: xs => Storable x ∧ StorableItems xs
def StorableEntries : List (String × Ipld) → Prop
  | [] => True
  | (k, x) :: xs => Fits (strBytes k).length ∧ Storable x ∧ StorableEntries xs
end

mutual
/-- How many containers surround the innermost item. -/
def nesting : Ipld → Nat
  | .list l => nestingItems l
  | .map m => nestingEntries m
  | _ => 0
def nestingItems : List Ipld → Nat
  | [] => 0
  | x :: xs => max (nesting x + 1) (nestingItems xs)
def nestingEntries : List (String × Ipld) → Nat
  | [] => 0
  | (_, x) :: xs => max (nesting x + 1) (nestingEntries xs)
end

end Verif.Spec
