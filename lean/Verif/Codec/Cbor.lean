import Verif.Codec.DagJson

/-!
# DAG-CBOR

`serde_ipld_dagcbor::{to_vec, from_slice}` as used by `ucan/src/tests/helpers.rs` 6-13 for values with a derived serde implementation
(`ucan/src/ipld/ucan.rs` 12-27). The serialiser's input and the reader's output are trees of type `Ipld`; in the trees that are read, the
entries of a map are in the order in which they were written.

Simplifications: doubles of half and single precision are not read (the serialiser writes none); a map key that is not a string is an error even
in a part of the document that is ignored.
-/

namespace Verif
namespace Cbor

/-- `k` big-endian bytes. -/
def be : Nat → Nat → Bytes
  | 0, _ => []
  | k + 1, n => UInt8.ofNat (n / 256 ^ k) :: be k n

/-- The number written in big-endian bytes. -/
def ofBe (b : Bytes) : Nat := b.foldl (fun a x => a * 256 + x.toNat) 0

/-- Initial byte and argument of a data item: the argument in the initial byte, or in 1, 2, 4 or 8 bytes after it. -/
def head (major n : Nat) : Bytes :=
  if n < 24 then [UInt8.ofNat (major * 32 + n)]
  else if n < 2 ^ 8 then UInt8.ofNat (major * 32 + 24) :: be 1 n
  else if n < 2 ^ 16 then UInt8.ofNat (major * 32 + 25) :: be 2 n
  else if n < 2 ^ 32 then UInt8.ofNat (major * 32 + 26) :: be 4 n
  else UInt8.ofNat (major * 32 + 27) :: be 8 n

/-- A text string. -/
def text (s : String) : Bytes := head 3 (strBytes s).length ++ strBytes s

/-- The written entries of a map, one after the other. -/
def flat : List (Bytes × Bytes) → Bytes
  | [] => []
  | (k, v) :: m => k ++ (v ++ flat m)

mutual
/-- `to_vec`. The serialiser collects the written entries of a map and sorts them (`CollectMap`), which is how they are in a map whose keys are
the written keys. -/
def encode : Ipld → Bytes
  | .null => [0xf6]
  | .bool false => [0xf4]
  | .bool true => [0xf5]
  | .int i => if 0 ≤ i then head 0 i.toNat else head 1 (-1 - i).toNat
  | .float f => 0xfb :: be 8 f.bits.toNat
  | .str s => text s
  | .bytes b => head 2 b.length ++ b
  | .list l => head 4 l.length ++ encodeList l
  | .map m => head 5 m.length ++ flat (BMap.ofList (encodeEntries m))
  | .link c => head 6 42 ++ (head 2 (c.toBytes.length + 1) ++ 0 :: c.toBytes)
def encodeList : List Ipld → Bytes
  | [] => []
  | x :: xs => encode x ++ encodeList xs
def encodeEntries : List (String × Ipld) → List (Bytes × Bytes)
  | [] => []
  | (k, x) :: xs => (text k, encode x) :: encodeEntries xs
end

/-! ## Reading -/

/-- The first `n` bytes. -/
def takeN (n : Nat) (b : Bytes) : Option (Bytes × Bytes) := if b.length < n then none else some (b.take n, b.drop n)

/-- Major type, argument, rest. Arguments need not be in the shortest form; indefinite lengths are errors. -/
def readHead : Bytes → Option (Nat × Nat × Bytes)
  | [] => none
  | x :: r =>
    if x.toNat % 32 < 24 then some (x.toNat / 32, x.toNat % 32, r)
    else if x.toNat % 32 ≤ 27 then
      (takeN (2 ^ (x.toNat % 32 - 24)) r).map fun p => (x.toNat / 32, ofBe p.1, p.2)
    else none

/-- Is the double with these bits finite? -/
def finite (n : Nat) : Bool := decide (n / 2 ^ 52 % 2 ^ 11 ≠ 2 ^ 11 - 1)

/-- A text string. -/
def readText (b : Bytes) : Option (String × Bytes) :=
  match readHead b with
  | some (3, n, r) =>
    match takeN n r with
    | none => none
    | some (s, r) => (bytesStr? s).map fun s => (s, r)
  | _ => none

/-- The content of a link (tag 42): a byte string that starts with a zero byte, followed by the CID. -/
def readLink (b : Bytes) : Option (Cid × Bytes) :=
  match readHead b with
  | some (2, n, r) =>
    match takeN n r with
    | some (0 :: c, r) => (Cid.ofBytes c).map fun c => (c, r)
    | _ => none
  | _ => none

/-- `n` items in a row. -/
def many {α : Type} (item : Bytes → Option (α × Bytes)) : Nat → Bytes → Option (List α × Bytes)
  | 0, b => some ([], b)
  | n + 1, b =>
    match item b with
    | none => none
    | some (x, b) => (many item n b).map fun p => (x :: p.1, p.2)

/-- An entry of a map. -/
def entry (item : Bytes → Option (Ipld × Bytes)) (b : Bytes) : Option ((String × Ipld) × Bytes) :=
  match readText b with
  | none => none
  | some (k, b) => (item b).map fun p => ((k, p.1), p.2)

/-- A data item and what follows it; containers may be nested less deep than the given number. -/
def item : Nat → Bytes → Option (Ipld × Bytes)
  | 0, _ => none
  | _ + 1, [] => none
  | d + 1, x :: r =>
    if x = 0xf4 then some (.bool false, r)
    else if x = 0xf5 then some (.bool true, r)
    else if x = 0xf6 then some (.null, r)
    else if x = 0xfb then
      match takeN 8 r with
      | none => none
      | some (b, r) => if finite (ofBe b) then some (.float ⟨UInt64.ofNat (ofBe b)⟩, r) else none
    else
      match readHead (x :: r) with
      | some (0, n, r) => some (.int n, r)
      | some (1, n, r) => some (.int (-1 - n), r)
      | some (2, n, r) => (takeN n r).map fun p => (.bytes p.1, p.2)
      | some (3, _, _) => (readText (x :: r)).map fun p => (.str p.1, p.2)
      | some (4, n, r) => (many (item d) n r).map fun p => (.list p.1, p.2)
      | some (5, n, r) => (many (entry (item d)) n r).map fun p => (.map p.1, p.2)
      | some (6, n, r) => if n = 42 then (readLink r).map fun p => (.link p.1, p.2) else none
      | _ => none

/-- `from_slice`: the whole input is one data item. -/
def decode (limit : Nat) (b : Bytes) : Option Ipld :=
  match item limit b with
  | some (v, []) => some v
  | _ => none

mutual
/-- `serde_json::Value` from what has been read: links and byte strings are rejected; the last of repeated keys wins. -/
def toValue : Ipld → Option Json
  | .null => some .null
  | .bool b => some (.bool b)
  | .int i => if -(2 ^ 63) ≤ i ∧ i < 2 ^ 64 then some (.int i) else none
  | .float f => some (.float f)
  | .str s => some (.str s)
  | .bytes _ => none
  | .list l => (toValueList l).map .arr
  | .map m => (toValueMembers m).map fun m => .obj (BMap.ofList m)
  | .link _ => none
def toValueList : List Ipld → Option (List Json)
  | [] => some []
  | x :: xs =>
    match toValue x, toValueList xs with
    | some y, some ys => some (y :: ys)
    | _, _ => none
def toValueMembers : List (String × Ipld) → Option (List (String × Json))
  | [] => some []
  | (k, x) :: xs =>
    match toValue x, toValueMembers xs with
    | some y, some ys => some ((k, y) :: ys)
    | _, _ => none
end

end Cbor
end Verif
