import Verif.Base.BTree
import Verif.Codec.Cid
import Verif.Codec.JsonLemmas

/-!
# The IPLD data model and DAG-JSON

`Ipld` of libipld-core, the reading of DAG-JSON text into it (libipld-json), and the conversion of
IPLD values to `serde_json::Value` by serde (`from_ipld`). See `ucan/src/serde.rs` 20-37.
-/

namespace Verif

inductive Ipld where
  | null
  | bool (b : Bool)
  | int (i : Int)
  | float (f : F64)
  | str (s : String)
  | bytes (b : Bytes)
  | list (l : List Ipld)
  | map (m : List (String × Ipld))
  | link (c : Cid)
deriving Inhabited

namespace DagJson

/-- What an object becomes after its values have been read: `{"/": string}` is a link,
`{"/": {"bytes": string}}` a byte string (in a base that is a parameter), everything else a map in
which the last of repeated keys wins. `none` is a decoding error. -/
def mkMap (D : Deps) (m : List (String × Ipld)) : Option Ipld :=
  match m with
  | [(k, .str s)] =>
    if k = "/" then (Cid.parse D s).map .link else some (.map (BMap.ofList m))
  | [(k, .map [(k', .str s)])] =>
    if k = "/" ∧ k' = "bytes" then (D.otherBase 109 (strBytes s)).map .bytes else some (.map (BMap.ofList m))
  | _ => some (.map (BMap.ofList m))

mutual
/-- DAG-JSON reading of a JSON tree. -/
def toIpld (D : Deps) : Json → Option Ipld
  | .null => some .null
  | .bool b => some (.bool b)
  | .int i => some (.int i)
  | .float f => some (.float f)
  | .str s => some (.str s)
  | .arr l => (toIpldList D l).map .list
  | .obj m => (toIpldMembers D m).bind (mkMap D)
def toIpldList (D : Deps) : List Json → Option (List Ipld)
  | [] => some []
  | x :: xs =>
    match toIpld D x, toIpldList D xs with
    | some y, some ys => some (y :: ys)
    | _, _ => none
def toIpldMembers (D : Deps) : List (String × Json) → Option (List (String × Ipld))
  | [] => some []
  | (k, x) :: xs =>
    match toIpld D x, toIpldMembers D xs with
    | some y, some ys => some ((k, y) :: ys)
    | _, _ => none
end

/-- `Ipld::decode(DagJsonCodec, …)`. -/
def decode (D : Deps) (b : Bytes) : Option Ipld := (Json.parse D b).bind (toIpld D)

mutual
/-- `from_ipld::<serde_json::Value>`: links and byte strings are rejected; integers only work if the
`Value` visitor accepts `i128`. -/
def toValue (D : Deps) : Ipld → Option Json
  | .null => some .null
  | .bool b => some (.bool b)
  | .int i => if D.valueI128 ∧ -(2 ^ 63) ≤ i ∧ i < 2 ^ 64 then some (.int i) else none
  | .float f => some (.float f)
  | .str s => some (.str s)
  | .bytes _ => none
  | .list l => (toValueList D l).map .arr
  | .map m => (toValueMembers D m).map .obj
  | .link _ => none
def toValueList (D : Deps) : List Ipld → Option (List Json)
  | [] => some []
  | x :: xs =>
    match toValue D x, toValueList D xs with
    | some y, some ys => some (y :: ys)
    | _, _ => none
def toValueMembers (D : Deps) : List (String × Ipld) → Option (List (String × Json))
  | [] => some []
  | (k, x) :: xs =>
    match toValue D x, toValueMembers D xs with
    | some y, some ys => some ((k, y) :: ys)
    | _, _ => none
end

/-! ## Values that survive -/

/-- The reserved DAG-JSON forms. -/
def Reserved (m : List (String × Json)) : Prop :=
  (∃ s, m = [("/", .str s)]) ∨ ∃ s, m = [("/", .obj [("bytes", .str s)])]

mutual
/-- Objects are `BTreeMap`s (sorted, no repeated key), none is a reserved form. -/
def Plain : Json → Prop
  | .arr l => PlainList l
  | .obj m => BMap.Sorted m ∧ ¬ Reserved m ∧ PlainMembers m
  | _ => True
def PlainList : List Json → Prop
  | [] => True
  | x :: xs => Plain x ∧ PlainList xs
def PlainMembers : List (String × Json) → Prop
  | [] => True
  | (_, x) :: xs => Plain x ∧ PlainMembers xs
end

mutual
/-- Integers occur only if the `Value` visitor accepts them. -/
def IntOk (D : Deps) : Json → Prop
  | .int i => D.valueI128 = true ∧ -(2 ^ 63) ≤ i ∧ i < 2 ^ 64
  | .arr l => IntOkList D l
  | .obj m => IntOkMembers D m
  | _ => True
def IntOkList (D : Deps) : List Json → Prop
  | [] => True
  | x :: xs => IntOk D x ∧ IntOkList D xs
def IntOkMembers (D : Deps) : List (String × Json) → Prop
  | [] => True
  | (_, x) :: xs => IntOk D x ∧ IntOkMembers D xs
end

mutual
/-- The plain embedding of JSON in IPLD (`to_ipld`). -/
def embed : Json → Ipld
  | .null => .null
  | .bool b => .bool b
  | .int i => .int i
  | .float f => .float f
  | .str s => .str s
  | .arr l => .list (embedList l)
  | .obj m => .map (embedMembers m)
def embedList : List Json → List Ipld
  | [] => []
  | x :: xs => embed x :: embedList xs
def embedMembers : List (String × Json) → List (String × Ipld)
  | [] => []
  | (k, x) :: xs => (k, embed x) :: embedMembers xs
end

theorem embedMembers_eq_map (m : List (String × Json)) : embedMembers m = m.map fun e => (e.1, embed e.2) := by
  induction m with
  | nil => rfl
  | cons p m ih => obtain ⟨k, x⟩ := p; simp [embedMembers, ih]

theorem embedList_eq_map (l : List Json) : embedList l = l.map embed := by
  induction l with
  | nil => rfl
  | cons p m ih => simp [embedList, ih]

theorem sorted_embedMembers {m : List (String × Json)} (h : BMap.Sorted m) : BMap.Sorted (embedMembers m) := by
  rw [embedMembers_eq_map]
  exact List.pairwise_map.2 h

theorem embed_eq_str {x : Json} {s : String} (h : embed x = .str s) : x = .str s := by
  cases x <;> simp [embed] at h <;> simp [h]

theorem embed_eq_map {x : Json} {m : List (String × Ipld)} (h : embed x = .map m) :
    ∃ m', x = .obj m' ∧ embedMembers m' = m := by
  cases x <;> simp [embed] at h
  exact ⟨_, rfl, h⟩

theorem embedMembers_single {m : List (String × Json)} {k : String} {y : Ipld} (h : embedMembers m = [(k, y)]) :
    ∃ x, m = [(k, x)] ∧ embed x = y := by
  cases m with
  | nil => simp [embedMembers] at h
  | cons p m =>
    obtain ⟨k', x⟩ := p
    cases m with
    | nil => simp [embedMembers] at h; exact ⟨x, by rw [h.1], h.2⟩
    | cons q m => obtain ⟨_, _⟩ := q; simp [embedMembers] at h

theorem mkMap_embed (D : Deps) {m : List (String × Json)} (hs : BMap.Sorted m) (hr : ¬ Reserved m) :
    mkMap D (embedMembers m) = some (.map (embedMembers m)) := by
  have hsort := BMap.ofList_sorted (sorted_embedMembers hs)
  unfold mkMap
  split
  · rename_i k s heq
    obtain ⟨x, rfl, hx⟩ := embedMembers_single heq
    have hx' := embed_eq_str hx
    subst hx'
    rw [if_neg, hsort]
    rintro rfl
    exact hr (Or.inl ⟨s, rfl⟩)
  · rename_i k k' s heq
    obtain ⟨x, rfl, hx⟩ := embedMembers_single heq
    obtain ⟨m', rfl, hm'⟩ := embed_eq_map hx
    obtain ⟨x', rfl, hx'⟩ := embedMembers_single hm'
    have := embed_eq_str hx'
    subst this
    rw [if_neg, hsort]
    rintro ⟨rfl, rfl⟩
    exact hr (Or.inr ⟨s, rfl⟩)
  · rw [hsort]

mutual
theorem toIpld_plain (D : Deps) : ∀ v : Json, Plain v → toIpld D v = some (embed v)
  | .null, _ => rfl
  | .bool _, _ => rfl
  | .int _, _ => rfl
  | .float _, _ => rfl
  | .str _, _ => rfl
  | .arr l, h => by simp [toIpld, embed, toIpldList_plain D l h]
  | .obj m, h => by
    simp only [toIpld, embed, toIpldMembers_plain D m h.2.2, Option.bind_some]
    exact mkMap_embed D h.1 h.2.1
theorem toIpldList_plain (D : Deps) : ∀ l : List Json, PlainList l → toIpldList D l = some (embedList l)
  | [], _ => rfl
  | x :: xs, h => by simp [toIpldList, embedList, toIpld_plain D x h.1, toIpldList_plain D xs h.2]
theorem toIpldMembers_plain (D : Deps) : ∀ m : List (String × Json), PlainMembers m →
    toIpldMembers D m = some (embedMembers m)
  | [], _ => rfl
  | (k, x) :: xs, h => by
    simp [toIpldMembers, embedMembers, toIpld_plain D x h.1, toIpldMembers_plain D xs h.2]
end

mutual
theorem toValue_embed (D : Deps) : ∀ v : Json, IntOk D v → toValue D (embed v) = some v
  | .null, _ => rfl
  | .bool _, _ => rfl
  | .int i, h => by simp only [embed, toValue]; simp only [IntOk] at h; rw [if_pos h]
  | .float _, _ => rfl
  | .str _, _ => rfl
  | .arr l, h => by simp [toValue, embed, toValueList_embed D l h]
  | .obj m, h => by simp [toValue, embed, toValueMembers_embed D m h]
theorem toValueList_embed (D : Deps) : ∀ l : List Json, IntOkList D l → toValueList D (embedList l) = some l
  | [], _ => rfl
  | x :: xs, h => by simp [toValueList, embedList, toValue_embed D x h.1, toValueList_embed D xs h.2]
theorem toValueMembers_embed (D : Deps) : ∀ m : List (String × Json), IntOkMembers D m →
    toValueMembers D (embedMembers m) = some m
  | [], _ => rfl
  | (k, x) :: xs, h => by
    simp [toValueMembers, embedMembers, toValue_embed D x h.1, toValueMembers_embed D xs h.2]
end

/-- Reading the printed text of a plain value gives its embedding. -/
theorem decode_print (D : Deps) (v : Json) (hn : Json.NumOk D v) (hp : Plain v) (hd : v.depth < Json.depthLimit) :
    decode D (Json.print D v) = some (embed v) := by
  unfold decode
  rw [Json.parse_print D v hn hd]
  exact toIpld_plain D v hp

end DagJson
end Verif
