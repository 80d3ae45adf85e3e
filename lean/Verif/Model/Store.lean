import Verif.Model.World

/-! # `ucan/src/store.rs` -/

namespace Verif
namespace Store

/-- `UcanJwtStore::read_token` (store.rs 72-86) after the codec test, on what `read` returned. -/
def tokenOf : Option Ipld → Res String
  | some (.bytes b) => orErr .utf8 (bytesStr? b)
  | _ => err .noToken

/-- `UcanJwtStore::read_token` (store.rs 72-86). It never returns `Ok(None)`. -/
def readToken (E : Env) (c : Cid) : M (Option String) :=
  if c.codec ≠ Cid.rawCodec then M.lift (err .wrongCodec)
  else do
    let r ← E.readM c
    let s ← M.lift (tokenOf r)
    pure (some s)

/-- `UcanJwtStore::require_token` (store.rs 65-70). -/
def requireToken (E : Env) (c : Cid) : M String := do
  match ← readToken E c with
  | some s => pure s
  | none => M.lift (err .noToken)

/-! ## The memory store -/

/-- The shared `HashMap<Cid, Vec<u8>>` of a `MemoryStore` (store.rs 99-102). -/
abbrev Dags := Cid → Option Bytes

/-- `UcanStore::read::<Ipld>` of `MemoryStore` (store.rs 107-115): raw decoding yields bytes. A poisoned mutex is not modelled. -/
def memRead (m : Dags) (c : Cid) : Res (Option Ipld) := .ok ((m c).map .bytes)

/-- The CID `MemoryStore::write` gives to a block (store.rs 121-123). -/
def blockCid (D : Deps) (block : Bytes) : Cid := ⟨true, Cid.rawCodec, Cid.blake3, D.digest Cid.blake3 block⟩

/-- `MemoryStore::write` (store.rs 117-129) of an IPLD value: the raw codec only encodes bytes. -/
def memWrite (D : Deps) (m : Dags) : Ipld → Res Cid × Dags
  | .bytes b => (.ok (blockCid D b), fun c => if c = blockCid D b then some b else m c)
  | _ => (err .storeIo, m)

/-- `UcanJwtStore::write_token` (store.rs 88-90). -/
def writeToken (D : Deps) (m : Dags) (token : String) : Res Cid × Dags := memWrite D m (.bytes (strBytes token))

/-! ## Handles: `MemoryStore` values, clones share the map behind the `Arc` -/

structure Heap where
  /-- Map behind each allocation. -/
  dags : Nat → Dags
  next : Nat
  /-- The allocation each handle points to. -/
  handles : List Nat

inductive Op where
  /-- `MemoryStore::default()` -/
  | create
  /-- `handle.clone()` -/
  | clone (h : Nat)
  | write (h : Nat) (v : Ipld)
  | read (h : Nat) (c : Cid)

inductive Out where
  | none
  | cid (r : Res Cid)
  | value (r : Res (Option Ipld))

/-- One operation; operations on handles that do not exist do nothing. -/
def step (D : Deps) (s : Heap) : Op → Out × Heap
  | .create => (.none, ⟨fun i => if i = s.next then fun _ => none else s.dags i, s.next + 1, s.handles ++ [s.next]⟩)
  | .clone h =>
    match s.handles[h]? with
    | some i => (.none, { s with handles := s.handles ++ [i] })
    | none => (.none, s)
  | .write h v =>
    match s.handles[h]? with
    | some i =>
      match memWrite D (s.dags i) v with
      | (r, m) => (.cid r, { s with dags := fun j => if j = i then m else s.dags j })
    | none => (.none, s)
  | .read h c =>
    match s.handles[h]? with
    | some i => (.value (memRead (s.dags i) c), s)
    | none => (.none, s)

def run (D : Deps) : Heap → List Op → List Out × Heap
  | s, [] => ([], s)
  | s, op :: ops =>
    let r := step D s op
    let rs := run D r.2 ops
    (r.1 :: rs.1, rs.2)

def empty : Heap := ⟨fun _ _ => none, 0, []⟩

end Store
end Verif
