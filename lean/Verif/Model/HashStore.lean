import Verif.Model.Store

/-! # Stores that differ from `MemoryStore` in the hash function, such as `Blake2bMemoryStore` (`ucan/src/tests/fixtures/store.rs`) -/

namespace Verif.Store

/-- `UcanStore::write` (tests/fixtures/store.rs 34-48) with the hash function as a parameter (`Code::Blake2b256`, 40): the raw codec
only encodes bytes. -/
def hashWrite (D : Deps) (hasher : UInt64) (m : Dags) : Ipld → Res Cid × Dags
  | .bytes b =>
    let cid : Cid := ⟨true, Cid.rawCodec, hasher, D.digest hasher b⟩
    (.ok cid, fun c => if c = cid then some b else m c)
  | _ => (err .storeIo, m)

/-- The content after the tokens were written, the first of the list being written last. -/
def hashStore (D : Deps) (hasher : UInt64) : List String → Dags
  | [] => fun _ => none
  | t :: ts => (hashWrite D hasher (hashStore D hasher ts) (.bytes (strBytes t))).2

/-- `UcanStore::read` (tests/fixtures/store.rs 25-32) of a store whose content does not change, with the clock as it is. -/
def hashEnv (D : Deps) (clock : Nat → UInt64) (hasher : UInt64) (ts : List String) : Env := ⟨clock, fun _ => memRead (hashStore D hasher ts)⟩

end Verif.Store
