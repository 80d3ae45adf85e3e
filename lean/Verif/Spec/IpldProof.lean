import Verif.Spec.Chain
import Verif.Model.IpldCbor

/-! # Specification of UCANs kept as IPLD blocks -/

namespace Verif.Spec

/-- The CID under which an IPLD store keeps the DAG-CBOR block of the value (codec 0x71). -/
def ipldCid (D : Deps) (hasher : UInt64) (x : UcanIpld) : Cid := ⟨true, 0x71, hasher, D.digest hasher x.toCbor⟩

/-- The proof list of the UCAN names the block. -/
def NamesBlock (D : Deps) (u : Ucan) (c : Cid) : Prop := ∃ s ∈ u.payload.prf.getD [], Cid.parse D s = some c

end Verif.Spec
