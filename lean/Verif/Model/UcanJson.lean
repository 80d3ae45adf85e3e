import Verif.Model.Ucan

/-!
# UCAN values as DAG-JSON

`Ucan` derives `Serialize` and `Deserialize` (`ucan/src/ucan.rs` 45-51), so that the public trait `DagJson` (`ucan/src/serde.rs` 20-37, with
the blanket implementation) writes and reads UCANs as values, apart from tokens.
-/

namespace Verif
namespace Codec

/-- `Vec<u8>` is serialised by serde as a sequence of numbers (`signed_data` and `signature`, ucan.rs 49-50). -/
def octetsJson (b : Bytes) : Json := .arr (b.map fun x => .int x.toNat)

/-- `to_ipld(ucan)` (ucan.rs 45-51): a map, hence sorted by key. -/
def ucanJson (u : Ucan) : Json :=
  .obj (BMap.ofList [("header", headerJson u.header), ("payload", payloadJson u.payload), ("signed_data", octetsJson u.signedData),
    ("signature", octetsJson u.signature)])

/-- `ucan.to_dag_json()` (serde.rs 22-29). -/
def ucanBytes (D : Deps) (u : Ucan) : Bytes := Json.print D (ucanJson u)

/-- `u8` from an IPLD integer. -/
def asU8 : Ipld → Option UInt8
  | .int i => if 0 ≤ i ∧ i < 2 ^ 8 then some (UInt8.ofNat i.toNat) else none
  | _ => none

/-- The four fields of `Ucan`, each decoded to its type (ucan.rs 45-51). -/
def ucanOf (D : Deps) (header payload signedData signature : Option Ipld) : Option Ucan :=
  match reqVal (headerOfIpld D) header, reqVal (payloadOfIpld D) payload, reqVal (asList asU8) signedData, reqVal (asList asU8) signature with
  | some h, some p, some d, some s => some ⟨h, p, d, s⟩
  | _, _, _, _ => none

/-- Derived `Deserialize` of `Ucan` (ucan.rs 45-51). -/
def ucanOfIpld (D : Deps) : Ipld → Option Ucan
  | .map m => ucanOf D (BMap.get? m "header") (BMap.get? m "payload") (BMap.get? m "signed_data") (BMap.get? m "signature")
  | .list [h, p, d, s] => if D.structSeq then ucanOf D (some h) (some p) (some d) (some s) else none
  | _ => none

/-- `Ucan::from_dag_json` (serde.rs 31-34). -/
def ucanOfBytes (D : Deps) (b : Bytes) : Option Ucan := (DagJson.decode D b).bind (ucanOfIpld D)

end Codec
end Verif
