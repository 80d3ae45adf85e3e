import Verif.Codec.Cbor
import Verif.Model.IpldUcan

/-!
# UCAN-IPLD as DAG-CBOR

The derived `Serialize`/`Deserialize` of `UcanIpld` (`ucan/src/ipld/ucan.rs` 12-27) with `serde_ipld_dagcbor`, as in
`ucan/src/tests/helpers.rs` 6-13. `Principle` and `Signature` are newtypes around `Vec<u8>` (`ipld/principle.rs` 9-11,
`ipld/signature.rs` 120-122) without `serde_bytes`: they are written as arrays of numbers.
-/

namespace Verif
namespace UcanIpld
open Codec (asStr asU64 optVal reqVal mapAll asList)

/-- `Vec<u8>`, a sequence. -/
def bytesIpld (b : Bytes) : Ipld := .list (b.map fun x => .int x.toNat)

/-- `Option<T>` without `skip_serializing_if`. -/
def optIpld {α : Type} (f : α → Ipld) : Option α → Ipld
  | none => .null
  | some a => f a

/-- The fields in declaration order (ipld/ucan.rs 12-27). -/
def fields (x : UcanIpld) : List (String × Ipld) :=
  [("v", .str x.v), ("iss", bytesIpld x.iss.bytes), ("aud", bytesIpld x.aud.bytes), ("s", bytesIpld x.s.bytes),
   ("cap", DagJson.embed (Codec.capsJson x.cap)), ("prf", optIpld (fun l => .list (l.map .link)) x.prf),
   ("exp", optIpld (fun n : UInt64 => .int n.toNat) x.exp), ("fct", optIpld (fun f => DagJson.embed (.obj f)) x.fct),
   ("nnc", optIpld .str x.nnc), ("nbf", optIpld (fun n : UInt64 => .int n.toNat) x.nbf)]

/-- `to_vec(&ucan_ipld)`. -/
def toCbor (x : UcanIpld) : Bytes := Cbor.encode (.map (fields x))

def asU8 : Ipld → Option UInt8
  | .int i => if 0 ≤ i ∧ i < 2 ^ 8 then some (UInt8.ofNat i.toNat) else none
  | _ => none

def asLink : Ipld → Option Cid
  | .link c => some c
  | _ => none

/-- `BTreeMap<String, T>`: the last of repeated keys wins, but every value must be of the type. -/
def asBTree {α : Type} (f : Ipld → Option α) : Ipld → Option (BMap String α)
  | .map m => (mapAll (fun e => (f e.2).map fun y => (e.1, y)) m).map BMap.ofList
  | _ => none

/-- A field of a struct: a repeated field is an error (outer `none`), a missing one is the inner `none`. -/
def field (m : List (String × Ipld)) (k : String) : Option (Option Ipld) :=
  match m.filter (fun e => e.1 == k) with
  | [] => some none
  | [e] => some (some e.2)
  | _ => none

/-- Derived `Deserialize`; unknown fields are ignored. -/
def ofTree : Ipld → Option UcanIpld
  | .map m =>
    match (field m "v").bind (reqVal asStr), (field m "iss").bind (reqVal (asList asU8)), (field m "aud").bind (reqVal (asList asU8)),
        (field m "s").bind (reqVal (asList asU8)), (field m "cap").bind (reqVal (asBTree (asBTree (asList Cbor.toValue)))),
        (field m "prf").bind (optVal (asList asLink)), (field m "exp").bind (optVal asU64), (field m "fct").bind (optVal (asBTree Cbor.toValue)),
        (field m "nnc").bind (optVal asStr), (field m "nbf").bind (optVal asU64) with
    | some v, some iss, some aud, some s, some cap, some prf, some exp, some fct, some nnc, some nbf =>
      some ⟨v, ⟨iss⟩, ⟨aud⟩, ⟨s⟩, cap, prf, exp, fct, nnc, nbf⟩
    | _, _, _, _, _, _, _, _, _, _ => none
  | _ => none

/-- `from_slice::<UcanIpld>(bytes)`. -/
def ofCbor (limit : Nat) (b : Bytes) : Option UcanIpld := (Cbor.decode limit b).bind ofTree

end UcanIpld
end Verif
