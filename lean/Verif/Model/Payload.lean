import Verif.Codec.Base64
import Verif.Codec.DagJson
import Verif.Model.Capability

/-!
# Header and payload of a token, and their serde encoding

`ucan/src/ucan.rs` 18-43 with serde's derived `Serialize`/`Deserialize`, through `to_ipld`/`from_ipld` and
DAG-JSON (`ucan/src/serde.rs` 20-46).
-/

namespace Verif

/-- `UCAN_VERSION` (ucan.rs 18). -/
def ucanVersion : String := "0.10.0-canary"

/-- `struct UcanHeader` (ucan.rs 22-26). -/
structure Header where
  alg : String
  typ : String
deriving DecidableEq, Inhabited

/-- `FactsMap` (ucan.rs 20). -/
abbrev Facts := BMap String Json

/-- `struct UcanPayload` (ucan.rs 28-43). -/
structure Payload where
  ucv : String
  iss : String
  aud : String
  exp : Option UInt64
  nbf : Option UInt64
  nnc : Option String
  cap : Capabilities
  fct : Option Facts
  prf : Option (List String)
deriving DecidableEq, Inhabited

namespace Codec

def u64Json (n : UInt64) : Json := .int (Int.ofNat n.toNat)

/-- `Option<u64>` without `skip_serializing_if`. -/
def optU64Json : Option UInt64 → Json
  | none => .null
  | some n => u64Json n

/-- Serialised form of the capabilities map. -/
def capsJson (c : Capabilities) : Json :=
  .obj (c.map fun r => (r.1, .obj (r.2.map fun a => (a.1, .arr a.2))))

/-- A field with `skip_serializing_if = "Option::is_none"`. -/
def optField {α : Type} (k : String) (f : α → Json) : Option α → List (String × Json)
  | none => []
  | some a => [(k, f a)]

/-- Fields in declaration order, as serde visits them. -/
def payloadFields (p : Payload) : List (String × Json) :=
  [("ucv", .str p.ucv), ("iss", .str p.iss), ("aud", .str p.aud), ("exp", optU64Json p.exp)] ++
  optField "nbf" u64Json p.nbf ++ optField "nnc" .str p.nnc ++ [("cap", capsJson p.cap)] ++
  optField "fct" .obj p.fct ++ optField "prf" (fun l => .arr (l.map .str)) p.prf

/-- `to_ipld(payload)`: a map, hence sorted by key. -/
def payloadJson (p : Payload) : Json := .obj (BMap.ofList (payloadFields p))

def headerJson (h : Header) : Json := .obj (BMap.ofList [("alg", .str h.alg), ("typ", .str h.typ)])

/-- `payload.to_dag_json()` (serde.rs 22-29). -/
def payloadBytes (D : Deps) (p : Payload) : Bytes := Json.print D (payloadJson p)
/-- `header.to_dag_json()`. -/
def headerBytes (D : Deps) (h : Header) : Bytes := Json.print D (headerJson h)

/-! ## Decoding -/

def asStr : Ipld → Option String
  | .str s => some s
  | _ => none

def asU64 : Ipld → Option UInt64
  | .int i => if 0 ≤ i ∧ i < 2 ^ 64 then some (UInt64.ofNat i.toNat) else none
  | _ => none

/-- A field of type `Option<T>`: absent and `null` are `None`. The outer option is the error case. -/
def optVal {α : Type} (f : Ipld → Option α) : Option Ipld → Option (Option α)
  | none => some none
  | some .null => some none
  | some x => (f x).map some

/-- A field of a type other than `Option`: it must be present. -/
def reqVal {α : Type} (f : Ipld → Option α) : Option Ipld → Option α
  | none => none
  | some x => f x

def mapAll {α β : Type} (f : α → Option β) : List α → Option (List β)
  | [] => some []
  | x :: xs =>
    match f x, mapAll f xs with
    | some y, some ys => some (y :: ys)
    | _, _ => none

def asList {α : Type} (f : Ipld → Option α) : Ipld → Option (List α)
  | .list l => mapAll f l
  | _ => none

/-- `BTreeMap<String, T>` from an IPLD map (already sorted). -/
def asMap {α : Type} (f : Ipld → Option α) : Ipld → Option (List (String × α))
  | .map m => mapAll (fun e => (f e.2).map fun y => (e.1, y)) m
  | _ => none

/-- `Capabilities` (derived `Deserialize` of the newtype, data.rs 85-86): no validation. -/
def asCaps (D : Deps) : Ipld → Option Capabilities := asMap (asMap (asList (DagJson.toValue D)))

/-- The nine fields of `UcanPayload`, each decoded to its type (ucan.rs 29-43). -/
def payloadOf (D : Deps) (ucv iss aud exp nbf nnc cap fct prf : Option Ipld) : Option Payload :=
  match reqVal asStr ucv, reqVal asStr iss, reqVal asStr aud, optVal asU64 exp, optVal asU64 nbf, optVal asStr nnc, reqVal (asCaps D) cap,
      optVal (asMap (DagJson.toValue D)) fct, optVal (asList asStr) prf with
  | some ucv, some iss, some aud, some exp, some nbf, some nnc, some cap, some fct, some prf => some ⟨ucv, iss, aud, exp, nbf, nnc, cap, fct, prf⟩
  | _, _, _, _, _, _, _, _, _ => none

/-- Derived `Deserialize` of `UcanPayload` (ucan.rs 28-43): `visit_map` ignores unknown fields, `visit_seq` wants all nine, in order
of declaration. -/
def payloadOfIpld (D : Deps) : Ipld → Option Payload
  | .map m => payloadOf D (BMap.get? m "ucv") (BMap.get? m "iss") (BMap.get? m "aud") (BMap.get? m "exp") (BMap.get? m "nbf") (BMap.get? m "nnc")
      (BMap.get? m "cap") (BMap.get? m "fct") (BMap.get? m "prf")
  | .list [ucv, iss, aud, exp, nbf, nnc, cap, fct, prf] =>
    if D.structSeq then payloadOf D (some ucv) (some iss) (some aud) (some exp) (some nbf) (some nnc) (some cap) (some fct) (some prf) else none
  | _ => none

/-- The two fields of `UcanHeader` (ucan.rs 22-26). -/
def headerOf (alg typ : Option Ipld) : Option Header :=
  match reqVal asStr alg, reqVal asStr typ with
  | some alg, some typ => some ⟨alg, typ⟩
  | _, _ => none

/-- Derived `Deserialize` of `UcanHeader` (ucan.rs 22-26). -/
def headerOfIpld (D : Deps) : Ipld → Option Header
  | .map m => headerOf (BMap.get? m "alg") (BMap.get? m "typ")
  | .list [alg, typ] => if D.structSeq then headerOf (some alg) (some typ) else none
  | _ => none

/-- `UcanPayload::from_dag_json` (serde.rs 31-34). -/
def payloadOfBytes (D : Deps) (b : Bytes) : Option Payload := (DagJson.decode D b).bind (payloadOfIpld D)
/-- `UcanHeader::from_dag_json`. -/
def headerOfBytes (D : Deps) (b : Bytes) : Option Header := (DagJson.decode D b).bind (headerOfIpld D)

end Codec
end Verif
