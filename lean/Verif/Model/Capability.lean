import Verif.Model.Caveat

/-! # `ucan/src/capability/data.rs` -/

namespace Verif

/-- `struct Capability` (data.rs 11-17); the conversions from and to triples and references (19-52) keep the three fields. -/
structure Capability where
  resource : String
  ability : String
  caveat : Json
deriving DecidableEq, Inhabited

/-- `struct Capabilities(BTreeMap<String, BTreeMap<String, Vec<Value>>>)` (data.rs 53-86, 138-143). -/
abbrev Capabilities := BMap String (BMap String (List Json))

namespace Capabilities

/-- `Capabilities::iter` (data.rs 113-135). An empty caveat list contributes nothing. -/
def iter (m : Capabilities) : List Capability :=
  m.flatMap fun r => r.2.flatMap fun a => a.2.map fun c => ⟨r.1, a.1, c⟩

/-- `Value::is_object`. -/
def isObject : Json → Bool
  | .obj _ => true
  | _ => false

/-- One round of the loop in `TryFrom<Vec<Capability>>` (data.rs 149-168). Creating the resource entry
and updating it through `get_mut` is an insertion of the updated entry. -/
def add (m : Capabilities) (c : Capability) : Res Capabilities :=
  let abilities : BMap String (List Json) := (BMap.get? m c.resource).getD []
  if isObject c.caveat then
    match BMap.get? abilities c.ability with
    | some l => .ok (BMap.insert m c.resource (BMap.insert abilities c.ability (l ++ [c.caveat])))
    | none => .ok (BMap.insert m c.resource (BMap.insert abilities c.ability [c.caveat]))
  else err .caveatNotObject

/-- The loop of data.rs 148-168. -/
def addAll : Capabilities → List Capability → Res Capabilities
  | m, [] => .ok m
  | m, c :: cs =>
    match add m c with
    | .ok m' => addAll m' cs
    | .error e => .error e

/-- `TryFrom<CapabilitiesImpl>` (data.rs 174-187). -/
def ofMap (m : Capabilities) : Res Capabilities :=
  if m.all fun r => !r.2.isEmpty then .ok m else err .noAbilities

/-- `TryFrom<Vec<Capability>>` (data.rs 145-172). -/
def ofVec (l : List Capability) : Res Capabilities :=
  match addAll [] l with
  | .ok m => ofMap m
  | .error e => .error e

/-- Caveat array of one ability (data.rs 208-217). -/
def caveatsOfValue : Json → Res (List Json)
  | .arr l => if l.all isObject then .ok l else err .caveatNotObject
  | _ => err .capsShape

/-- Abilities of one resource (data.rs 204-221). -/
def abilitiesOfMembers : BMap String (List Json) → List (String × Json) → Res (BMap String (List Json))
  | acc, [] => .ok acc
  | acc, (k, v) :: m =>
    match caveatsOfValue v with
    | .ok l => abilitiesOfMembers (BMap.insert acc k l) m
    | .error e => .error e

/-- Resources (data.rs 198-225). -/
def resourcesOfMembers : Capabilities → List (String × Json) → Res Capabilities
  | acc, [] => .ok acc
  | acc, (k, v) :: m =>
    match v with
    | .obj abilities =>
      match abilitiesOfMembers [] abilities with
      | .ok a => resourcesOfMembers (BMap.insert acc k a) m
      | .error e => .error e
    | _ => err .capsShape

/-- `TryFrom<&Value>` (data.rs 189-229). -/
def ofValue : Json → Res Capabilities
  | .obj m =>
    match resourcesOfMembers [] m with
    | .ok r => ofMap r
    | .error e => .error e
  | _ => err .capsShape

end Capabilities
end Verif
