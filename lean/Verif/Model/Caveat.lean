import Verif.Base.BTree
import Verif.Base.Fail
import Verif.Codec.Json

/-! # `ucan/src/capability/caveats.rs` -/

namespace Verif

/-- `struct Caveat(Map<String, Value>)` (caveats.rs 6-7). -/
abbrev Caveat := BMap String Json

/-- Zero of either sign. -/
def F64.isZero (a : F64) : Bool := a.bits == 0 || a.bits == 0x8000000000000000

/-- `==` of finite doubles. -/
def F64.eqv (a b : F64) : Bool := decide (a = b) || (a.isZero && b.isZero)

namespace Json

mutual
/-- `PartialEq` of `serde_json::Value`: integers and doubles differ, doubles are compared as numbers. -/
def eqv : Json → Json → Bool
  | null, null => true
  | bool a, bool b => a == b
  | int a, int b => a == b
  | float a, float b => a.eqv b
  | str a, str b => a == b
  | arr a, arr b => eqvList a b
  | obj a, obj b => eqvMembers a b
  | _, _ => false
/-- `PartialEq` of `Vec<Value>`. -/
def eqvList : List Json → List Json → Bool
  | [], [] => true
  | a :: as, b :: bs => eqv a b && eqvList as bs
  | _, _ => false
/-- `PartialEq` of `Map<String, Value>`, a `BTreeMap`: entries pairwise. -/
def eqvMembers : List (String × Json) → List (String × Json) → Bool
  | [], [] => true
  | (k, a) :: as, (l, b) :: bs => k == l && (eqv a b && eqvMembers as bs)
  | _, _ => false
end

end Json

namespace Caveat

/-- `TryFrom<Value> for Caveat` (caveats.rs 71-79), also `TryFrom<&Value>` (81-86). Equality (65-69) is that of the maps. -/
def ofValue : Json → Option Caveat
  | .obj m => some m
  | _ => none

/-- The loop of caveats.rs 44-52: every entry of the list must occur with an equal value in `other`. -/
def allIn : List (String × Json) → Caveat → Bool
  | [], _ => true
  | (k, v) :: m, other =>
    match BMap.get? other k with
    | some v' => if v.eqv v' then allIn m other else false
    | none => false

/-- `Caveat::enables` (caveats.rs 31-55). -/
def enables (self other : Caveat) : Bool :=
  if self.isEmpty then true
  else if other.isEmpty then false
  else if Json.eqvMembers self other then true
  else allIn self other

end Caveat
end Verif
