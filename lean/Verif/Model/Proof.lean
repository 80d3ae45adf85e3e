import Verif.Codec.Json
import Verif.Model.Semantics

/-! # `ucan/src/capability/proof.rs` -/

namespace Verif

/-- `enum ProofAction` (proof.rs 5-8). -/
inductive ProofAction where
  | delegate
deriving DecidableEq

/-- `enum ProofSelection` (proof.rs 34-38). -/
inductive ProofSelection where
  | index (n : Nat)
  | all
deriving DecidableEq

/-- `usize` of a 64-bit target. -/
def usizeBound : Nat := 2 ^ 64

/-- `str::parse::<usize>` of core: one optional leading `+`, then at least one digit, no overflow. -/
def parseUsize (s : Bytes) : Option Nat :=
  let ds := match s with
    | 43 :: r => r
    | _ => s
  if ds.isEmpty then none
  else if ds.all Json.isDigit then
    if Json.decVal ds < usizeBound then some (Json.decVal ds) else none
  else none

namespace ProofSelection

/-- `Scope::contains` (proof.rs 40-44). -/
def contains (self other : ProofSelection) : Bool := decide (self = other) || decide (self = all)

/-- `TryFrom<String>` (proof.rs 57-66). -/
def ofString (s : String) : Option ProofSelection :=
  if s = "*" then some all else (parseUsize (strBytes s)).map index

/-- `TryFrom<Url>` (proof.rs 46-55). -/
def ofUrl (u : Url) : Option ProofSelection :=
  if u.scheme = "prf" then ofString u.path else none

/-- `to_string` (proof.rs 68-75). -/
def toStr : ProofSelection → String
  | index n => "prf:" ++ asciiStr (Json.decBytes n)
  | all => "prf:*"

end ProofSelection

/-- `TryFrom<String> for ProofAction` (proof.rs 12-24). -/
def ProofAction.ofString (s : String) : Option ProofAction :=
  if s = "ucan/DELEGATE" then some .delegate else none

/-- `ProofDelegationSemantics` (proof.rs 77-79) with the derived order of `ProofAction` and its `to_string` (26-32). -/
def proofSemantics : Semantics ProofSelection ProofAction where
  parseScope := ProofSelection.ofUrl
  parseAction := ProofAction.ofString
  scopeStr := ProofSelection.toStr
  actionStr := fun .delegate => "ucan/DELEGATE"
  contains := ProofSelection.contains
  ge := fun _ _ => true

end Verif
