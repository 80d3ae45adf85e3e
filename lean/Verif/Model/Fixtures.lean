import Verif.Model.Semantics

/-!
# The example semantics that come with the crate

`ucan/src/tests/fixtures/capabilities/email.rs` and `wnfs.rs`: a flat and a hierarchical resource, one ability and an ordered
list of abilities. They are what users copy.
-/

namespace Verif
namespace Fixtures

/-! ## Email -/

/-- `struct EmailAddress(String)` (email.rs 5-6). -/
structure EmailAddress where
  address : String
deriving DecidableEq

/-- `enum EmailAction` (email.rs 34-37). -/
inductive EmailAction where
  | send
deriving DecidableEq

/-- `TryFrom<Url> for EmailAddress` (email.rs 20-32): host, query and fragment are not looked at. -/
def EmailAddress.ofUrl (u : Url) : Option EmailAddress := if u.scheme = "mailto" then some ⟨u.path⟩ else none

/-- `TryFrom<String> for EmailAction` (email.rs 50-59). -/
def EmailAction.ofString (s : String) : Option EmailAction := if s = "email/send" then some .send else none

/-- `EmailSemantics` (email.rs 61-63) with `contains` (8-12), `to_string` (14-18, 41-48) and the derived order (34). -/
def emailSemantics : Semantics EmailAddress EmailAction where
  parseScope := EmailAddress.ofUrl
  parseAction := EmailAction.ofString
  scopeStr e := "mailto:" ++ e.address
  actionStr := fun .send => "email/send"
  contains e f := decide (e = f)
  ge := fun .send .send => true

/-! ## WNFS -/

/-- `enum WNFSCapLevel` (wnfs.rs 5-12). -/
inductive WnfsLevel where
  | create
  | revise
  | softDelete
  | overwrite
  | superUser
deriving DecidableEq

/-- Position in the declaration, which is what the derived `Ord` compares (wnfs.rs 5). -/
def WnfsLevel.rank : WnfsLevel → Nat
  | .create => 0
  | .revise => 1
  | .softDelete => 2
  | .overwrite => 3
  | .superUser => 4

/-- `TryFrom<String>` (wnfs.rs 16-29). -/
def WnfsLevel.ofString (s : String) : Option WnfsLevel :=
  if s = "wnfs/create" then some .create
  else if s = "wnfs/revise" then some .revise
  else if s = "wnfs/soft_delete" then some .softDelete
  else if s = "wnfs/overwrite" then some .overwrite
  else if s = "wnfs/super_user" then some .superUser
  else none

/-- `to_string` (wnfs.rs 31-42). -/
def WnfsLevel.toStr : WnfsLevel → String
  | .create => "wnfs/create"
  | .revise => "wnfs/revise"
  | .softDelete => "wnfs/soft_delete"
  | .overwrite => "wnfs/overwrite"
  | .superUser => "wnfs/super_user"

/-- `struct WNFSScope` (wnfs.rs 44-48). -/
structure WnfsScope where
  origin : String
  path : String
deriving DecidableEq

/-- `str::split('/')` on characters; never empty. -/
def splitSlash : List Char → List (List Char)
  | [] => [[]]
  | c :: cs =>
    if c = '/' then [] :: splitSlash cs
    else match splitSlash cs with
      | h :: t => (c :: h) :: t
      | [] => [[c]]

/-- The loop of `contains` (wnfs.rs 59-68): the parts of `self` against the iterator over the parts of `other`. -/
def matchParts : List (List Char) → List (List Char) → Bool
  | [], _ => true
  | p :: ps, q :: qs => if p = q then matchParts ps qs else false
  | _ :: _, [] => false

/-- `Scope::contains` (wnfs.rs 50-71). -/
def WnfsScope.contains (self other : WnfsScope) : Bool :=
  if self.origin = other.origin then matchParts (splitSlash self.path.toList) (splitSlash other.path.toList) else false

/-- `TryFrom<Url>` (wnfs.rs 74-86). `host_str()` is `None` exactly when the host is empty. -/
def WnfsScope.ofUrl (u : Url) : Option WnfsScope :=
  if u.scheme = "wnfs" ∧ u.host ≠ "" then some ⟨u.host, u.path⟩ else none

/-- `WNFSSemantics` (wnfs.rs 94-96). -/
def wnfsSemantics : Semantics WnfsScope WnfsLevel where
  parseScope := WnfsScope.ofUrl
  parseAction := WnfsLevel.ofString
  scopeStr s := "wnfs://" ++ s.origin ++ s.path
  actionStr := WnfsLevel.toStr
  contains := WnfsScope.contains
  ge a b := decide (b.rank ≤ a.rank)

end Fixtures
end Verif
