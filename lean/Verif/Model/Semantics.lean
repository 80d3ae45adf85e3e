import Verif.Model.Capability
import Verif.Model.Url

/-! # `ucan/src/capability/semantics.rs` -/

namespace Verif

/-- `enum ResourceUri<S>` (semantics.rs 12-19). -/
inductive ResourceUri (S : Type) where
  | scoped (s : S)
  | unscoped
deriving DecidableEq

/-- `enum Resource<S>` (semantics.rs 48-56). -/
inductive Resource (S : Type) where
  | resource (kind : ResourceUri S)
  | my (kind : ResourceUri S)
  | as_ (did : String) (kind : ResourceUri S)
deriving DecidableEq

/-- `struct CapabilityView<S, A>` (semantics.rs 197-206). -/
structure View (S A : Type) where
  resource : Resource S
  ability : A
  caveat : Json
deriving DecidableEq

/-- What a user supplies: `CapabilitySemantics<S, A>` with its scope and ability traits (semantics.rs 6-10, 104-114). The
provided methods of the trait are modelled below; an implementation may replace them (`overridden`) by pure functions. -/
structure Semantics (S A : Type) where
  /-- `parse_scope`, by default `S::try_from(url)` (109-111). -/
  parseScope : Url → Option S
  /-- `parse_action`, by default `A::try_from(text)` (112-114). -/
  parseAction : String → Option A
  /-- `ToString` of scopes and abilities. -/
  scopeStr : S → String
  actionStr : A → String
  /-- `Scope::contains` (7). -/
  contains : S → S → Bool
  /-- `>=` of abilities (`Ord`, 10). -/
  ge : A → A → Bool
  /-- `parse_capability` (192-194), if the implementation replaces it or a method it calls (116-190) by its own. -/
  overridden : Option (Capability → Option (View S A)) := none

/-- `CapabilityView::new` (semantics.rs 229-235). -/
def View.new {S A : Type} (resource : Resource S) (ability : A) : View S A := ⟨resource, ability, .obj []⟩

/-- `CapabilityView::new_with_caveat` (semantics.rs 240-246). The accessors (262-272) are the projections. -/
def View.newWithCaveat {S A : Type} (resource : Resource S) (ability : A) (caveat : Json) : View S A := ⟨resource, ability, caveat⟩

variable {S A : Type}

/-- `ResourceUri::contains` (semantics.rs 25-33). -/
def ResourceUri.contains (c : S → S → Bool) : ResourceUri S → ResourceUri S → Bool
  | .unscoped, _ => true
  | .scoped s, .scoped t => c s t
  | .scoped _, .unscoped => false

/-- `ResourceUri::to_string` (semantics.rs 36-46). -/
def ResourceUri.toStr (f : S → String) : ResourceUri S → String
  | .unscoped => "*"
  | .scoped s => f s

/-- `Resource::contains` (semantics.rs 62-88). -/
def Resource.contains (c : S → S → Bool) : Resource S → Resource S → Bool
  | .resource k, .resource k' => k.contains c k'
  | .my k, .my k' => k.contains c k'
  | .as_ d k, .as_ d' k' => if d = d' then k.contains c k' else false
  | _, _ => false

/-- `Resource::to_string` (semantics.rs 91-102). -/
def Resource.toStr (f : S → String) : Resource S → String
  | .resource k => k.toStr f
  | .my k => "my:" ++ k.toStr f
  | .as_ d k => "as:" ++ d ++ ":" ++ k.toStr f

/-- `str::split(':')` on characters; never empty. -/
def splitColon : List Char → List (List Char)
  | [] => [[]]
  | c :: cs =>
    if c = ':' then [] :: splitColon cs
    else match splitColon cs with
      | h :: t => (c :: h) :: t
      | [] => [[c]]

/-- `extract_did` (semantics.rs 116-135): the remaining segments are concatenated without separators. -/
def extractDid (path : String) : Option (String × String) :=
  match splitColon path.toList with
  | d :: k :: v :: rest =>
    if d = "did".toList ∧ k = "key".toList then some ("did:key:" ++ String.ofList v, String.ofList rest.flatten) else none
  | _ => none

namespace Semantics

/-- `parse_resource` (semantics.rs 137-142). -/
def parseResource (sem : Semantics S A) (u : Url) : Option (ResourceUri S) :=
  if u.path = "*" then some .unscoped else (sem.parseScope u).map .scoped

/-- `parse_caveat` (semantics.rs 144-150). -/
def parseCaveat : Option Json → Json
  | some c => c
  | none => .obj []

/-- The resource part of `parse` (semantics.rs 160-176). -/
def resourceOf (D : Deps) (sem : Semantics S A) (resource : String) : Option (Resource S) :=
  match Url.parse D resource with
  | none => none
  | some uri =>
    if uri.scheme = "my" then (sem.parseResource uri).map .my
    else if uri.scheme = "as" then
      match extractDid uri.path with
      | none => none
      | some (did, rest) =>
        match Url.parse D rest with
        | none => none
        | some u => (sem.parseResource u).map (.as_ did)
    else (sem.parseResource uri).map .resource

/-- `parse` (semantics.rs 152-190). -/
def parse (D : Deps) (sem : Semantics S A) (resource ability : String) (caveat : Option Json) : Option (View S A) :=
  match sem.resourceOf D resource with
  | none => none
  | some r =>
    match sem.parseAction ability with
    | none => none
    | some a => some ⟨r, a, parseCaveat caveat⟩

/-- `parse_capability` (semantics.rs 192-194). -/
def parseCapability (D : Deps) (sem : Semantics S A) (c : Capability) : Option (View S A) :=
  match sem.overridden with
  | some f => f c
  | none => sem.parse D c.resource c.ability (some c.caveat)

theorem parseCapability_default {sem : Semantics S A} (h : sem.overridden = none) (D : Deps) (c : Capability) :
    sem.parseCapability D c = sem.parse D c.resource c.ability (some c.caveat) := by
  unfold parseCapability
  rw [h]

/-- `CapabilityView::enables` (semantics.rs 248-260). -/
def enables (sem : Semantics S A) (self other : View S A) : Bool :=
  match Caveat.ofValue self.caveat, Caveat.ofValue other.caveat with
  | some c, some c' => self.resource.contains sem.contains other.resource && sem.ge self.ability other.ability && c.enables c'
  | _, _ => false

/-- `From<CapabilityView> for Capability` (semantics.rs 275-301). -/
def toCapability (sem : Semantics S A) (v : View S A) : Capability :=
  ⟨v.resource.toStr sem.scopeStr, sem.actionStr v.ability, v.caveat⟩

end Semantics
end Verif
