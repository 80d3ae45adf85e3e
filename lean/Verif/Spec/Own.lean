import Verif.Spec.Reduce
import Verif.Spec.Capability

/-! # Specification: resources of one's own

A `my:` resource is a resource of whoever says so, which in a token is its issuer. -/

namespace Verif.Spec

variable {S A : Type}

/-- The capability is about resources of one's own. -/
def OwnResource (v : View S A) : Prop := form v.resource = .my

/-- Nobody but `o` claims, in the tokens of the chain, resources of their own. -/
def OnlyOwner (D : Deps) (sem : Semantics S A) (c : Chain) (o : String) : Prop :=
  ∀ d, Sub d c → ∀ v, Claimed D sem d.ucan v → OwnResource v → d.ucan.payload.iss = o

end Verif.Spec
