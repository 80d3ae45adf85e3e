import Verif.Spec.Issue

/-! # Specification: who a token can be of use to -/

namespace Verif.Spec

/-- The text names a party whose signatures can be checked. -/
def NamesParty (ctors : BMap Bytes KeyCtor) (a : String) : Prop := ∃ key, Denotes ctors a key

end Verif.Spec
