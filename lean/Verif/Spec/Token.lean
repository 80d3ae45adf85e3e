import Verif.Model.Payload

/-!
# Specification of tokens

A token is three or more dot separated segments.
-/

namespace Verif.Spec

/-- No byte is a dot. -/
def NoDot (b : Bytes) : Prop := (46 : UInt8) ∉ b

/-- The rest of a token after its third segment: nothing, or a dot and anything. -/
def Tail (b : Bytes) : Prop := b = [] ∨ ∃ r, b = 46 :: r

/-- The text has the segments `a`, `b`, `c`, followed by `tail`. -/
def Segments (token : Bytes) (a b c tail : Bytes) : Prop :=
  token = a ++ 46 :: b ++ 46 :: c ++ tail ∧ NoDot a ∧ NoDot b ∧ NoDot c ∧ Tail tail

/-- The text is a token with the given content. -/
structure IsToken (D : Deps) (token : Bytes) (header : Header) (payload : Payload) (signed signature : Bytes) : Prop where
  parts : ∃ h p tail, Segments token (Base64.encode h) (Base64.encode p) (Base64.encode signature) tail ∧
    Codec.headerOfBytes D h = some header ∧ Codec.payloadOfBytes D p = some payload ∧
    signed = Base64.encode h ++ 46 :: Base64.encode p

end Verif.Spec
