import Verif.Spec.Wire

/-! # Specification of UCAN values as documents -/

namespace Verif.Spec

/-- Bytes as a list of numbers. -/
def byteList (b : Bytes) : Json := .arr (b.map fun x => .int x.toNat)

structure ReadsUcan (D : Deps) (m : List (String × Json)) (u : Ucan) : Prop where
  header : ∃ w, Member m "header" w ∧ HeaderValue D w u.header
  payload : ∃ w, Member m "payload" w ∧ PayloadValue D w u.payload
  signedData : Member m "signed_data" (byteList u.signedData)
  signature : Member m "signature" (byteList u.signature)

/-- A UCAN given as a list: exactly the four values, in order. -/
def ListsUcan (D : Deps) (l : List Json) (u : Ucan) : Prop :=
  ∃ h p, l = [h, p, byteList u.signedData, byteList u.signature] ∧ HeaderValue D h u.header ∧ PayloadValue D p u.payload

/-- The value gives the UCAN. -/
inductive UcanValue (D : Deps) : Json → Ucan → Prop
  | members {m : List (String × Json)} {u : Ucan} : ReadsUcan D m u → UcanValue D (.obj m) u
  | elements {l : List Json} {u : Ucan} : D.structSeq = true → ListsUcan D l u → UcanValue D (.arr l) u

/-- The document of a UCAN, in the order of the text. -/
def ucanDoc (u : Ucan) : Json :=
  .obj [("header", headerDoc u.header), ("payload", payloadDoc u.payload), ("signature", byteList u.signature), ("signed_data", byteList u.signedData)]

end Verif.Spec
