import Verif.Spec.Json
import Verif.Spec.Cid
import Verif.Spec.Encoding
import Verif.Spec.Token
import Verif.Model.Ucan

/-!
# Specification of the token format

Which JSON documents are read as which header and payload, and which documents are written. Nothing here refers to the codecs.
-/

namespace Verif.Spec

/-! ## Members of an object -/

/-- The value under a key; of several, the last. -/
def Member {α : Type} (m : List (String × α)) (k : String) (v : α) : Prop := ∃ a b, m = a ++ (k, v) :: b ∧ ∀ e ∈ b, e.1 ≠ k

/-- There is no such key. -/
def Absent {α : Type} (m : List (String × α)) (k : String) : Prop := ∀ e ∈ m, e.1 ≠ k

/-! ## DAG-JSON -/

/-- The reserved form of a link. -/
def IsLink (m : List (String × Json)) (s : String) : Prop := m = [("/", .str s)]

/-- The reserved form of a byte string. -/
def IsBytes (m : List (String × Json)) (s : String) : Prop :=
  ∃ n, m = [("/", .obj n)] ∧ (∀ e ∈ n, e.1 = "bytes") ∧ Member n "bytes" (.str s)

/-- Reserved forms, wherever they occur, are well formed. -/
inductive Readable (D : Deps) : Json → Prop
  | null : Readable D .null
  | bool {b : Bool} : Readable D (.bool b)
  | int {i : Int} : Readable D (.int i)
  | float {f : F64} : Readable D (.float f)
  | str {s : String} : Readable D (.str s)
  | arr {l : List Json} : (∀ v ∈ l, Readable D v) → Readable D (.arr l)
  | obj {m : List (String × Json)} : (∀ e ∈ m, Readable D e.2) → (∀ s, IsLink m s → ∃ c, DenotesCid D s c) →
      (∀ s, IsBytes m s → ∃ b, D.otherBase 109 (strBytes s) = some b) → Readable D (.obj m)

/-- A document as the plain value an application sees in caveats and facts: keys are unique and in order, of several values under
one key the last counts. Reserved forms are no plain values. -/
inductive Reads (D : Deps) : Json → Json → Prop
  | null : Reads D .null .null
  | bool {b : Bool} : Reads D (.bool b) (.bool b)
  | int {i : Int} : D.valueI128 = true → -(2 ^ 63) ≤ i → i < 2 ^ 64 → Reads D (.int i) (.int i)
  | float {f : F64} : Reads D (.float f) (.float f)
  | str {s : String} : Reads D (.str s) (.str s)
  | arr {l l' : List Json} : l.length = l'.length → (∀ (i : Nat) x y, l[i]? = some x → l'[i]? = some y → Reads D x y) → Reads D (.arr l) (.arr l')
  | obj {m m' : List (String × Json)} : (∀ s, ¬ IsLink m s) → (∀ s, ¬ IsBytes m s) → BMap.Sorted m' →
      (∀ k, Absent m k ↔ Absent m' k) → (∀ k x y, Member m k x → (k, y) ∈ m' → Reads D x y) → Reads D (.obj m) (.obj m')

/-! ## Reading -/

/-- A member that may be missing or null. -/
def Optionally {α : Type} (m : List (String × Json)) (k : String) (R : α → Json → Prop) : Option α → Prop
  | none => Absent m k ∨ Member m k .null
  | some a => ∃ w, Member m k w ∧ R a w

/-- Capabilities as a document: resource, then ability, then the list of caveats. -/
def capDoc (c : Capabilities) : Json := .obj (c.map fun r => (r.1, .obj (r.2.map fun a => (a.1, .arr a.2))))

structure ReadsHeader (m : List (String × Json)) (h : Header) : Prop where
  alg : Member m "alg" (.str h.alg)
  typ : Member m "typ" (.str h.typ)

structure ReadsPayload (D : Deps) (m : List (String × Json)) (p : Payload) : Prop where
  ucv : Member m "ucv" (.str p.ucv)
  iss : Member m "iss" (.str p.iss)
  aud : Member m "aud" (.str p.aud)
  exp : Optionally m "exp" (fun (n : UInt64) w => w = .int n.toNat) p.exp
  nbf : Optionally m "nbf" (fun (n : UInt64) w => w = .int n.toNat) p.nbf
  nnc : Optionally m "nnc" (fun s w => w = .str s) p.nnc
  cap : ∃ w, Member m "cap" w ∧ Reads D w (capDoc p.cap)
  fct : Optionally m "fct" (fun f w => Reads D w (.obj f)) p.fct
  prf : Optionally m "prf" (fun l w => w = .arr (l.map .str)) p.prf

/-- An element that may be null. -/
def OrNull {α : Type} (R : α → Json → Prop) (w : Json) : Option α → Prop
  | none => w = .null
  | some a => R a w

/-- A header given as a list: exactly the two values, in order. -/
def ListsHeader (l : List Json) (h : Header) : Prop := l = [.str h.alg, .str h.typ]

/-- A payload given as a list: exactly the nine values, in order, absent ones as null. -/
def ListsPayload (D : Deps) (l : List Json) (p : Payload) : Prop :=
  ∃ exp nbf nnc cap fct prf, l = [.str p.ucv, .str p.iss, .str p.aud, exp, nbf, nnc, cap, fct, prf] ∧
    OrNull (fun (n : UInt64) w => w = .int n.toNat) exp p.exp ∧ OrNull (fun (n : UInt64) w => w = .int n.toNat) nbf p.nbf ∧
    OrNull (fun s w => w = .str s) nnc p.nnc ∧ Reads D cap (capDoc p.cap) ∧ OrNull (fun f w => Reads D w (.obj f)) fct p.fct ∧
    OrNull (fun l w => w = .arr (l.map .str)) prf p.prf

/-- The value gives the header: as an object or, where the deserialiser supports that, as a list. -/
inductive HeaderValue (D : Deps) : Json → Header → Prop
  | members {m : List (String × Json)} {h : Header} : ReadsHeader m h → HeaderValue D (.obj m) h
  | elements {l : List Json} {h : Header} : D.structSeq = true → ListsHeader l h → HeaderValue D (.arr l) h

/-- The value gives the payload. -/
inductive PayloadValue (D : Deps) : Json → Payload → Prop
  | members {m : List (String × Json)} {p : Payload} : ReadsPayload D m p → PayloadValue D (.obj m) p
  | elements {l : List Json} {p : Payload} : D.structSeq = true → ListsPayload D l p → PayloadValue D (.arr l) p

/-- The bytes are a text of the value, nested at most 127 deep; if the reader does not insist on the end, the text may go on. -/
def Document (D : Deps) (b : Bytes) (v : Json) : Prop :=
  (∃ t r, b = t ++ r ∧ (D.jsonCheckEnd = true → r = []) ∧ ElementText D t v) ∧ DepthLe v 127

/-- The text is a token with this content. -/
def TokenText (D : Deps) (token : Bytes) (u : Ucan) : Prop :=
  ∃ hb pb ht pt st tail hv pv, token = ht ++ 46 :: pt ++ 46 :: st ++ tail ∧ Tail tail ∧
    BitText 6 base64url hb ht ∧ BitText 6 base64url pb pt ∧ BitText 6 base64url u.signature st ∧
    Document D hb hv ∧ Readable D hv ∧ HeaderValue D hv u.header ∧
    Document D pb pv ∧ Readable D pv ∧ PayloadValue D pv u.payload ∧ u.signedData = ht ++ 46 :: pt

/-! ## Writing -/

/-- A member that is left out when there is no value. -/
def unlessNone {α : Type} (k : String) (f : α → Json) : Option α → List (String × Json)
  | none => []
  | some a => [(k, f a)]

/-- The header document. -/
def headerDoc (h : Header) : Json := .obj [("alg", .str h.alg), ("typ", .str h.typ)]

/-- The payload document, in the order of the text. -/
def payloadDoc (p : Payload) : Json := .obj <|
  ("aud", .str p.aud) :: ("cap", capDoc p.cap) :: ("exp", match p.exp with | none => .null | some n => .int n.toNat) ::
  unlessNone "fct" .obj p.fct ++ ("iss", .str p.iss) :: unlessNone "nbf" (fun n => .int n.toNat) p.nbf ++
  unlessNone "nnc" .str p.nnc ++ unlessNone "prf" (fun l => .arr (l.map .str)) p.prf ++ [("ucv", .str p.ucv)]

/-- The text that is signed. -/
def SignedText (D : Deps) (h : Header) (p : Payload) (t : Bytes) : Prop :=
  ∃ hb pb ht pt, t = ht ++ 46 :: pt ∧ BitText 6 base64url hb ht ∧ BitText 6 base64url pb pt ∧
    ValueText D hb (headerDoc h) ∧ ValueText D pb (payloadDoc p)

end Verif.Spec
