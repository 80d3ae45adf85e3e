import Verif.Codec.Json
import Verif.Spec.Encoding

/-!
# Specification of JSON texts

The grammar of RFC 8259 as relations between texts and values, independent of the reader and the writer. Objects keep their members in
the order of the text, with repetitions.
-/

namespace Verif.Spec

/-- White space. -/
def Ws (b : Bytes) : Prop := ∀ c ∈ b, c ∈ strBytes " \t\n\r"

/-! ## Strings -/

def HexDigit (c : UInt8) (v : Nat) : Prop :=
  (strBytes "0123456789abcdef")[v]? = some c ∨ (strBytes "0123456789ABCDEF")[v]? = some c

/-- Four hexadecimal digits. -/
def Hex4 (t : Bytes) (n : Nat) : Prop :=
  ∃ a b c d w x y z, t = [a, b, c, d] ∧ HexDigit a w ∧ HexDigit b x ∧ HexDigit c y ∧ HexDigit d z ∧ n = w * 4096 + x * 256 + y * 16 + z

/-- The escapes of one letter: the letter and the character it stands for. -/
def escapes : List (UInt8 × UInt8) :=
  [(34, 34), (92, 92), (47, 47), (98, 8), (102, 12), (110, 10), (114, 13), (116, 9)]

/-- The text between the quotes and the UTF-8 of the string. -/
inductive Chars : Bytes → Bytes → Prop
  | nil : Chars [] []
  | plain {c : UInt8} {t s : Bytes} : 32 ≤ c.toNat → c ≠ 34 → c ≠ 92 → Chars t s → Chars (c :: t) (c :: s)
  | escape {e x : UInt8} {t s : Bytes} : (e, x) ∈ escapes → Chars t s → Chars (92 :: e :: t) (x :: s)
  | code {h t s : Bytes} {n : Nat} : Hex4 h n → ¬ (0xD800 ≤ n ∧ n < 0xE000) → Chars t s →
      Chars (92 :: 117 :: (h ++ t)) (String.utf8EncodeChar (Char.ofNat n) ++ s)
  | pair {h h' t s : Bytes} {n m : Nat} : Hex4 h n → Hex4 h' m → 0xD800 ≤ n → n < 0xDC00 → 0xDC00 ≤ m → m < 0xE000 → Chars t s →
      Chars (92 :: 117 :: (h ++ 92 :: 117 :: (h' ++ t)))
        (String.utf8EncodeChar (Char.ofNat (0x10000 + (n - 0xD800) * 0x400 + (m - 0xDC00))) ++ s)

/-- A quoted string. -/
def StringText (t : Bytes) (s : String) : Prop := ∃ body, t = 34 :: (body ++ [34]) ∧ Chars body (strBytes s)

/-! ## Numbers -/

def Digits (t : Bytes) : Prop := t ≠ [] ∧ ∀ c ∈ t, 48 ≤ c.toNat ∧ c.toNat ≤ 57

/-- A natural number without leading zeros. -/
def Natural (t : Bytes) : Prop := Digits t ∧ (t = [48] ∨ t.head? ≠ some 48)

def Fraction (t : Bytes) : Prop := t = [] ∨ ∃ ds, t = 46 :: ds ∧ Digits ds

def Exponent (t : Bytes) : Prop :=
  t = [] ∨ ∃ e sg ds, t = e :: (sg ++ ds) ∧ (e = 101 ∨ e = 69) ∧ (sg = [] ∨ sg = [43] ∨ sg = [45]) ∧ Digits ds

def digitsValue (t : Bytes) : Nat := numeral 10 (t.map fun c => c.toNat - 48)

/-- A number and its value: an integer if it has neither fraction nor exponent and fits 64 bits (and is not `-0`), else the double that the text denotes. -/
inductive NumberText (D : Deps) : Bytes → Json → Prop
  | nat {t : Bytes} : Natural t → digitsValue t < 2 ^ 64 → NumberText D t (.int (digitsValue t))
  | neg {t : Bytes} : Natural t → digitsValue t ≠ 0 → digitsValue t ≤ 2 ^ 63 → NumberText D (45 :: t) (.int (-digitsValue t))
  | double {sg ip fr ex : Bytes} {f : F64} : (sg = [] ∨ sg = [45]) → Natural ip → Fraction fr → Exponent ex →
      (fr = [] → ex = [] → sg = [] → 2 ^ 64 ≤ digitsValue ip) →
      (fr = [] → ex = [] → sg = [45] → digitsValue ip = 0 ∨ 2 ^ 63 < digitsValue ip) →
      D.f64Parse (sg ++ ip ++ fr ++ ex) = some f → NumberText D (sg ++ ip ++ fr ++ ex) (.float f)

/-- Numbers are the only values whose text can go on. -/
def IsNumber : Json → Prop
  | .int _ => True
  | .float _ => True
  | _ => False

/-! ## Values -/

mutual
/-- A value without surrounding white space. -/
inductive ValueText (D : Deps) : Bytes → Json → Prop
  | null : ValueText D (strBytes "null") .null
  | true : ValueText D (strBytes "true") (.bool true)
  | false : ValueText D (strBytes "false") (.bool false)
  | number {t : Bytes} {v : Json} : NumberText D t v → ValueText D t v
  | string {t : Bytes} {s : String} : StringText t s → ValueText D t (.str s)
  | emptyArray {w : Bytes} : Ws w → ValueText D (91 :: (w ++ [93])) (.arr [])
  | array {t : Bytes} {l : List Json} : ElementsText D t l → ValueText D (91 :: (t ++ [93])) (.arr l)
  | emptyObject {w : Bytes} : Ws w → ValueText D (123 :: (w ++ [125])) (.obj [])
  | object {t : Bytes} {m : List (String × Json)} : MembersText D t m → ValueText D (123 :: (t ++ [125])) (.obj m)
/-- A value with surrounding white space. -/
inductive ElementText (D : Deps) : Bytes → Json → Prop
  | mk {w t w' : Bytes} {v : Json} : Ws w → ValueText D t v → Ws w' → ElementText D (w ++ (t ++ w')) v
/-- One or more elements. -/
inductive ElementsText (D : Deps) : Bytes → List Json → Prop
  | one {t : Bytes} {v : Json} : ElementText D t v → ElementsText D t [v]
  | more {t ts : Bytes} {v : Json} {l : List Json} : ElementText D t v → ElementsText D ts l → ElementsText D (t ++ 44 :: ts) (v :: l)
/-- One or more members. -/
inductive MembersText (D : Deps) : Bytes → List (String × Json) → Prop
  | one {w k w' t : Bytes} {s : String} {v : Json} : Ws w → StringText k s → Ws w' → ElementText D t v →
      MembersText D (w ++ (k ++ (w' ++ 58 :: t))) [(s, v)]
  | more {w k w' t ts : Bytes} {s : String} {v : Json} {m : List (String × Json)} : Ws w → StringText k s → Ws w' → ElementText D t v →
      MembersText D ts m → MembersText D (w ++ (k ++ (w' ++ 58 :: (t ++ 44 :: ts)))) ((s, v) :: m)
end

/-- The nesting depth of arrays and objects. -/
inductive DepthLe : Json → Nat → Prop
  | null {n : Nat} : DepthLe .null n
  | bool {b : Bool} {n : Nat} : DepthLe (.bool b) n
  | int {i : Int} {n : Nat} : DepthLe (.int i) n
  | float {f : F64} {n : Nat} : DepthLe (.float f) n
  | str {s : String} {n : Nat} : DepthLe (.str s) n
  | arr {l : List Json} {n : Nat} : (∀ v ∈ l, DepthLe v n) → DepthLe (.arr l) (n + 1)
  | obj {m : List (String × Json)} {n : Nat} : (∀ e ∈ m, DepthLe e.2 n) → DepthLe (.obj m) (n + 1)

/-- All numbers are integers. -/
inductive NoDouble : Json → Prop
  | null : NoDouble .null
  | bool {b : Bool} : NoDouble (.bool b)
  | int {i : Int} : NoDouble (.int i)
  | str {s : String} : NoDouble (.str s)
  | arr {l : List Json} : (∀ v ∈ l, NoDouble v) → NoDouble (.arr l)
  | obj {m : List (String × Json)} : (∀ e ∈ m, NoDouble e.2) → NoDouble (.obj m)

/-! ## The text that is written -/

/-- The text between the quotes: an escape only where there must be one, of one letter if there is such, else with lower case digits. -/
inductive CanonicalChars : Bytes → Bytes → Prop
  | nil : CanonicalChars [] []
  | plain {c : UInt8} {t s : Bytes} : 32 ≤ c.toNat → c ≠ 34 → c ≠ 92 → CanonicalChars t s → CanonicalChars (c :: t) (c :: s)
  | escape {e x : UInt8} {t s : Bytes} : (e, x) ∈ escapes → x ≠ 47 → CanonicalChars t s → CanonicalChars (92 :: e :: t) (x :: s)
  | control {c h l : UInt8} {t s : Bytes} : c.toNat < 32 → (∀ e, (e, c) ∉ escapes) → (strBytes "0123456789abcdef")[c.toNat / 16]? = some h →
      (strBytes "0123456789abcdef")[c.toNat % 16]? = some l → CanonicalChars t s → CanonicalChars (92 :: 117 :: 48 :: 48 :: h :: l :: t) (c :: s)

mutual
/-- A value without any white space. -/
inductive CanonicalText (D : Deps) : Bytes → Json → Prop
  | null : CanonicalText D (strBytes "null") .null
  | true : CanonicalText D (strBytes "true") (.bool true)
  | false : CanonicalText D (strBytes "false") (.bool false)
  | int {t : Bytes} {i : Int} : NumberText D t (.int i) → CanonicalText D t (.int i)
  | double {f : F64} : CanonicalText D (D.f64Print f) (.float f)
  | string {t : Bytes} {s : String} : CanonicalChars t (strBytes s) → CanonicalText D (34 :: (t ++ [34])) (.str s)
  | emptyArray : CanonicalText D [91, 93] (.arr [])
  | array {t : Bytes} {l : List Json} : CanonicalElements D t l → CanonicalText D (91 :: (t ++ [93])) (.arr l)
  | emptyObject : CanonicalText D [123, 125] (.obj [])
  | object {t : Bytes} {m : List (String × Json)} : CanonicalMembers D t m → CanonicalText D (123 :: (t ++ [125])) (.obj m)
/-- One or more elements. -/
inductive CanonicalElements (D : Deps) : Bytes → List Json → Prop
  | one {t : Bytes} {v : Json} : CanonicalText D t v → CanonicalElements D t [v]
  | more {t ts : Bytes} {v : Json} {l : List Json} : CanonicalText D t v → CanonicalElements D ts l → CanonicalElements D (t ++ 44 :: ts) (v :: l)
/-- One or more members. -/
inductive CanonicalMembers (D : Deps) : Bytes → List (String × Json) → Prop
  | one {k t : Bytes} {s : String} {v : Json} : CanonicalText D k (.str s) → CanonicalText D t v → CanonicalMembers D (k ++ 58 :: t) [(s, v)]
  | more {k t ts : Bytes} {s : String} {v : Json} {m : List (String × Json)} : CanonicalText D k (.str s) → CanonicalText D t v →
      CanonicalMembers D ts m → CanonicalMembers D (k ++ 58 :: (t ++ 44 :: ts)) ((s, v) :: m)
end

end Verif.Spec
