/-! # Specification of texts for logs -/

namespace Verif.Spec

/-- No control characters (of the Unicode category Cc), and beyond them only characters that the tables call printable. -/
def OneLine (pr : Char → Bool) (l : List Char) : Prop := ∀ c ∈ l, (32 ≤ c.toNat ∧ c.toNat < 127 ∨ 160 ≤ c.toNat) ∧ (160 ≤ c.toNat → pr c = true)

/-- A character that needs no escape: visible, and neither a quote nor a backslash. -/
def ShownAsIs (pr : Char → Bool) (c : Char) : Prop := c ≠ '"' ∧ c ≠ '\\' ∧ (32 ≤ c.toNat ∧ c.toNat < 127 ∨ 160 ≤ c.toNat ∧ pr c = true)

/-- The text, in quotes, is part of the line. -/
def Quotes (line : List Char) (s : String) : Prop := ∃ x y, line = x ++ '"' :: (s.toList ++ '"' :: y)

/-- The line has a field with this label, whose text begins with this. -/
def Field (line : List Char) (label : String) (text : List Char) : Prop := ∃ x y, line = x ++ (label.toList ++ (text ++ y))

/-- The decimal numeral of a number, without leading zeros. -/
structure DecimalOf (n : Nat) (l : List Char) : Prop where
  digits : ∀ c ∈ l, '0' ≤ c ∧ c ≤ '9'
  value : l.foldl (fun a c => a * 10 + (c.toNat - 48)) 0 = n
  shortest : l ≠ [] ∧ (l.head? = some '0' → l = ['0'])

/-- The hexadecimal numeral of a number in lower case, without leading zeros. -/
structure HexOf (n : Nat) (l : List Char) : Prop where
  digits : ∀ c ∈ l, '0' ≤ c ∧ c ≤ '9' ∨ 'a' ≤ c ∧ c ≤ 'f'
  value : l.foldl (fun a c => a * 16 + (if c ≤ '9' then c.toNat - '0'.toNat else c.toNat - 'a'.toNat + 10)) 0 = n
  shortest : l.head? ≠ some '0'

/-- The characters with an escape of two characters, and the second of them. -/
def shortEscapes : List (Char × Char) := [('\x00', '0'), ('\t', 't'), ('\r', 'r'), ('\n', 'n'), ('\\', '\\'), ('"', '"')]

/-- How a character is written between quotes. -/
inductive CharText (pr : Char → Bool) : Char → List Char → Prop
  | plain {c : Char} : ShownAsIs pr c → CharText pr c [c]
  | short {c d : Char} : (c, d) ∈ shortEscapes → CharText pr c ['\\', d]
  | code {c : Char} {h : List Char} : ¬ ShownAsIs pr c → c ∉ shortEscapes.map Prod.fst → HexOf c.toNat h → CharText pr c ("\\u{".toList ++ h ++ "}".toList)

/-- How a text is written between quotes. -/
inductive QuotedText (pr : Char → Bool) : List Char → List Char → Prop
  | nil : QuotedText pr [] []
  | cons {c : Char} {s t u : List Char} : CharText pr c t → QuotedText pr s u → QuotedText pr (c :: s) (t ++ u)

end Verif.Spec
