import Verif.Model.Chain

/-!
# The `Debug` texts of `CapabilityInfo` and `CapabilityView` (chain.rs 25-38, semantics.rs 208-221)

Only `{:?}`, not the pretty form `{:#?}`. `printable` stands for the Unicode tables of the standard library from U+00A0 on: characters that `str`'s
`Debug` leaves as they are.
-/

namespace Verif.Debug

/-- A hexadecimal digit in lower case. -/
def hexChar (n : Nat) : Char := Char.ofNat (if n < 10 then 48 + n else 87 + n)

/-- `char::escape_unicode`: a backslash, `u{`, the code without leading zeros and `}`. -/
def unicode (c : Char) : List Char := ['\\', 'u', '{'] ++ (toDigits 16 c.toNat).map hexChar ++ ['}']

/-- `char::escape_debug_ext` as called by `Debug` of `str`. -/
def escape (printable : Char → Bool) (c : Char) : List Char :=
  if c = '\x00' then ['\\', '0']
  else if c = '\t' then ['\\', 't']
  else if c = '\r' then ['\\', 'r']
  else if c = '\n' then ['\\', 'n']
  else if c = '\\' then ['\\', '\\']
  else if c = '"' then ['\\', '"']
  else if c.toNat < 32 then unicode c
  else if c.toNat < 127 then [c]
  else if c.toNat < 160 then unicode c
  else if printable c then [c]
  else unicode c

/-- `Debug` of `str` and `String`. -/
def quoted (printable : Char → Bool) (s : String) : List Char := '"' :: (s.toList.flatMap (escape printable) ++ ['"'])

/-- `Debug` of `u64`. -/
def number (n : UInt64) : List Char := if n = 0 then ['0'] else (toDigits 10 n.toNat).map hexChar

/-- Derived `Debug` of `Option<u64>`. -/
def time : Option UInt64 → List Char
  | none => "None".toList
  | some n => "Some(".toList ++ number n ++ [')']

/-- `DebugSet` after the first entry. -/
def entries (printable : Char → Bool) : List String → List Char
  | [] => ['}']
  | s :: ss => ", ".toList ++ quoted printable s ++ entries printable ss

/-- `Debug` of `BTreeSet<String>`. -/
def set (printable : Char → Bool) : List String → List Char
  | [] => "{}".toList
  | s :: ss => '{' :: (quoted printable s ++ entries printable ss)

/-- `serde_json::to_string` of a `Value`, which does not fail. -/
def json (D : Deps) (v : Json) : String := (bytesStr? (Json.print D v)).getD ""

/-- `Debug` of `CapabilityView` (semantics.rs 208-221); the caveat is the `Debug` of a `Result`. -/
def view {S A : Type} (D : Deps) (printable : Char → Bool) (sem : Semantics S A) (v : View S A) : List Char :=
  "Capability { resource: ".toList ++ quoted printable (v.resource.toStr sem.scopeStr) ++
  ", ability: ".toList ++ quoted printable (sem.actionStr v.ability) ++
  ", caveats: Ok(".toList ++ quoted printable (json D v.caveat) ++ ") }".toList

/-- `Debug` of `CapabilityInfo` (chain.rs 25-38). -/
def info {S A : Type} (D : Deps) (printable : Char → Bool) (sem : Semantics S A) (i : Info S A) : List Char :=
  "CapabilityInfo { originators: ".toList ++ set printable i.originators ++
  ", not_before: ".toList ++ time i.notBefore ++
  ", expires_at: ".toList ++ time i.expiresAt ++
  ", capability: ".toList ++ view D printable sem i.capability ++ " }".toList

end Verif.Debug
