import Verif.Base.Deps
import Verif.Model.Ipv4

/-!
# `Url::parse` of the `url` crate

Executable for all schemes but `file`, for which the result is the parameter `Deps.urlFile`; domains that are not plain ASCII are handed to the
parameter `Deps.idna`. Follows the URL Standard. Simplifications: the treatment of spaces at the end of an opaque path and of `^` in a path (both
changed in recent versions of the crate) is the older one (kept); a backslash after a port, at which the crate starts the path, is refused as in
the Standard, and so is an `@` before nothing; domains with forbidden ASCII characters are refused before `idna`, which would keep them, is asked.
-/

namespace Verif
namespace Url

def isAlpha (b : UInt8) : Bool := (65 ≤ b && b ≤ 90) || (97 ≤ b && b ≤ 122)
def isDigit (b : UInt8) : Bool := 48 ≤ b && b ≤ 57
def isSchemeByte (b : UInt8) : Bool := isAlpha b || isDigit b || b == 43 || b == 45 || b == 46
def toLower (b : UInt8) : UInt8 := if 65 ≤ b && b ≤ 90 then b + 32 else b

/-- C0 control or space. -/
def isC0Space (b : UInt8) : Bool := b ≤ 32
/-- Tab, newline, carriage return: dropped anywhere. -/
def isTabNl (b : UInt8) : Bool := b == 9 || b == 10 || b == 13

def trim (b : Bytes) : Bytes := ((b.dropWhile isC0Space).reverse.dropWhile isC0Space).reverse

/-- The scheme and the bytes after its colon. -/
def splitScheme : Bytes → Option (Bytes × Bytes)
  | [] => none
  | b :: bs => if isAlpha b then go [toLower b] bs else none
where
  go (acc : Bytes) : Bytes → Option (Bytes × Bytes)
    | [] => none
    | b :: bs =>
      if b = 58 then some (acc.reverse, bs)
      else if isSchemeByte b then go (toLower b :: acc) bs
      else none

def hexDigit (n : UInt8) : UInt8 := if n < 10 then 48 + n else 55 + n
def pct (b : UInt8) : Bytes := [37, hexDigit (b / 16), hexDigit (b % 16)]

/-- The `CONTROLS` set: C0, DEL and non-ASCII. -/
def isControl (b : UInt8) : Bool := b < 32 || b ≥ 127
def encPath (b : UInt8) : Bytes := if isControl b then pct b else [b]
/-- `QUERY` set. -/
def encQuery (b : UInt8) : Bytes := if isControl b || b == 32 || b == 34 || b == 35 || b == 60 || b == 62 then pct b else [b]
/-- `FRAGMENT` set. -/
def encFragment (b : UInt8) : Bytes := if isControl b || b == 32 || b == 34 || b == 60 || b == 62 || b == 96 then pct b else [b]

def specials : List String := ["http", "https", "ws", "wss", "ftp", "file"]

def isPathByte (b : UInt8) : Bool := b != 63 && b != 35

/-- Query and fragment. -/
def tailOf (encQ : UInt8 → Bytes) : Bytes → Option String × Option String
  | 63 :: q =>
    (some (asciiStr ((q.takeWhile (· != 35)).flatMap encQ)),
      match q.dropWhile (· != 35) with
      | [] => none
      | _ :: f => some (asciiStr (f.flatMap encFragment)))
  | 35 :: f => (none, some (asciiStr (f.flatMap encFragment)))
  | _ => (none, none)

/-- Opaque path, query, fragment. -/
def opaque_ (scheme : String) (rest : Bytes) : Url :=
  let tail := tailOf encQuery (rest.dropWhile isPathByte)
  ⟨scheme, "", asciiStr ((rest.takeWhile isPathByte).flatMap encPath), tail.1, tail.2, "", none, none⟩

/-! ## Hierarchical URLs -/

/-- `PATH` set. -/
def encSegment (b : UInt8) : Bytes :=
  if isControl b || b == 32 || b == 34 || b == 35 || b == 60 || b == 62 || b == 63 || b == 96 || b == 123 || b == 125 then pct b else [b]

/-- Single-dot path segments. -/
def isDot (s : Bytes) : Bool := s == [46] || s == [37, 50, 101] || s == [37, 50, 69]

/-- Double-dot path segments. -/
def isDotDot (s : Bytes) : Bool :=
  s == [46, 46] || s == [46, 37, 50, 101] || s == [46, 37, 50, 69] || s == [37, 50, 101, 46] || s == [37, 50, 69, 46] ||
  s == [37, 50, 101, 37, 50, 101] || s == [37, 50, 101, 37, 50, 69] || s == [37, 50, 69, 37, 50, 101] || s == [37, 50, 69, 37, 50, 69]

/-- The path state: the segments before the next one in reverse, and those to come. -/
def pathState : List Bytes → List Bytes → List Bytes
  | acc, [] => acc.reverse
  | acc, [s] => (if isDotDot s then [] :: acc.tail else if isDot s then [] :: acc else s :: acc).reverse
  | acc, s :: t :: rest => pathState (if isDotDot s then acc.tail else if isDot s then acc else s :: acc) (t :: rest)

/-- Pieces between slashes; never empty. -/
def splitSlash : Bytes → List Bytes
  | [] => [[]]
  | b :: bs =>
    if b = 47 then [] :: splitSlash bs
    else match splitSlash bs with
      | h :: t => (b :: h) :: t
      | [] => [[b]]

/-- The normalised path: of a text that is empty or starts with a slash. -/
def hierPath : Bytes → Bytes
  | [] => []
  | _ :: p => (pathState [] ((splitSlash p).map fun s => s.flatMap encSegment)).flatMap fun s => 47 :: s

/-- Path, query and fragment after the host. -/
def afterHost (scheme host : String) (rest : Bytes) : Url :=
  let tail := tailOf encQuery (rest.dropWhile isPathByte)
  ⟨scheme, host, asciiStr (hierPath (rest.takeWhile isPathByte)), tail.1, tail.2, "", none, none⟩

/-- Forbidden host code points. -/
def isForbiddenHost (b : UInt8) : Bool :=
  b == 0 || b == 9 || b == 10 || b == 13 || b == 32 || b == 35 || b == 47 || b == 58 || b == 60 || b == 62 || b == 63 || b == 64 || b == 91 ||
  b == 92 || b == 93 || b == 94 || b == 124

/-- The host ends at the first colon outside of brackets. -/
def splitHost (inside : Bool) : Bytes → Bytes × Bytes
  | [] => ([], [])
  | b :: bs =>
    if b = 58 ∧ inside = false then ([], b :: bs)
    else (b :: (splitHost (if b = 91 then true else if b = 93 then false else inside) bs).1,
      (splitHost (if b = 91 then true else if b = 93 then false else inside) bs).2)

/-- Host parser for schemes that are not special. -/
def hostOf (h : Bytes) : Option String :=
  if h.head? = some 91 then
    if h.getLast? = some 93 then (Ipv6.normal h.tail.dropLast).map fun s => "[" ++ asciiStr s ++ "]" else none
  else if h.any isForbiddenHost then none
  else some (asciiStr (h.flatMap encPath))

/-- A port: digits for a number of 16 bits, or nothing. -/
def portOk (p : Bytes) : Bool := p.all isDigit && decide (p.foldl (fun n d => 10 * n + (d.toNat - 48)) 0 ≤ 65535)

/-- What stands after the last `@`. -/
def hostPort (a : Bytes) : Bytes := (a.reverse.takeWhile (· != 64)).reverse

/-- What stands before it. -/
def userInfo (a : Bytes) : Bytes := (a.reverse.dropWhile (· != 64)).tail.reverse

/-- User, host and port, given the host parser. -/
def authorityOf (host : Bytes → Option String) (a : Bytes) : Option String :=
  let hp := hostPort a
  let h := (splitHost false hp).1
  let port := (splitHost false hp).2
  if h = [] ∧ (64 ∈ a ∨ port ≠ []) then none
  else if portOk port.tail then host h
  else none

/-- `USERINFO` set. -/
def encUser (b : UInt8) : Bytes :=
  if isControl b || b == 32 || b == 34 || b == 35 || b == 47 || b == 58 || b == 59 || b == 60 || b == 61 || b == 62 || b == 63 || b == 64 ||
    b == 91 || b == 92 || b == 93 || b == 94 || b == 96 || b == 123 || b == 124 || b == 125 then pct b else [b]

def userOf (a : Bytes) : String := asciiStr (((userInfo a).takeWhile (· != 58)).flatMap encUser)

/-- No password if there is nothing after the colon. -/
def passwordOf (a : Bytes) : Option String :=
  match ((userInfo a).dropWhile (· != 58)).tail with
  | [] => none
  | b :: p => some (asciiStr ((b :: p).flatMap encUser))

def portOf (a : Bytes) : Option Nat :=
  match (splitHost false (hostPort a)).2.tail with
  | [] => none
  | b :: p => some ((b :: p).foldl (fun n d => 10 * n + (d.toNat - 48)) 0)

/-- After the scheme and its colon, a remainder that starts with a slash. -/
def hierarchical (scheme : String) : Bytes → Option Url
  | 47 :: 47 :: r =>
    let a := r.takeWhile fun b => b != 47 && isPathByte b
    match authorityOf hostOf a with
    | none => none
    | some host =>
      some { afterHost scheme host (r.dropWhile fun b => b != 47 && isPathByte b) with user := userOf a, password := passwordOf a, port := portOf a }
  | r => some (afterHost scheme "" r)

/-! ## Special schemes -/

/-- Special schemes know both slashes. -/
def isSlash (b : UInt8) : Bool := b == 47 || b == 92
def upright (b : UInt8) : UInt8 := if b = 92 then 47 else b

/-- `SPECIAL_QUERY` set. -/
def encSpecialQuery (b : UInt8) : Bytes := if b == 39 then pct b else encQuery b

def percentDecode : Bytes → Bytes
  | 37 :: h :: l :: t =>
    match Ipv6.hexVal h, Ipv6.hexVal l with
    | some x, some y => UInt8.ofNat (16 * x + y) :: percentDecode t
    | _, _ => 37 :: percentDecode (h :: l :: t)
  | b :: t => b :: percentDecode t
  | [] => []

/-- Only ASCII, and no label starts with `xn--`. -/
def isPlain (d : Bytes) : Bool :=
  d.all (fun b => decide (b < 128)) && (Ipv4.splitDot d).all fun l => (l.map toLower).take 4 != [120, 110, 45, 45]

/-- `domain_to_ascii`, which amounts to changing letters to lower case for plain domains. -/
def domainOf (D : Deps) (d : Bytes) : Option Bytes := if isPlain d then some (d.map toLower) else D.idna d

/-- Forbidden domain code points. -/
def isForbiddenDomain (b : UInt8) : Bool := isForbiddenHost b || isControl b || b == 37

/-- Host parser for special schemes. -/
def specialHost (D : Deps) (h : Bytes) : Option String :=
  if h.head? = some 91 then hostOf h
  else if h.any isForbiddenHost then none
  else
    match domainOf D (percentDecode h) with
    | none => none
    | some d =>
      if d = [] ∨ d.any isForbiddenDomain = true then none
      else if Ipv4.endsInNumber d then Ipv4.normal d
      else some (asciiStr d)

def defaultPort (scheme : String) : Nat := if scheme = "ftp" then 21 else if scheme = "http" ∨ scheme = "ws" then 80 else 443

/-- After the scheme and its colon, if the scheme is special. The path is never empty. -/
def special (D : Deps) (scheme : String) (rest : Bytes) : Option Url :=
  if scheme = "file" then D.urlFile rest
  else
    let r := rest.dropWhile isSlash
    let a := r.takeWhile fun b => !isSlash b && isPathByte b
    let t := r.dropWhile fun b => !isSlash b && isPathByte b
    match authorityOf (specialHost D) a with
    | none => none
    | some host =>
      let tail := tailOf encSpecialQuery (t.dropWhile isPathByte)
      some ⟨scheme, host, asciiStr (hierPath (47 :: ((t.takeWhile isPathByte).map upright).tail)), tail.1, tail.2, userOf a, passwordOf a,
        if portOf a = some (defaultPort scheme) then none else portOf a⟩

/-- `Url::parse` on bytes. -/
def parseBytes (D : Deps) (input : Bytes) : Option Url :=
  match splitScheme ((trim input).filter fun b => !isTabNl b) with
  | none => none
  | some (s, rest) =>
    let sch := asciiStr s
    if sch ∈ specials ∨ rest.head? = some 47 then
      match (if sch ∈ specials then special D sch rest else hierarchical sch rest) with
      | some u => some { u with scheme := sch }
      | none => none
    else some (opaque_ sch rest)

/-- `Url::parse`. -/
def parse (D : Deps) (s : String) : Option Url := parseBytes D (strBytes s)

end Url
end Verif
