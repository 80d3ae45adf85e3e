import Verif.Base.Deps
import Verif.Spec.Encoding
import Verif.Spec.Ipv4

/-!
# Specification of resource URLs

The URL Standard for all schemes but `file`, as relations between texts and what is read from them.
-/

namespace Verif.Spec

/-! ## Characters -/

/-- Characters that stand for themselves in a host and in a path without slash at its start. -/
def Visible (b : UInt8) : Prop := 32 ≤ b.toNat ∧ b.toNat < 127
/-- In a query. -/
def QueryChar (b : UInt8) : Prop := Visible b ∧ b ∉ strBytes " \"#<>"
/-- In a fragment. -/
def FragmentChar (b : UInt8) : Prop := Visible b ∧ b ∉ strBytes " \"<>`"
/-- In a query of a special scheme. -/
def SpecialQueryChar (b : UInt8) : Prop := QueryChar b ∧ b ∉ strBytes "'"
/-- In a user name or password. -/
def UserChar (b : UInt8) : Prop := Visible b ∧ b ∉ strBytes " \"#/:;<=>?@[\\]^`{|}"
/-- In a segment of a path. -/
def SegmentChar (b : UInt8) : Prop := Visible b ∧ b ∉ strBytes " \"#<>?`{}"

/-- All other bytes are written as a percent sign and two digits. -/
inductive Escaped (keep : UInt8 → Prop) : Bytes → Bytes → Prop
  | nil : Escaped keep [] []
  | keep {b : UInt8} {t t' : Bytes} : keep b → Escaped keep t t' → Escaped keep (b :: t) (b :: t')
  | escape {b h l : UInt8} {t t' : Bytes} : ¬ keep b → (strBytes "0123456789ABCDEF")[b.toNat / 16]? = some h →
      (strBytes "0123456789ABCDEF")[b.toNat % 16]? = some l → Escaped keep t t' → Escaped keep (b :: t) (37 :: h :: l :: t')

/-- One by one. -/
def EscapedAll (keep : UInt8 → Prop) (ss ss' : List Bytes) : Prop :=
  ss'.length = ss.length ∧ ∀ (i : Nat) (s s' : Bytes), ss[i]? = some s → ss'[i]? = some s' → Escaped keep s s'

/-! ## Paths -/

/-- Spellings of the dot. -/
def Dot (s : Bytes) : Prop := s = strBytes "." ∨ s = strBytes "%2e" ∨ s = strBytes "%2E"
/-- Spellings of two dots. -/
def DotDot (s : Bytes) : Prop := ∃ a b, Dot a ∧ Dot b ∧ s = a ++ b

/-- Where segments lead from the root: a dot stays, two dots go up (not beyond the root), everything else goes down. -/
inductive Place : List Bytes → List Bytes → Prop
  | root : Place [] []
  | down {p q : List Bytes} {s : Bytes} : Place p q → ¬ Dot s → ¬ DotDot s → Place (p ++ [s]) (q ++ [s])
  | stay {p q : List Bytes} {s : Bytes} : Place p q → Dot s → Place (p ++ [s]) q
  | up {p q : List Bytes} {s x : Bytes} : Place p (q ++ [x]) → DotDot s → Place (p ++ [s]) q
  | top {p : List Bytes} {s : Bytes} : Place p [] → DotDot s → Place (p ++ [s]) []

/-- The last segment is made of dots. -/
def EndsInDots (p : List Bytes) : Prop := ∃ s, p.getLast? = some s ∧ (Dot s ∨ DotDot s)

/-- The normal form: the place; with a slash at its end if the last segment is made of dots. -/
def Normalised (p out : List Bytes) : Prop :=
  ∃ q, Place p q ∧ ((EndsInDots p ∧ out = q ++ [[]]) ∨ (¬ EndsInDots p ∧ out = q))

/-- The text of segments. -/
def slashed (p : List Bytes) : Bytes := p.flatMap fun s => 47 :: s

/-- The segments read. -/
def SegmentsText (segs out : List Bytes) : Prop := ∃ enc, EscapedAll SegmentChar segs enc ∧ Normalised enc out

/-- The path read from segments. -/
def PathText (segs : List Bytes) (path : Bytes) : Prop := ∃ out, SegmentsText segs out ∧ path = slashed out

/-! ## The other parts -/

/-- A letter and its lower case form, or another one of these characters. -/
def Folds (others : String) (x x' : UInt8) : Prop :=
  (∃ i : Nat, (strBytes "ABCDEFGHIJKLMNOPQRSTUVWXYZ")[i]? = some x ∧ (strBytes "abcdefghijklmnopqrstuvwxyz")[i]? = some x') ∨
  (x = x' ∧ (x ∈ strBytes "abcdefghijklmnopqrstuvwxyz" ∨ x ∈ strBytes others))

/-- The scheme in lower case: a letter, then letters, digits and `+`, `-`, `.`. -/
def SchemeText (raw low : Bytes) : Prop :=
  ∃ c r c' r', raw = c :: r ∧ low = c' :: r' ∧ Folds "" c c' ∧ r'.length = r.length ∧
    ∀ (i : Nat) (x x' : UInt8), r[i]? = some x → r'[i]? = some x' → Folds "0123456789+-." x x'

/-- The schemes with rules of their own. -/
def Special (scheme : String) : Prop := scheme ∈ ["http", "https", "ws", "wss", "ftp", "file"]

/-- Query and fragment. -/
inductive TailText (keep : UInt8 → Prop) : Bytes → Option String → Option String → Prop
  | none : TailText keep [] none none
  | query {q : Bytes} {q' : String} : 35 ∉ q → Escaped keep q (strBytes q') → TailText keep (63 :: q) (some q') none
  | fragment {f : Bytes} {f' : String} : Escaped FragmentChar f (strBytes f') → TailText keep (35 :: f) none (some f')
  | both {q f : Bytes} {q' f' : String} : 35 ∉ q → Escaped keep q (strBytes q') → Escaped FragmentChar f (strBytes f') →
      TailText keep (63 :: (q ++ 35 :: f)) (some q') (some f')

/-- A host: a name, or an address in brackets. -/
inductive HostText : Bytes → String → Prop
  | name {h : Bytes} {host : String} : (∀ b ∈ h, b ∉ strBytes "\x00\t\n\r #/:<>?@[\\]^|") → Escaped Visible h (strBytes host) → HostText h host
  | address {x : Bytes} {ps : List Nat} {s : String} : AddressText x ps → NormalText ps (strBytes s) → HostText (91 :: (x ++ [93])) ("[" ++ s ++ "]")

/-- A port: a number of 16 bits; it may be missing after the colon. -/
inductive PortText : Bytes → Option Nat → Prop
  | none : PortText [] none
  | missing : PortText [58] none
  | given {p : Bytes} {n : Nat} : p ≠ [] → RadixText 10 p n → n ≤ 65535 → PortText (58 :: p) (some n)

/-- A user and a password, which may be missing after the colon. -/
inductive UserText : Bytes → String → Option String → Prop
  | none : UserText [] "" none
  | user {x : Bytes} {u : String} : 58 ∉ x → Escaped UserChar x (strBytes u) → UserText (x ++ [64]) u none
  | missing {x : Bytes} {u : String} : 58 ∉ x → Escaped UserChar x (strBytes u) → UserText (x ++ [58, 64]) u none
  | password {x y : Bytes} {u p : String} : 58 ∉ x → y ≠ [] → Escaped UserChar x (strBytes u) → Escaped UserChar y (strBytes p) →
      UserText (x ++ 58 :: (y ++ [64])) u (some p)

/-- User, host and port, given the texts of hosts. There may be no host, but then neither user nor port. -/
def AuthorityText (hosts : Bytes → String → Prop) (a : Bytes) (host user : String) (password : Option String) (port : Option Nat) : Prop :=
  ∃ us h pt, a = us ++ h ++ pt ∧ UserText us user password ∧ PortText pt port ∧ hosts h host ∧ (h = [] → us = [] ∧ pt = [])

/-- Without the characters that end a segment. -/
def NoMark (b : Bytes) : Prop := ∀ x ∈ b, x ∉ strBytes "/?#"

/-! ## URLs -/

/-- Nothing is read before the path. -/
def NoAuthority (u : Url) : Prop := u.host = "" ∧ u.user = "" ∧ u.password = none ∧ u.port = none

/-- A text without space around it, and what is read, if the scheme is not special. -/
inductive UrlText : Bytes → Url → Prop
  | opaque {raw path tail : Bytes} {u : Url} : SchemeText raw (strBytes u.scheme) → ¬ Special u.scheme → path.head? ≠ some 47 →
      (∀ b ∈ path, b ∉ strBytes "?#") → NoAuthority u → Escaped Visible path (strBytes u.path) → TailText QueryChar tail u.query u.fragment →
      UrlText (raw ++ 58 :: (path ++ tail)) u
  | rooted {raw tail : Bytes} {segs : List Bytes} {u : Url} : SchemeText raw (strBytes u.scheme) → ¬ Special u.scheme → segs ≠ [] →
      (segs.head? = some [] → segs.length = 1) → (∀ s ∈ segs, NoMark s) → NoAuthority u → PathText segs (strBytes u.path) →
      TailText QueryChar tail u.query u.fragment → UrlText (raw ++ 58 :: (slashed segs ++ tail)) u
  | authority {raw a tail : Bytes} {segs : List Bytes} {u : Url} : SchemeText raw (strBytes u.scheme) → ¬ Special u.scheme → NoMark a →
      (∀ s ∈ segs, NoMark s) → AuthorityText HostText a u.host u.user u.password u.port → PathText segs (strBytes u.path) →
      TailText QueryChar tail u.query u.fragment → UrlText (raw ++ 58 :: 47 :: 47 :: (a ++ slashed segs ++ tail)) u

/-! ## Special schemes -/

/-- Bytes may be written as a percent sign and two digits. -/
inductive Unescaped : Bytes → Bytes → Prop
  | nil : Unescaped [] []
  | escape {h l b : UInt8} {x y : Nat} {t t' : Bytes} : AddressDigit h x → AddressDigit l y → b.toNat = 16 * x + y → Unescaped t t' →
      Unescaped (37 :: h :: l :: t) (b :: t')
  | keep {b : UInt8} {t t' : Bytes} : (∀ h l r x y, b :: t = 37 :: h :: l :: r → AddressDigit h x → ¬ AddressDigit l y) → Unescaped t t' →
      Unescaped (b :: t) (b :: t')

/-- The label starts with `xn--`, in either case. -/
def Punycode (l : Bytes) : Prop := ∃ x n r, l = x :: n :: 45 :: 45 :: r ∧ x ∈ strBytes "xX" ∧ n ∈ strBytes "nN"

/-- Domains for which no table of characters is needed. -/
def PlainDomain (d : Bytes) : Prop := (∀ b ∈ d, b.toNat < 128) ∧ ∀ ls, Dotted d ls → ∀ l ∈ ls, ¬ Punycode l

/-- Letters in lower case, everything else as it is. -/
def LowerText (d low : Bytes) : Prop :=
  low.length = d.length ∧ ∀ (i : Nat) (x x' : UInt8), d[i]? = some x → low[i]? = some x' →
    Folds "" x x' ∨ (x = x' ∧ x ∉ strBytes "ABCDEFGHIJKLMNOPQRSTUVWXYZ")

/-- The domain that a text denotes, given what is to become of those that are not plain. -/
def DomainText (idna : Bytes → Option Bytes) (h d : Bytes) : Prop :=
  (∀ b ∈ h, b ∉ strBytes "\x00\t\n\r #/:<>?@[\\]^|") ∧
  ∃ raw, Unescaped h raw ∧ ((PlainDomain raw ∧ LowerText raw d) ∨ (¬ PlainDomain raw ∧ idna raw = some d)) ∧
    d ≠ [] ∧ ∀ b ∈ d, Visible b ∧ b ∉ strBytes "\x00\t\n\r #/:<>?@[\\]^|%"

/-- A host of a special scheme: a name, an address of four numbers, or an address in brackets. -/
inductive SpecialHostText (idna : Bytes → Option Bytes) : Bytes → String → Prop
  | name {h : Bytes} {host : String} : DomainText idna h (strBytes host) → ¬ Numeric (strBytes host) → SpecialHostText idna h host
  | numbers {h d : Bytes} {host : String} : DomainText idna h d → Numeric d → Address4Text d host → SpecialHostText idna h host
  | address {x : Bytes} {ps : List Nat} {s : String} : AddressText x ps → NormalText ps (strBytes s) →
      SpecialHostText idna (91 :: (x ++ [93])) ("[" ++ s ++ "]")

/-- The ports that need not be given. -/
def defaultPorts : List (String × Nat) := [("http", 80), ("https", 443), ("ws", 80), ("wss", 443), ("ftp", 21)]

/-- Without the characters that end a segment in special schemes. -/
def NoSpecialMark (b : Bytes) : Prop := ∀ x ∈ b, x ∉ strBytes "/\\?#"

/-- Segments after slashes of either kind. -/
inductive Slashes : List Bytes → Bytes → Prop
  | nil : Slashes [] []
  | cons {b : UInt8} {s : Bytes} {segs : List Bytes} {r : Bytes} : b ∈ strBytes "/\\" → NoSpecialMark s → Slashes segs r → Slashes (s :: segs) (b :: (s ++ r))

/-- A text without space around it, and what is read, if the scheme is special (but not `file`). Any number of slashes may follow the scheme. The path
is never empty. -/
def SpecialText (idna : Bytes → Option Bytes) (t : Bytes) (u : Url) : Prop :=
  ∃ raw sl a segs p tail n port, t = raw ++ 58 :: (sl ++ a ++ p ++ tail) ∧ SchemeText raw (strBytes u.scheme) ∧ (u.scheme, n) ∈ defaultPorts ∧
    (∀ b ∈ sl, b ∈ strBytes "/\\") ∧ NoSpecialMark a ∧ AuthorityText (SpecialHostText idna) a u.host u.user u.password port ∧
    u.port = (if port = some n then none else port) ∧ Slashes segs p ∧ PathText (if segs = [] then [[]] else segs) (strBytes u.path) ∧
    TailText SpecialQueryChar tail u.query u.fragment

/-- The text of a WNFS resource, its host and its segments; user, port, query and fragment do not count. -/
def WnfsText (t : Bytes) (host : String) (segs : List Bytes) : Prop :=
  ∃ raw a tail q f, t = raw ++ 58 :: 47 :: 47 :: (a ++ slashed segs ++ tail) ∧ SchemeText raw (strBytes "wnfs") ∧ NoMark a ∧
    (∀ s ∈ segs, NoMark s) ∧ (∃ us pw pt, AuthorityText HostText a host us pw pt) ∧ host ≠ "" ∧ TailText QueryChar tail q f

/-- Control characters and spaces around the text are dropped, and tabs and line ends anywhere. -/
def Tidied (t t' : Bytes) : Prop :=
  ∃ pre m post, t = pre ++ m ++ post ∧ (∀ b ∈ pre, b.toNat ≤ 32) ∧ (∀ b ∈ post, b.toNat ≤ 32) ∧ (∀ b ∈ m.head?, 32 < b.toNat) ∧
    (∀ b ∈ m.getLast?, 32 < b.toNat) ∧ t' = m.filter fun b => b ∉ strBytes "\t\n\r"

end Verif.Spec
