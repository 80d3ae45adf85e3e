import Verif.Model.Ipv6

/-!
# IPv4 addresses in hosts (`url` crate, `host.rs`: `ends_in_a_number`, `parse_ipv4number`, `parse_ipv4addr`)

Numbers are unbounded here; the crate gives up on those beyond 32 bits, which are no part of an address either.
-/

namespace Verif
namespace Ipv4

/-- Pieces between dots; never empty. -/
def splitDot : Bytes → List Bytes
  | [] => [[]]
  | b :: bs =>
    if b = 46 then [] :: splitDot bs
    else match splitDot bs with
      | h :: t => (b :: h) :: t
      | [] => [[b]]

/-- The parts of a domain; a dot at its end does not count. -/
def parts (d : Bytes) : List Bytes :=
  let ps := splitDot d
  if 1 < ps.length ∧ ps.getLast? = some [] then ps.dropLast else ps

def isDigitOf (radix : Nat) (b : UInt8) : Bool := decide ((Ipv6.hexVal b).getD 16 < radix)

def number (radix : Nat) (ds : Bytes) : Option Nat :=
  if ds.all (isDigitOf radix) then some (ds.foldl (fun n d => radix * n + (Ipv6.hexVal d).getD 0) 0) else none

/-- `parse_ipv4number`. -/
def value : Bytes → Option Nat
  | [] => none
  | [b] => number 10 [b]
  | b :: x :: ds =>
    if b = 48 then
      if x = 120 ∨ x = 88 then number 16 ds else number 8 (x :: ds)
    else number 10 (b :: x :: ds)

/-- `ends_in_a_number`. -/
def endsInNumber (d : Bytes) : Bool :=
  match (parts d).getLast? with
  | none => false
  | some l => (l != [] && l.all Ipv6.isDec) || (value l).isSome

def values : List Bytes → Option (List Nat)
  | [] => some []
  | p :: ps =>
    match value p with
    | none => none
    | some n =>
      match values ps with
      | none => none
      | some ns => some (n :: ns)

/-- The address, given how many of its bytes are still missing: the last number supplies all of them. -/
def combine : Nat → List Nat → Option Nat
  | 0, _ => none
  | _ + 1, [] => none
  | k + 1, [n] => if n < 256 ^ (k + 1) then some n else none
  | k + 1, n :: m :: ns =>
    if n < 256 then
      match combine k (m :: ns) with
      | none => none
      | some v => some (n * 256 ^ k + v)
    else none

/-- `Display` of `Ipv4Addr`. -/
def text (a : Nat) : String :=
  toString (a / 256 ^ 3) ++ "." ++ toString (a / 256 ^ 2 % 256) ++ "." ++ toString (a / 256 % 256) ++ "." ++ toString (a % 256)

/-- `parse_ipv4addr`, printed. -/
def normal (d : Bytes) : Option String :=
  match values (parts d) with
  | none => none
  | some ns => (combine 4 ns).map text

end Ipv4
end Verif
