import Verif.Base.Bytes

/-!
# IPv6 addresses in hosts (`url` crate, `host.rs`: `parse_ipv6addr`, `write_ipv6`)

An address is its eight pieces of 16 bits.
-/

namespace Verif
namespace Ipv6

/-- The value of a hexadecimal digit. -/
def hexVal (b : UInt8) : Option Nat :=
  if 48 ≤ b && b ≤ 57 then some (b.toNat - 48)
  else if 65 ≤ b && b ≤ 70 then some (b.toNat - 55)
  else if 97 ≤ b && b ≤ 102 then some (b.toNat - 87)
  else none

def isHex (b : UInt8) : Bool := (hexVal b).isSome

def hexNumber (ds : Bytes) : Nat := ds.foldl (fun n d => 16 * n + (hexVal d).getD 0) 0

def isDec (b : UInt8) : Bool := 48 ≤ b && b ≤ 57

def decNumber (ds : Bytes) : Nat := ds.foldl (fun n d => 10 * n + (d.toNat - 48)) 0

/-- One of the four numbers of a dotted part: no zero before other digits, at most 255. -/
def octet (x : Bytes) : Option (Nat × Bytes) :=
  let ds := x.takeWhile isDec
  if ds = [] ∨ (ds.length > 1 ∧ ds.head? = some 48) ∨ decNumber ds > 255 then none
  else some (decNumber ds, x.dropWhile isDec)

/-- The dotted part at the end of an address: two pieces. -/
def quad (x : Bytes) : Option (Nat × Nat) :=
  match octet x with
  | some (a, 46 :: x1) =>
    match octet x1 with
    | some (b, 46 :: x2) =>
      match octet x2 with
      | some (c, 46 :: x3) =>
        match octet x3 with
        | some (d, []) => some (256 * a + b, 256 * c + d)
        | _ => none
      | _ => none
    | _ => none
  | _ => none

/-- The loop over the pieces: room for further ones, those read, and where the gap ends (which counts as a piece). -/
def loop : Nat → List Nat → Option Nat → Bytes → Option (List Nat × Option Nat)
  | _, acc, gap, [] => some (acc, gap)
  | 0, _, _, _ :: _ => none
  | n + 1, acc, gap, b :: bs =>
    if b = 58 then
      if gap.isSome then none else loop n (acc ++ [0]) (some (acc.length + 1)) bs
    else
      let ds := ((b :: bs).take 4).takeWhile isHex
      match (b :: bs).drop ds.length with
      | [] => some (acc ++ [hexNumber ds], gap)
      | c :: cs =>
        if c = 58 then
          if cs = [] then none else loop n (acc ++ [hexNumber ds]) gap cs
        else if c = 46 then
          if n = 0 then none else (quad (b :: bs)).map fun q => (acc ++ [q.1, q.2], gap)
        else none

/-- A gap is filled with zeros; without one there are eight pieces. -/
def finish : List Nat × Option Nat → Option (List Nat)
  | (acc, some k) => some (acc.take k ++ List.replicate (8 - acc.length) 0 ++ acc.drop k)
  | (acc, none) => if acc.length = 8 then some acc else none

/-- `parse_ipv6addr`. -/
def read (x : Bytes) : Option (List Nat) :=
  match x with
  | 58 :: 58 :: r => (loop 7 [0] (some 1) r).bind finish
  | 58 :: _ => none
  | _ => (loop 8 [] none x).bind finish

/-- A lower case digit. -/
def digit (n : Nat) : UInt8 := UInt8.ofNat (if n < 10 then 48 + n else 87 + n)

/-- `{:x}` of a piece. -/
def hex (n : Nat) : Bytes :=
  if n < 16 then [digit n]
  else if n < 256 then [digit (n / 16), digit (n % 16)]
  else if n < 4096 then [digit (n / 256), digit (n / 16 % 16), digit (n % 16)]
  else [digit (n / 4096), digit (n / 256 % 16), digit (n / 16 % 16), digit (n % 16)]

def join : List Nat → Bytes
  | [] => []
  | [p] => hex p
  | p :: q :: r => hex p ++ 58 :: join (q :: r)

/-- Zeros at the start. -/
def zeroRun : List Nat → Nat
  | [] => 0
  | p :: ps => if p = 0 then zeroRun ps + 1 else 0

/-- `longest_zero_sequence`: start and length of the first of the longest runs of zeros. -/
def longest (i : Nat) : List Nat → Nat × Nat
  | [] => (i, 0)
  | p :: ps => if (longest (i + 1) ps).2 ≤ zeroRun (p :: ps) then (i, zeroRun (p :: ps)) else longest (i + 1) ps

/-- `write_ipv6`. -/
def write (ps : List Nat) : Bytes :=
  let g := longest 0 ps
  if g.2 < 2 then join ps else join (ps.take g.1) ++ 58 :: 58 :: join (ps.drop (g.1 + g.2))

/-- The normal form of the text of an address. -/
def normal (x : Bytes) : Option Bytes := (read x).map write

end Ipv6
end Verif
