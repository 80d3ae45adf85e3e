import Verif.Base.Deps
import Verif.Base.Digits

/-!
# JSON values, printer and parser

`serde_json::Value`, the compact serde_json printer that libipld-json writes through, and the
serde_json reader that libipld-json reads through (`ucan/src/serde.rs` 20-37).
-/

namespace Verif

/-- `serde_json::Value`. Numbers are integers (i64/u64 range) or finite doubles; objects are
`BTreeMap`s, here association lists (strictly sorted when they come from a `Value`). -/
inductive Json where
  | null
  | bool (b : Bool)
  | int (i : Int)
  | float (f : F64)
  | str (s : String)
  | arr (l : List Json)
  | obj (m : List (String × Json))
deriving Inhabited

namespace Json

mutual
/-- Structural equality test (`PartialEq` of `Value`). -/
def beq : Json → Json → Bool
  | null, null => true
  | bool a, bool b => a == b
  | int a, int b => a == b
  | float a, float b => decide (a = b)
  | str a, str b => a == b
  | arr a, arr b => beqList a b
  | obj a, obj b => beqMembers a b
  | _, _ => false
def beqList : List Json → List Json → Bool
  | [], [] => true
  | a :: as, b :: bs => beq a b && beqList as bs
  | _, _ => false
def beqMembers : List (String × Json) → List (String × Json) → Bool
  | [], [] => true
  | (k, a) :: as, (l, b) :: bs => k == l && (beq a b && beqMembers as bs)
  | _, _ => false
end

mutual
theorem eq_of_beq : ∀ {a b : Json}, beq a b = true → a = b
  | null, b, h => by cases b <;> simp_all [beq]
  | bool _, b, h => by cases b <;> simp_all [beq]
  | int _, b, h => by cases b <;> simp_all [beq]
  | float _, b, h => by cases b <;> simp_all [beq]
  | str _, b, h => by cases b <;> simp_all [beq]
  | arr l, b, h => by
    cases b <;> simp [beq] at h
    rw [eq_of_beqList h]
  | obj l, b, h => by
    cases b <;> simp [beq] at h
    rw [eq_of_beqMembers h]
theorem eq_of_beqList : ∀ {a b : List Json}, beqList a b = true → a = b
  | [], b, h => by cases b <;> simp_all [beqList]
  | x :: xs, b, h => by
    cases b <;> simp [beqList] at h
    rw [eq_of_beq h.1, eq_of_beqList h.2]
theorem eq_of_beqMembers : ∀ {a b : List (String × Json)}, beqMembers a b = true → a = b
  | [], b, h => by cases b <;> simp_all [beqMembers]
  | (k, x) :: xs, b, h => by
    cases b with
    | nil => simp [beqMembers] at h
    | cons q b =>
      obtain ⟨l, y⟩ := q
      simp [beqMembers] at h
      rw [h.1, eq_of_beq h.2.1, eq_of_beqMembers h.2.2]
end

mutual
theorem beq_refl : ∀ a : Json, beq a a = true
  | null => rfl
  | bool _ => by simp [beq]
  | int _ => by simp [beq]
  | float _ => by simp [beq]
  | str _ => by simp [beq]
  | arr l => by simp [beq, beqList_refl l]
  | obj m => by simp [beq, beqMembers_refl m]
theorem beqList_refl : ∀ a : List Json, beqList a a = true
  | [] => rfl
  | x :: xs => by simp [beqList, beq_refl x, beqList_refl xs]
theorem beqMembers_refl : ∀ a : List (String × Json), beqMembers a a = true
  | [] => rfl
  | (k, x) :: xs => by simp [beqMembers, beq_refl x, beqMembers_refl xs]
end

instance : DecidableEq Json := fun a b =>
  if h : beq a b = true then .isTrue (eq_of_beq h)
  else .isFalse (fun e => h (e ▸ beq_refl a))

/-- Induction over values. -/
theorem induct {P : Json → Prop} (null : P Json.null) (bool : ∀ b, P (Json.bool b)) (int : ∀ i, P (Json.int i)) (float : ∀ f, P (Json.float f))
    (str : ∀ s, P (Json.str s)) (arr : ∀ l, (∀ x ∈ l, P x) → P (Json.arr l)) (obj : ∀ m : List (String × Json), (∀ e ∈ m, P e.2) → P (Json.obj m)) (v : Json) : P v := by
  have key : ∀ n (v : Json), sizeOf v < n → P v := by
    intro n
    induction n with
    | zero => intro v h; omega
    | succ n ih =>
      intro v h
      cases v with
      | null => exact null
      | bool b => exact bool b
      | int i => exact int i
      | float f => exact float f
      | str s => exact str s
      | arr l =>
        refine arr l fun x hx => ih x ?_
        have := List.sizeOf_lt_of_mem hx
        simp only [Json.arr.sizeOf_spec] at h
        omega
      | obj m =>
        refine obj m fun e he => ih e.2 ?_
        have := List.sizeOf_lt_of_mem he
        obtain ⟨k, x⟩ := e
        simp only [Json.obj.sizeOf_spec, Prod.mk.sizeOf_spec] at h this ⊢
        omega
  exact key _ v (Nat.lt_succ_self _)

/-! ## Printer -/

def hexDigit (n : Nat) : UInt8 := if n < 10 then UInt8.ofNat (48 + n) else UInt8.ofNat (87 + n)

/-- Escape of one byte inside a JSON string (serde_json `ESCAPE` table). -/
def escByte (c : UInt8) : Bytes :=
  if c = 34 then [92, 34]
  else if c = 92 then [92, 92]
  else if c = 8 then [92, 98]
  else if c = 9 then [92, 116]
  else if c = 10 then [92, 110]
  else if c = 12 then [92, 102]
  else if c = 13 then [92, 114]
  else if c < 32 then [92, 117, 48, 48, hexDigit (c.toNat / 16), hexDigit (c.toNat % 16)]
  else [c]

def escAll (b : Bytes) : Bytes := b.flatMap escByte

/-- A quoted JSON string. -/
def printStr (s : String) : Bytes := 34 :: (escAll (strBytes s) ++ [34])

/-- Decimal digits of a natural number (ASCII). -/
def decBytes (n : Nat) : Bytes :=
  if n = 0 then [48] else (toDigits 10 n).map fun d => UInt8.ofNat (48 + d)

def printInt (i : Int) : Bytes :=
  match i with
  | .ofNat n => decBytes n
  | .negSucc n => 45 :: decBytes (n + 1)

mutual
/-- Compact output of serde_json. -/
def print (D : Deps) : Json → Bytes
  | null => [110, 117, 108, 108]
  | bool true => [116, 114, 117, 101]
  | bool false => [102, 97, 108, 115, 101]
  | int i => printInt i
  | float f => D.f64Print f
  | str s => printStr s
  | arr l => 91 :: printElems D l
  | obj m => 123 :: printMembers D m
/-- Elements and the closing bracket. -/
def printElems (D : Deps) : List Json → Bytes
  | [] => [93]
  | x :: xs => print D x ++ printElemsTail D xs
def printElemsTail (D : Deps) : List Json → Bytes
  | [] => [93]
  | x :: xs => 44 :: (print D x ++ printElemsTail D xs)
/-- Members and the closing brace. -/
def printMembers (D : Deps) : List (String × Json) → Bytes
  | [] => [125]
  | (k, x) :: xs => printStr k ++ 58 :: (print D x ++ printMembersTail D xs)
def printMembersTail (D : Deps) : List (String × Json) → Bytes
  | [] => [125]
  | (k, x) :: xs => 44 :: (printStr k ++ 58 :: (print D x ++ printMembersTail D xs))
end

/-! ## Parser -/

def isWs (c : UInt8) : Bool := c == 32 || c == 10 || c == 13 || c == 9

def skipWs : Bytes → Bytes
  | [] => []
  | c :: cs => if isWs c then skipWs cs else c :: cs

def hexVal (c : UInt8) : Option Nat :=
  let n := c.toNat
  if 48 ≤ n ∧ n < 58 then some (n - 48)
  else if 97 ≤ n ∧ n < 103 then some (n - 87)
  else if 65 ≤ n ∧ n < 71 then some (n - 55)
  else none

def hex4 (a b c d : UInt8) : Option Nat :=
  match hexVal a, hexVal b, hexVal c, hexVal d with
  | some a, some b, some c, some d => some (((a * 16 + b) * 16 + c) * 16 + d)
  | _, _, _, _ => none

/-- The simple escapes. -/
def simpleEsc (c : UInt8) : Option UInt8 :=
  if c = 34 then some 34
  else if c = 92 then some 92
  else if c = 47 then some 47
  else if c = 98 then some 8
  else if c = 102 then some 12
  else if c = 110 then some 10
  else if c = 114 then some 13
  else if c = 116 then some 9
  else none

/-- Contents of a string up to the closing quote, unescaped, and the rest of the input. -/
def pStrBytes : Bytes → Option (Bytes × Bytes)
  | [] => none
  | 34 :: r => some ([], r)
  | 92 :: 117 :: a :: b :: c :: d :: r =>
    match hex4 a b c d with
    | none => none
    | some n =>
      if 0xDC00 ≤ n ∧ n < 0xE000 then none
      else if 0xD800 ≤ n ∧ n < 0xDC00 then
        match r with
        | 92 :: 117 :: a' :: b' :: c' :: d' :: r' =>
          match hex4 a' b' c' d' with
          | none => none
          | some m =>
            if 0xDC00 ≤ m ∧ m < 0xE000 then
              match pStrBytes r' with
              | none => none
              | some (s, rest) =>
                some (String.utf8EncodeChar (Char.ofNat ((n - 0xD800) * 0x400 + (m - 0xDC00) + 0x10000)) ++ s, rest)
            else none
        | _ => none
      else
        match pStrBytes r with
        | none => none
        | some (s, rest) => some (String.utf8EncodeChar (Char.ofNat n) ++ s, rest)
  | 92 :: e :: r =>
    match simpleEsc e with
    | none => none
    | some x =>
      match pStrBytes r with
      | none => none
      | some (s, rest) => some (x :: s, rest)
  | c :: r =>
    if c < 32 ∨ c = 92 then none
    else match pStrBytes r with
      | none => none
      | some (s, rest) => some (c :: s, rest)

/-- A string after its opening quote; the unescaped bytes must be UTF-8. -/
def pStr (b : Bytes) : Option (String × Bytes) :=
  match pStrBytes b with
  | none => none
  | some (s, rest) =>
    match bytesStr? s with
    | none => none
    | some t => some (t, rest)

def isDigit (c : UInt8) : Bool := decide (48 ≤ c) && decide (c ≤ 57)

def spanDigits : Bytes → Bytes × Bytes
  | [] => ([], [])
  | c :: cs => if isDigit c then (c :: (spanDigits cs).1, (spanDigits cs).2) else ([], c :: cs)

def decVal (ds : Bytes) : Nat := ofDigits 10 (ds.map fun c => c.toNat - 48)

/-- Fraction part: `none` is an error, otherwise the lexeme (empty if absent) and the rest. -/
def pFrac : Bytes → Option (Bytes × Bytes)
  | 46 :: r => if (spanDigits r).1 = [] then none else some (46 :: (spanDigits r).1, (spanDigits r).2)
  | r => some ([], r)

/-- Exponent digits after `e` and the optional sign `sg`. -/
def pExpDigits (pre : Bytes) (r : Bytes) : Option (Bytes × Bytes) :=
  if (spanDigits r).1 = [] then none else some (pre ++ (spanDigits r).1, (spanDigits r).2)

/-- Exponent part. -/
def pExp : Bytes → Option (Bytes × Bytes)
  | e :: r =>
    if e = 101 ∨ e = 69 then
      match r with
      | s :: r' => if s = 43 ∨ s = 45 then pExpDigits [e, s] r' else pExpDigits [e] r
      | [] => none
    else some ([], e :: r)
  | [] => some ([], [])

/-- Number without its sign. -/
def pUnsigned (D : Deps) (neg : Bool) (b : Bytes) : Option (Json × Bytes) :=
  let ip := (spanDigits b).1
  let r1 := (spanDigits b).2
  if ip = [] then none
  else if ip.head? = some 48 ∧ ip.length ≠ 1 then none
  else
    match pFrac r1 with
    | none => none
    | some (fr, r2) =>
      match pExp r2 with
      | none => none
      | some (ex, r3) =>
        let n := decVal ip
        let lex := (if neg then [45] else []) ++ ip ++ fr ++ ex
        if fr = [] ∧ ex = [] ∧ neg = false ∧ n < 2 ^ 64 then some (int (Int.ofNat n), r3)
        else if fr = [] ∧ ex = [] ∧ neg = true ∧ n ≠ 0 ∧ n ≤ 2 ^ 63 then some (int (-(Int.ofNat n)), r3)
        else match D.f64Parse lex with
          | none => none
          | some f => some (float f, r3)

def pNumber (D : Deps) : Bytes → Option (Json × Bytes)
  | 45 :: r => pUnsigned D true r
  | r => pUnsigned D false r

mutual
/-- A value, after optional whitespace. `f` is fuel (never exhausted when it exceeds the input
length), `d` is serde_json's `remaining_depth`. -/
def pValue (D : Deps) : Nat → Nat → Bytes → Option (Json × Bytes)
  | 0, _, _ => none
  | f + 1, d, b =>
    match skipWs b with
    | 110 :: 117 :: 108 :: 108 :: r => some (null, r)
    | 116 :: 114 :: 117 :: 101 :: r => some (bool true, r)
    | 102 :: 97 :: 108 :: 115 :: 101 :: r => some (bool false, r)
    | 34 :: r =>
      match pStr r with
      | none => none
      | some (s, r') => some (str s, r')
    | 91 :: r =>
      if d ≤ 1 then none
      else match pElems D f (d - 1) r with
        | none => none
        | some (l, r') => some (arr l, r')
    | 123 :: r =>
      if d ≤ 1 then none
      else match pMembers D f (d - 1) r with
        | none => none
        | some (m, r') => some (obj m, r')
    | r => pNumber D r
/-- After `[`. -/
def pElems (D : Deps) : Nat → Nat → Bytes → Option (List Json × Bytes)
  | 0, _, _ => none
  | f + 1, d, b =>
    match skipWs b with
    | 93 :: r => some ([], r)
    | r =>
      match pValue D f d r with
      | none => none
      | some (x, r') =>
        match pElemsTail D f d r' with
        | none => none
        | some (xs, r'') => some (x :: xs, r'')
/-- After an element. -/
def pElemsTail (D : Deps) : Nat → Nat → Bytes → Option (List Json × Bytes)
  | 0, _, _ => none
  | f + 1, d, b =>
    match skipWs b with
    | 93 :: r => some ([], r)
    | 44 :: r =>
      match pValue D f d r with
      | none => none
      | some (x, r') =>
        match pElemsTail D f d r' with
        | none => none
        | some (xs, r'') => some (x :: xs, r'')
    | _ => none
/-- After `{`. -/
def pMembers (D : Deps) : Nat → Nat → Bytes → Option (List (String × Json) × Bytes)
  | 0, _, _ => none
  | f + 1, d, b =>
    match skipWs b with
    | 125 :: r => some ([], r)
    | r => pMember D f d r
/-- One member and what follows it. -/
def pMember (D : Deps) : Nat → Nat → Bytes → Option (List (String × Json) × Bytes)
  | 0, _, _ => none
  | f + 1, d, b =>
    match skipWs b with
    | 34 :: r =>
      match pStr r with
      | none => none
      | some (k, r') =>
        match skipWs r' with
        | 58 :: r'' =>
          match pValue D f d r'' with
          | none => none
          | some (x, r3) =>
            match pMembersTail D f d r3 with
            | none => none
            | some (xs, r4) => some ((k, x) :: xs, r4)
        | _ => none
    | _ => none
/-- After a member. -/
def pMembersTail (D : Deps) : Nat → Nat → Bytes → Option (List (String × Json) × Bytes)
  | 0, _, _ => none
  | f + 1, d, b =>
    match skipWs b with
    | 125 :: r => some ([], r)
    | 44 :: r => pMember D f d r
    | _ => none
end

/-- serde_json's recursion limit. -/
def depthLimit : Nat := 128

/-- Reading one JSON value from a buffer. Members keep their textual order and duplicates. -/
def parse (D : Deps) (b : Bytes) : Option Json :=
  match pValue D (2 * b.length + 2) depthLimit b with
  | none => none
  | some (v, r) => if D.jsonCheckEnd && !(skipWs r).isEmpty then none else some v

end Json
end Verif
