import Verif.Codec.Json

/-! # The JSON parser inverts the printer -/

namespace Verif.Json

/-- What may follow a number: not another number character. -/
def NumEnd (rest : Bytes) : Prop :=
  ∀ c, rest.head? = some c → isDigit c = false ∧ c ≠ 46 ∧ c ≠ 101 ∧ c ≠ 69

/-- The double survives printing and reading. -/
def FloatOk (D : Deps) (f : F64) : Prop :=
  (∃ c r, D.f64Print f = c :: r ∧ (isDigit c = true ∨ c = 45)) ∧
  ∀ rest, NumEnd rest → pNumber D (D.f64Print f ++ rest) = some (float f, rest)

mutual
/-- Numbers are in serde_json's range and doubles survive text conversion. -/
def NumOk (D : Deps) : Json → Prop
  | int i => -(2 ^ 63) ≤ i ∧ i < 2 ^ 64
  | float f => FloatOk D f
  | arr l => NumOkList D l
  | obj m => NumOkMembers D m
  | _ => True
def NumOkList (D : Deps) : List Json → Prop
  | [] => True
  | x :: xs => NumOk D x ∧ NumOkList D xs
def NumOkMembers (D : Deps) : List (String × Json) → Prop
  | [] => True
  | (_, x) :: xs => NumOk D x ∧ NumOkMembers D xs
end

mutual
/-- Nesting depth of containers. -/
def depth : Json → Nat
  | arr l => 1 + depthList l
  | obj m => 1 + depthMembers m
  | _ => 0
def depthList : List Json → Nat
  | [] => 0
  | x :: xs => max (depth x) (depthList xs)
def depthMembers : List (String × Json) → Nat
  | [] => 0
  | (_, x) :: xs => max (depth x) (depthMembers xs)
end

/-! ## Strings -/

theorem pStrBytes_cons {c : UInt8} {r : Bytes} (h1 : ¬ c < 32) (h2 : c ≠ 34) (h3 : c ≠ 92) :
    pStrBytes (c :: r) = (pStrBytes r).map fun p => (c :: p.1, p.2) := by
  rw [pStrBytes.eq_def]
  split
  · rename_i h; cases h
  · rename_i h; cases h; exact absurd rfl h2
  · rename_i h; cases h; exact absurd rfl h3
  · rename_i h; cases h; exact absurd rfl h3
  · rename_i h; cases h
    rw [if_neg (by simp [h1, h3])]
    cases pStrBytes r with
    | none => rfl
    | some p => rfl

theorem pStrBytes_simple {e x : UInt8} {r : Bytes} (h : simpleEsc e = some x) :
    pStrBytes (92 :: e :: r) = (pStrBytes r).map fun p => (x :: p.1, p.2) := by
  rw [pStrBytes.eq_def]
  split
  · rename_i h; cases h
  · rename_i h; cases h
  · rename_i h'; cases h'; simp [simpleEsc] at h
  · rename_i h'; cases h'
    rw [h]
    simp only []
    cases pStrBytes r with
    | none => rfl
    | some p => rfl
  · rename_i h1 h2 h3 h'; cases h'; exact (h3 _ _ rfl rfl).elim

theorem pStrBytes_hex {a b c d : UInt8} {n : Nat} {r : Bytes} (h : hex4 a b c d = some n)
    (hn : n < 0xD800) :
    pStrBytes (92 :: 117 :: a :: b :: c :: d :: r) =
      (pStrBytes r).map fun p => (String.utf8EncodeChar (Char.ofNat n) ++ p.1, p.2) := by
  conv => lhs; rw [pStrBytes]
  rw [h]
  simp only []
  rw [if_neg (by omega), if_neg (by omega)]
  cases pStrBytes r with
  | none => rfl
  | some p => rfl

theorem pStrBytes_escByte (c : UInt8) (r : Bytes) :
    pStrBytes (escByte c ++ r) = (pStrBytes r).map fun p => (c :: p.1, p.2) := by
  unfold escByte
  split
  · rename_i h; subst h; exact pStrBytes_simple (by decide)
  split
  · rename_i h; subst h; exact pStrBytes_simple (by decide)
  split
  · rename_i h; subst h; exact pStrBytes_simple (by decide)
  split
  · rename_i h; subst h; exact pStrBytes_simple (by decide)
  split
  · rename_i h; subst h; exact pStrBytes_simple (by decide)
  split
  · rename_i h; subst h; exact pStrBytes_simple (by decide)
  split
  · rename_i h; subst h; exact pStrBytes_simple (by decide)
  split
  · rename_i h
    have hc : c.toNat < 32 := by simpa using UInt8.lt_iff_toNat_lt.1 h
    have hx : ∀ c : UInt8, (decide (c.toNat < 32) → hex4 48 48 (hexDigit (c.toNat / 16)) (hexDigit (c.toNat % 16)) = some c.toNat) :=
      forall_uint8 (by decide +kernel)
    have := pStrBytes_hex (r := r) (hx c (by simpa using hc)) (by omega)
    have he := utf8EncodeChar_ascii c (by omega)
    rw [he] at this
    simpa using this
  · rename_i h34 h92 _ _ _ _ _ hlt
    exact pStrBytes_cons hlt h34 h92

theorem pStrBytes_escAll (b r : Bytes) : pStrBytes (escAll b ++ 34 :: r) = some (b, r) := by
  induction b with
  | nil => simp [escAll, pStrBytes]
  | cons c b ih =>
    have : escAll (c :: b) = escByte c ++ escAll b := by simp [escAll]
    rw [this, List.append_assoc, pStrBytes_escByte, ih]
    rfl

theorem pStr_escAll (s : String) (r : Bytes) : pStr (escAll (strBytes s) ++ 34 :: r) = some (s, r) := by
  simp [pStr, pStrBytes_escAll, bytesStr?_strBytes]

/-! ## Numbers -/

theorem spanDigits_append {ds rest : Bytes} (hds : ∀ c ∈ ds, isDigit c = true)
    (hr : ∀ c, rest.head? = some c → isDigit c = false) : spanDigits (ds ++ rest) = (ds, rest) := by
  induction ds with
  | nil =>
    cases rest with
    | nil => rfl
    | cons c r => simp [spanDigits, hr c rfl]
  | cons c ds ih =>
    simp only [List.cons_append, spanDigits, hds c (by simp), if_true]
    rw [ih (fun x hx => hds x (by simp [hx]))]

theorem digit_facts {d : Nat} (h : d < 10) :
    isDigit (UInt8.ofNat (48 + d)) = true ∧ (UInt8.ofNat (48 + d)).toNat - 48 = d ∧
    (UInt8.ofNat (48 + d) = 48 ↔ d = 0) := by
  have : ∀ m : Fin 10, isDigit (UInt8.ofNat (48 + m.val)) = true ∧ (UInt8.ofNat (48 + m.val)).toNat - 48 = m.val ∧
    (UInt8.ofNat (48 + m.val) = 48 ↔ m.val = 0) := by decide +kernel
  exact this ⟨d, h⟩

theorem decBytes_digits (n : Nat) : ∀ c ∈ decBytes n, isDigit c = true := by
  unfold decBytes
  split
  · intro c hc; simp at hc; subst hc; decide
  · intro c hc
    obtain ⟨d, hd, rfl⟩ := List.mem_map.1 hc
    exact (digit_facts (toDigits_lt (by omega) _ d hd)).1

theorem decVal_decBytes (n : Nat) : decVal (decBytes n) = n := by
  unfold decVal decBytes
  split
  · rename_i h; subst h; decide
  · rw [List.map_map]
    have : (toDigits 10 n).map ((fun c : UInt8 => c.toNat - 48) ∘ fun d => UInt8.ofNat (48 + d)) = toDigits 10 n := by
      conv => rhs; rw [← List.map_id (toDigits 10 n)]
      apply List.map_congr_left
      intro d hd
      exact (digit_facts (toDigits_lt (by omega) _ d hd)).2.1
    rw [this, ofDigits_toDigits (by omega)]

theorem decBytes_ne_nil (n : Nat) : decBytes n ≠ [] := by
  unfold decBytes
  split
  · simp
  · rename_i h
    intro e
    exact toDigits_ne_nil (b := 10) (by omega) h (List.map_eq_nil_iff.1 e)

theorem decBytes_head (n : Nat) : ¬ ((decBytes n).head? = some 48 ∧ (decBytes n).length ≠ 1) := by
  unfold decBytes
  split
  · simp
  · rename_i hn
    rintro ⟨h, -⟩
    cases hd : toDigits 10 n with
    | nil => simp [hd] at h
    | cons d ds =>
      simp only [hd, List.map_cons, List.head?_cons, Option.some.injEq] at h
      have hlt := toDigits_lt (b := 10) (by omega) n d (by simp [hd])
      have h0 := toDigits_head (b := 10) (by omega) n d (by simp [hd])
      exact h0 ((digit_facts hlt).2.2.1 h)

theorem pFrac_end {rest : Bytes} (h : NumEnd rest) : pFrac rest = some ([], rest) := by
  cases rest with
  | nil => rfl
  | cons c r =>
    have := (h c rfl).2.1
    unfold pFrac
    split
    · rename_i e; cases e; exact absurd rfl this
    · rfl

theorem pExp_end {rest : Bytes} (h : NumEnd rest) : pExp rest = some ([], rest) := by
  cases rest with
  | nil => rfl
  | cons c r =>
    have := (h c rfl).2.2
    simp [pExp, this.1, this.2]

theorem pUnsigned_decBytes (D : Deps) (neg : Bool) (n : Nat) {rest : Bytes} (h : NumEnd rest) :
    pUnsigned D neg (decBytes n ++ rest) =
      if neg = false ∧ n < 2 ^ 64 then some (int (Int.ofNat n), rest)
      else if neg = true ∧ n ≠ 0 ∧ n ≤ 2 ^ 63 then some (int (-(Int.ofNat n)), rest)
      else match D.f64Parse ((if neg then [45] else []) ++ decBytes n) with
        | none => none
        | some f => some (float f, rest) := by
  unfold pUnsigned
  have hs := spanDigits_append (decBytes_digits n) (fun c hc => (h c hc).1)
  rw [hs]
  simp only [decBytes_ne_nil, if_false, decBytes_head, decVal_decBytes, pFrac_end h, pExp_end h]
  simp
  rfl

theorem pNumber_printInt (D : Deps) {i : Int} (h1 : -(2 ^ 63) ≤ i) (h2 : i < 2 ^ 64) {rest : Bytes}
    (h : NumEnd rest) : pNumber D (printInt i ++ rest) = some (int i, rest) := by
  unfold printInt
  split
  · rename_i n
    have hne := decBytes_ne_nil n
    have hd := decBytes_digits n
    cases hb : decBytes n with
    | nil => exact absurd hb hne
    | cons c t =>
      have hc : isDigit c = true := hd c (by simp [hb])
      have hc45 : c ≠ 45 := by rintro rfl; exact absurd hc (by decide)
      unfold pNumber
      split
      · rename_i e; cases e; exact absurd rfl hc45
      · rw [← hb, pUnsigned_decBytes D false n h, if_pos]
        refine ⟨rfl, ?_⟩
        have : (n : Int) < 2 ^ 64 := h2
        omega
  · rename_i n
    show pUnsigned D true (decBytes (n + 1) ++ rest) = _
    rw [pUnsigned_decBytes D true (n + 1) h, if_neg (by simp), if_pos]
    · rfl
    · refine ⟨rfl, by omega, ?_⟩
      have : -(2 ^ 63 : Int) ≤ Int.negSucc n := h1
      omega

theorem printInt_head (i : Int) : ∃ c r, printInt i = c :: r ∧ (isDigit c = true ∨ c = 45) := by
  unfold printInt
  split
  · rename_i n
    cases hb : decBytes n with
    | nil => exact absurd hb (decBytes_ne_nil n)
    | cons c t => exact ⟨c, t, rfl, Or.inl (decBytes_digits n c (by simp [hb]))⟩
  · exact ⟨_, _, rfl, Or.inr rfl⟩

/-! ## Values -/

theorem skipWs_cons {c : UInt8} (h : isWs c = false) (r : Bytes) : skipWs (c :: r) = c :: r := by
  simp [skipWs, h]

/-- First byte of printed values: never whitespace, `]`, `}`, `,` or `:`. -/
theorem print_head (D : Deps) (v : Json) (h : NumOk D v) :
    ∃ c r, print D v = c :: r ∧ isWs c = false ∧ c ≠ 93 := by
  have hdig : ∀ c : UInt8, (isDigit c = true ∨ c = 45) → isWs c = false ∧ c ≠ 93 := by
    have := forall_uint8 (P := fun c => (isDigit c = true ∨ c = 45) → isWs c = false ∧ c ≠ 93) (by decide +kernel)
    exact this
  cases v with
  | null => exact ⟨_, _, rfl, by decide, by decide⟩
  | bool b => cases b <;> exact ⟨_, _, rfl, by decide, by decide⟩
  | int i =>
    simp only [print]
    unfold printInt
    split
    · rename_i n
      cases hb : decBytes n with
      | nil => exact absurd hb (decBytes_ne_nil n)
      | cons c t =>
        have := hdig c (Or.inl (decBytes_digits n c (by simp [hb])))
        exact ⟨c, t, rfl, this⟩
    · exact ⟨_, _, rfl, by decide, by decide⟩
  | float f =>
    obtain ⟨⟨c, r, e, hc⟩, _⟩ := h
    exact ⟨c, r, e, hdig c hc⟩
  | str s => exact ⟨_, _, rfl, by decide, by decide⟩
  | arr l => exact ⟨_, _, rfl, by decide, by decide⟩
  | obj m => exact ⟨_, _, rfl, by decide, by decide⟩

theorem print_pos (D : Deps) (v : Json) (h : NumOk D v) : 1 ≤ (print D v).length := by
  obtain ⟨c, r, e, _⟩ := print_head D v h
  rw [e]; simp

/-- A number is dispatched to the number parser. -/
theorem pValue_number (D : Deps) (f d : Nat) {c : UInt8} {r : Bytes} (h : isDigit c = true ∨ c = 45) :
    pValue D (f + 1) d (c :: r) = pNumber D (c :: r) := by
  have hc : ∀ c : UInt8, (isDigit c = true ∨ c = 45) →
      isWs c = false ∧ c ≠ 110 ∧ c ≠ 116 ∧ c ≠ 102 ∧ c ≠ 34 ∧ c ≠ 91 ∧ c ≠ 123 := by
    have := forall_uint8 (P := fun c => (isDigit c = true ∨ c = 45) →
      isWs c = false ∧ c ≠ 110 ∧ c ≠ 116 ∧ c ≠ 102 ∧ c ≠ 34 ∧ c ≠ 91 ∧ c ≠ 123) (by decide +kernel)
    exact this
  obtain ⟨h0, h1, h2, h3, h4, h5, h6⟩ := hc c h
  rw [pValue, skipWs_cons h0]
  split
  · rename_i e; cases e; exact absurd rfl h1
  · rename_i e; cases e; exact absurd rfl h2
  · rename_i e; cases e; exact absurd rfl h3
  · rename_i e; cases e; exact absurd rfl h4
  · rename_i e; cases e; exact absurd rfl h5
  · rename_i e; cases e; exact absurd rfl h6
  · rfl

theorem printElemsTail_end (D : Deps) (xs : List Json) (rest : Bytes) :
    NumEnd (printElemsTail D xs ++ rest) ∧ 1 ≤ (printElemsTail D xs).length := by
  cases xs with
  | nil =>
    refine ⟨?_, by simp [printElemsTail]⟩
    intro c hc
    simp [printElemsTail] at hc
    subst hc; decide
  | cons x xs =>
    refine ⟨?_, by simp [printElemsTail]⟩
    intro c hc
    simp [printElemsTail] at hc
    subst hc; decide

theorem printMembersTail_end (D : Deps) (xs : List (String × Json)) (rest : Bytes) :
    NumEnd (printMembersTail D xs ++ rest) ∧ 1 ≤ (printMembersTail D xs).length := by
  cases xs with
  | nil =>
    refine ⟨?_, by simp [printMembersTail]⟩
    intro c hc
    simp [printMembersTail] at hc
    subst hc; decide
  | cons x xs =>
    refine ⟨?_, by simp [printMembersTail]⟩
    intro c hc
    simp [printMembersTail] at hc
    subst hc; decide

mutual
theorem pValue_print (D : Deps) : ∀ (v : Json) (f d : Nat) (rest : Bytes), NumOk D v → depth v < d →
    2 * (print D v).length ≤ f → NumEnd rest → pValue D f d (print D v ++ rest) = some (v, rest)
  | null, f, d, rest, _, _, hf, _ => by
    cases f with
    | zero => simp [print] at hf
    | succ f => simp [pValue, print, skipWs, isWs]
  | bool true, f, d, rest, _, _, hf, _ => by
    cases f with
    | zero => simp [print] at hf
    | succ f => simp [pValue, print, skipWs, isWs]
  | bool false, f, d, rest, _, _, hf, _ => by
    cases f with
    | zero => simp [print] at hf
    | succ f => simp [pValue, print, skipWs, isWs]
  | int i, f, d, rest, hn, _, hf, he => by
    have hpos := print_pos D (int i) hn
    cases f with
    | zero => omega
    | succ f =>
      simp only [print]
      rw [← pNumber_printInt D hn.1 hn.2 he]
      obtain ⟨c, r, e, hc⟩ := printInt_head i
      rw [e]
      exact pValue_number D f d hc
  | float x, f, d, rest, hn, _, hf, he => by
    have hpos := print_pos D (float x) hn
    cases f with
    | zero => omega
    | succ f =>
      simp only [print]
      rw [← hn.2 rest he]
      obtain ⟨c, r, e, hc⟩ := hn.1
      rw [e]
      exact pValue_number D f d hc
  | str s, f, d, rest, _, _, hf, _ => by
    cases f with
    | zero => simp [print, printStr] at hf
    | succ f =>
      simp only [print, printStr, List.cons_append, List.append_assoc, List.nil_append]
      rw [pValue, skipWs_cons (by decide)]
      simp only [pStr_escAll]
  | arr l, f, d, rest, hn, hd, hf, _ => by
    cases f with
    | zero => simp [print] at hf
    | succ f =>
      simp only [print, List.cons_append]
      rw [pValue, skipWs_cons (by decide)]
      simp only [depth] at hd
      simp only [print, List.length_cons] at hf
      simp only []
      rw [if_neg (by omega), pElems_print D l f (d - 1) rest hn (by omega) (by omega)]
  | obj m, f, d, rest, hn, hd, hf, _ => by
    cases f with
    | zero => simp [print] at hf
    | succ f =>
      simp only [print, List.cons_append]
      rw [pValue, skipWs_cons (by decide)]
      simp only [depth] at hd
      simp only [print, List.length_cons] at hf
      simp only []
      rw [if_neg (by omega), pMembers_print D m f (d - 1) rest hn (by omega) (by omega)]
theorem pElems_print (D : Deps) : ∀ (l : List Json) (f d : Nat) (rest : Bytes), NumOkList D l →
    depthList l < d → 2 * (printElems D l).length ≤ f + 1 →
    pElems D f d (printElems D l ++ rest) = some (l, rest)
  | [], f, d, rest, _, _, hf => by
    cases f with
    | zero => simp [printElems] at hf
    | succ f => simp [pElems, printElems, skipWs, isWs]
  | x :: xs, f, d, rest, hn, hd, hf => by
    obtain ⟨c, r, e, hc, hc'⟩ := print_head D x hn.1
    have hpos := print_pos D x hn.1
    obtain ⟨hE, hT⟩ := printElemsTail_end D xs rest
    simp only [printElems, List.length_append] at hf
    simp only [depthList] at hd
    cases f with
    | zero => omega
    | succ f =>
      simp only [printElems, List.append_assoc]
      have h1 := pValue_print D x f d (printElemsTail D xs ++ rest) hn.1 (by omega) (by omega) hE
      have h2 := pElemsTail_print D xs f d rest hn.2 (by omega) (by omega)
      rw [pElems]
      rw [e, List.cons_append, skipWs_cons hc]
      rw [e, List.cons_append] at h1
      split
      · rename_i e'; cases e'; exact absurd rfl hc'
      · rw [h1]; simp only []; rw [h2]
theorem pElemsTail_print (D : Deps) : ∀ (l : List Json) (f d : Nat) (rest : Bytes), NumOkList D l →
    depthList l < d → 2 * (printElemsTail D l).length ≤ f + 1 →
    pElemsTail D f d (printElemsTail D l ++ rest) = some (l, rest)
  | [], f, d, rest, _, _, hf => by
    cases f with
    | zero => simp [printElemsTail] at hf
    | succ f => simp [pElemsTail, printElemsTail, skipWs, isWs]
  | x :: xs, f, d, rest, hn, hd, hf => by
    have hpos := print_pos D x hn.1
    obtain ⟨hE, hT⟩ := printElemsTail_end D xs rest
    simp only [printElemsTail, List.length_append, List.length_cons] at hf
    simp only [depthList] at hd
    cases f with
    | zero => omega
    | succ f =>
      simp only [printElemsTail, List.append_assoc, List.cons_append]
      have h1 := pValue_print D x f d (printElemsTail D xs ++ rest) hn.1 (by omega) (by omega) hE
      have h2 := pElemsTail_print D xs f d rest hn.2 (by omega) (by omega)
      rw [pElemsTail, skipWs_cons (by decide)]
      simp only []
      rw [h1]; simp only []; rw [h2]
theorem pMembers_print (D : Deps) : ∀ (l : List (String × Json)) (f d : Nat) (rest : Bytes), NumOkMembers D l →
    depthMembers l < d → 2 * (printMembers D l).length ≤ f + 1 →
    pMembers D f d (printMembers D l ++ rest) = some (l, rest)
  | [], f, d, rest, _, _, hf => by
    cases f with
    | zero => simp [printMembers] at hf
    | succ f => simp [pMembers, printMembers, skipWs, isWs]
  | (k, x) :: xs, f, d, rest, hn, hd, hf => by
    have hpos := print_pos D x hn.1
    obtain ⟨hE, hT⟩ := printMembersTail_end D xs rest
    simp only [printMembers, printStr, List.length_append, List.length_cons, List.length_nil] at hf
    simp only [depthMembers] at hd
    cases f with
    | zero => omega
    | succ f =>
    cases f with
    | zero => omega
    | succ f =>
      have h1 := pValue_print D x f d (printMembersTail D xs ++ rest) hn.1 (by omega) (by omega) hE
      have h2 := pMembersTail_print D xs f d rest hn.2 (by omega) (by omega)
      simp only [printMembers, printStr, List.append_assoc, List.cons_append, List.nil_append]
      rw [pMembers, skipWs_cons (by decide)]
      show pMember D (f + 1) d (34 :: _) = _
      rw [pMember, skipWs_cons (by decide)]
      simp only [pStr_escAll]
      rw [skipWs_cons (by decide)]
      try simp only []
      rw [h1]; simp only []; rw [h2]
theorem pMembersTail_print (D : Deps) : ∀ (l : List (String × Json)) (f d : Nat) (rest : Bytes), NumOkMembers D l →
    depthMembers l < d → 2 * (printMembersTail D l).length ≤ f + 1 →
    pMembersTail D f d (printMembersTail D l ++ rest) = some (l, rest)
  | [], f, d, rest, _, _, hf => by
    cases f with
    | zero => simp [printMembersTail] at hf
    | succ f => simp [pMembersTail, printMembersTail, skipWs, isWs]
  | (k, x) :: xs, f, d, rest, hn, hd, hf => by
    have hpos := print_pos D x hn.1
    obtain ⟨hE, hT⟩ := printMembersTail_end D xs rest
    simp only [printMembersTail, printStr, List.length_append, List.length_cons, List.length_nil] at hf
    simp only [depthMembers] at hd
    cases f with
    | zero => omega
    | succ f =>
    cases f with
    | zero => omega
    | succ f =>
      have h1 := pValue_print D x f d (printMembersTail D xs ++ rest) hn.1 (by omega) (by omega) hE
      have h2 := pMembersTail_print D xs f d rest hn.2 (by omega) (by omega)
      simp only [printMembersTail, printStr, List.append_assoc, List.cons_append, List.nil_append]
      rw [pMembersTail, skipWs_cons (by decide)]
      simp only []
      rw [pMember, skipWs_cons (by decide)]
      simp only [pStr_escAll]
      rw [skipWs_cons (by decide)]
      try simp only []
      rw [h1]; simp only []; rw [h2]
end

/-- Text round trip. -/
theorem parse_print (D : Deps) (v : Json) (hn : NumOk D v) (hd : depth v < depthLimit) :
    parse D (print D v) = some v := by
  unfold parse
  have := pValue_print D v (2 * (print D v).length + 2) depthLimit [] hn hd (by omega) (by intro c hc; simp at hc)
  rw [List.append_nil] at this
  rw [this]
  simp [skipWs]

end Verif.Json
