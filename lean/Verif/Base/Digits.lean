import Verif.Base.Bytes

/-! # Positional numerals, most significant digit first -/

namespace Verif

/-- Digits of `n`, given enough fuel. -/
def digitsAux (b : Nat) : Nat → Nat → List Nat
  | 0, _ => []
  | f + 1, n => if n = 0 then [] else digitsAux b f (n / b) ++ [n % b]

/-- Digits of `n` in base `b`, most significant first, `[]` for zero. -/
def toDigits (b n : Nat) : List Nat := digitsAux b n n

/-- Value of a digit list, most significant first. -/
def ofDigits (b : Nat) (ds : List Nat) : Nat := ds.foldl (fun a d => a * b + d) 0

theorem ofDigits_append (b : Nat) (ds : List Nat) (d : Nat) :
    ofDigits b (ds ++ [d]) = ofDigits b ds * b + d := by simp [ofDigits]

theorem digitsAux_fuel {b : Nat} (hb : 2 ≤ b) : ∀ {f g n : Nat}, n ≤ f → n ≤ g →
    digitsAux b f n = digitsAux b g n
  | 0, 0, _, _, _ => rfl
  | 0, g + 1, n, h, _ => by
    have : n = 0 := by omega
    simp [digitsAux, this]
  | f + 1, 0, n, _, h => by
    have : n = 0 := by omega
    simp [digitsAux, this]
  | f + 1, g + 1, n, h1, h2 => by
    simp only [digitsAux]
    split
    · rfl
    · rename_i hn
      have : n / b < n := Nat.div_lt_self (by omega) (by omega)
      rw [digitsAux_fuel hb (f := f) (g := g) (by omega) (by omega)]

theorem toDigits_zero (b : Nat) : toDigits b 0 = [] := rfl

theorem toDigits_pos {b n : Nat} (hb : 2 ≤ b) (hn : n ≠ 0) :
    toDigits b n = toDigits b (n / b) ++ [n % b] := by
  obtain ⟨m, rfl⟩ : ∃ m, n = m + 1 := ⟨n - 1, by omega⟩
  have : (m + 1) / b < m + 1 := Nat.div_lt_self (by omega) (by omega)
  unfold toDigits
  rw [digitsAux, if_neg hn, digitsAux_fuel hb (f := m) (g := (m + 1) / b) (by omega) (by omega)]

theorem ofDigits_toDigits {b : Nat} (hb : 2 ≤ b) (n : Nat) : ofDigits b (toDigits b n) = n := by
  induction n using Nat.strongRecOn with
  | ind n ih =>
    by_cases hn : n = 0
    · subst hn; rfl
    · rw [toDigits_pos hb hn, ofDigits_append, ih _ (Nat.div_lt_self (by omega) (by omega))]
      exact Nat.div_add_mod' n b

theorem toDigits_lt {b : Nat} (hb : 2 ≤ b) (n : Nat) : ∀ d ∈ toDigits b n, d < b := by
  induction n using Nat.strongRecOn with
  | ind n ih =>
    by_cases hn : n = 0
    · subst hn; simp [toDigits_zero]
    · rw [toDigits_pos hb hn]
      intro d hd
      rcases List.mem_append.1 hd with hd | hd
      · exact ih _ (Nat.div_lt_self (by omega) (by omega)) d hd
      · simp at hd; subst hd; exact Nat.mod_lt _ (by omega)

theorem toDigits_ne_nil {b n : Nat} (hb : 2 ≤ b) (hn : n ≠ 0) : toDigits b n ≠ [] := by
  rw [toDigits_pos hb hn]; simp

/-- No leading zero. -/
theorem toDigits_head {b : Nat} (hb : 2 ≤ b) (n : Nat) : ∀ d, (toDigits b n).head? = some d → d ≠ 0 := by
  induction n using Nat.strongRecOn with
  | ind n ih =>
    by_cases hn : n = 0
    · subst hn; simp [toDigits_zero]
    · rw [toDigits_pos hb hn]
      by_cases hq : n / b = 0
      · rw [hq, toDigits_zero]
        intro d hd
        simp at hd
        subst hd
        have : n % b = n := by
          have := Nat.div_add_mod' n b; rw [hq] at this; omega
        omega
      · intro d hd
        have hne := toDigits_ne_nil hb hq
        have hih := ih (n / b) (Nat.div_lt_self (by omega) (by omega)) d
        cases hq' : toDigits b (n / b) with
        | nil => exact absurd hq' hne
        | cons y t =>
          rw [hq'] at hd hih
          exact hih (by simpa using hd)

theorem ofDigits_pos {b : Nat} (hb : 2 ≤ b) {ds : List Nat} {d : Nat} (h : d ≠ 0) :
    ofDigits b (d :: ds) ≠ 0 := by
  suffices ∀ (ds : List Nat) (a : Nat), a ≠ 0 → ds.foldl (fun a d => a * b + d) a ≠ 0 by
    simpa [ofDigits] using this ds d h
  intro ds
  induction ds with
  | nil => intro a ha; exact ha
  | cons x xs ih =>
    intro a ha
    apply ih
    have : a ≤ a * b := Nat.le_mul_of_pos_right a (by omega)
    show a * b + x ≠ 0
    omega

theorem list_reverse_cases {α : Type} (l : List α) : l = [] ∨ ∃ t x, l = t ++ [x] := by
  by_cases h : l = []
  · exact Or.inl h
  · exact Or.inr ⟨l.dropLast, l.getLast h, (List.dropLast_concat_getLast h).symm⟩

theorem toDigits_ofDigits {b : Nat} (hb : 2 ≤ b) : ∀ (n : Nat) (ds : List Nat), ds.length = n →
    (∀ d ∈ ds, d < b) → (∀ d, ds.head? = some d → d ≠ 0) → toDigits b (ofDigits b ds) = ds := by
  intro n
  induction n with
  | zero =>
    intro ds hl _ _
    have : ds = [] := List.length_eq_zero_iff.1 hl
    subst this; rfl
  | succ n ih =>
    intro ds hl hlt hh
    rcases list_reverse_cases ds with rfl | ⟨t, x, rfl⟩
    · simp at hl
    · have hx : x < b := hlt x (by simp)
      have ht : toDigits b (ofDigits b t) = t := by
        apply ih t (by simpa using hl) (fun d hd => hlt d (by simp [hd]))
        intro d hd
        apply hh d
        cases t with
        | nil => simp at hd
        | cons y t => simpa using hd
      rw [ofDigits_append]
      have hne : ofDigits b t * b + x ≠ 0 := by
        cases t with
        | nil => have := hh x (by simp); simp [ofDigits]; exact this
        | cons y t =>
          have hy := hh y (by simp)
          have := ofDigits_pos hb (ds := t) hy
          have h2 : ofDigits b (y :: t) ≤ ofDigits b (y :: t) * b := Nat.le_mul_of_pos_right _ (by omega)
          omega
      rw [toDigits_pos hb hne]
      have h1 : (ofDigits b t * b + x) / b = ofDigits b t := by
        rw [Nat.add_comm, Nat.add_mul_div_right _ _ (by omega), Nat.div_eq_of_lt hx]; omega
      have h2 : (ofDigits b t * b + x) % b = x := by
        rw [Nat.add_comm, Nat.add_mul_mod_self_right, Nat.mod_eq_of_lt hx]
      rw [h1, h2, ht]

/-- Splitting a list at its leading copies of `x`. -/
theorem replicate_takeWhile_dropWhile {α : Type} [DecidableEq α] (x : α) (l : List α) :
    List.replicate (l.takeWhile (· == x)).length x ++ l.dropWhile (· == x) = l := by
  induction l with
  | nil => rfl
  | cons y l ih =>
    by_cases h : y = x
    · subst h; simp [List.replicate_succ, ih]
    · simp [h]

theorem takeWhile_replicate_append {α : Type} [DecidableEq α] (x : α) (n : Nat) (l : List α)
    (h : ∀ y, l.head? = some y → y ≠ x) :
    ((List.replicate n x ++ l).takeWhile (· == x)).length = n ∧
    (List.replicate n x ++ l).dropWhile (· == x) = l := by
  induction n with
  | zero =>
    cases l with
    | nil => simp
    | cons y l => have := h y rfl; simp [this]
  | succ n ih =>
    have e : List.replicate (n + 1) x ++ l = x :: (List.replicate n x ++ l) := rfl
    rw [e, List.takeWhile_cons_of_pos (by simp), List.dropWhile_cons_of_pos (by simp)]
    exact ⟨by simp only [List.length_cons, ih.1], ih.2⟩

theorem dropWhile_head {α : Type} [DecidableEq α] (x : α) (l : List α) :
    ∀ y, (l.dropWhile (· == x)).head? = some y → y ≠ x := by
  induction l with
  | nil => simp
  | cons a l ih =>
    by_cases h : a = x
    · subst h; simpa using ih
    · simp [h]

end Verif
