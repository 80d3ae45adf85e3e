import Verif.Model.Ipv6
import Verif.Spec.Ipv6

/-!
# Addresses in hosts: what is read, and the normal form
-/

namespace Verif
namespace Ipv6
open Spec

/-! ## Digits -/

theorem hexVal_table (b : UInt8) : ∀ n, n < 16 →
    (hexVal b = some n ↔ ((strBytes "0123456789abcdef")[n]? = some b ∨ (strBytes "0123456789ABCDEF")[n]? = some b)) := by
  have h1 : strBytes "0123456789abcdef" = [48, 49, 50, 51, 52, 53, 54, 55, 56, 57, 97, 98, 99, 100, 101, 102] := by decide +kernel
  have h2 : strBytes "0123456789ABCDEF" = [48, 49, 50, 51, 52, 53, 54, 55, 56, 57, 65, 66, 67, 68, 69, 70] := by decide +kernel
  rw [h1, h2]
  exact forall_uint8 (P := fun b => ∀ n, n < 16 → (hexVal b = some n ↔
    (([48, 49, 50, 51, 52, 53, 54, 55, 56, 57, 97, 98, 99, 100, 101, 102] : Bytes)[n]? = some b ∨
      ([48, 49, 50, 51, 52, 53, 54, 55, 56, 57, 65, 66, 67, 68, 69, 70] : Bytes)[n]? = some b))) (by decide +kernel) b

theorem hexVal_lt (b : UInt8) : ∀ n ∈ hexVal b, n < 16 :=
  forall_uint8 (P := fun b => ∀ n ∈ hexVal b, n < 16) (by decide +kernel) b

theorem hexVal_iff (b : UInt8) (n : Nat) : hexVal b = some n ↔ AddressDigit b n := by
  by_cases hn : n < 16
  · exact hexVal_table b n hn
  · constructor
    · intro h
      exact absurd (hexVal_lt b n h) hn
    · rintro (h | h)
      · have := (List.getElem?_eq_some_iff.1 h).1
        have hl : (strBytes "0123456789abcdef").length = 16 := by decide +kernel
        omega
      · have := (List.getElem?_eq_some_iff.1 h).1
        have hl : (strBytes "0123456789ABCDEF").length = 16 := by decide +kernel
        omega

theorem foldl_digits (radix : Nat) (f : UInt8 → Nat) (x : Bytes) :
    ∀ n, x.foldl (fun n d => radix * n + f d) n = n * radix ^ x.length + numeral radix (x.map f) := by
  induction x with
  | nil => intro n; simp [numeral]
  | cons b t ih =>
    intro n
    rw [List.foldl_cons, ih, List.map_cons, numeral, List.length_cons, List.length_map, Nat.pow_succ, Nat.add_mul]
    rw [Nat.add_assoc]
    congr 1
    rw [Nat.mul_comm radix n, Nat.mul_assoc, Nat.mul_comm radix]

theorem hexNumber_eq (x : Bytes) : hexNumber x = numeral 16 (x.map fun d => (hexVal d).getD 0) := by
  have := foldl_digits 16 (fun d => (hexVal d).getD 0) x 0
  rw [hexNumber, this, Nat.zero_mul, Nat.zero_add]

theorem decNumber_eq (x : Bytes) : decNumber x = numeral 10 (x.map fun d => d.toNat - 48) := by
  have := foldl_digits 10 (fun d => d.toNat - 48) x 0
  rw [decNumber, this, Nat.zero_mul, Nat.zero_add]

theorem digits_pointwise (x : Bytes) : ∀ ds : List Nat, ds.length = x.length →
    ((∀ (i : Nat) (b : UInt8) (d : Nat), x[i]? = some b → ds[i]? = some d → AddressDigit b d) ↔
      (∀ b ∈ x, isHex b = true) ∧ ds = x.map fun d => (hexVal d).getD 0) := by
  induction x with
  | nil =>
    intro ds hl
    cases ds with
    | nil => simp
    | cons _ _ => simp at hl
  | cons b t ih =>
    intro ds hl
    cases ds with
    | nil => simp at hl
    | cons d ds =>
      have hl' : ds.length = t.length := by simpa using hl
      constructor
      · intro h
        have h0 := (hexVal_iff b d).2 (h 0 b d rfl rfl)
        have h1 := (ih ds hl').1 fun i b' d' hb hd => h (i + 1) b' d' (by simpa using hb) (by simpa using hd)
        refine ⟨?_, ?_⟩
        · intro b' hb'
          cases hb' with
          | head => rw [isHex, h0]; rfl
          | tail _ hb' => exact h1.1 b' hb'
        · rw [List.map_cons, h0, ← h1.2]; rfl
      · rintro ⟨h1, h2⟩ i b' d' hb hd
        rw [List.map_cons] at h2
        injection h2 with h2 h3
        cases i with
        | zero =>
          have e1 : b = b' := by simpa using hb
          have e2 : d = d' := by simpa using hd
          subst e1; subst e2
          have := h1 b List.mem_cons_self
          rw [isHex] at this
          cases hv : hexVal b with
          | none => rw [hv] at this; cases this
          | some v =>
            rw [hv] at h2
            have h2' : d = v := h2
            rw [h2']
            exact (hexVal_iff b v).1 hv
        | succ i =>
          exact (ih ds hl').2 ⟨fun b hb => h1 b (List.mem_cons_of_mem _ hb), h3⟩ i b' d' (by simpa using hb) (by simpa using hd)

/-- A piece is read as the number it stands for. -/
theorem pieceText_iff (x : Bytes) (v : Nat) :
    PieceText x v ↔ (1 ≤ x.length ∧ x.length ≤ 4 ∧ (∀ b ∈ x, isHex b = true) ∧ v = hexNumber x) := by
  constructor
  · rintro ⟨h1, h2, ds, h3, h4, h5⟩
    have := (digits_pointwise x ds h3).1 h4
    refine ⟨h1, h2, this.1, ?_⟩
    rw [h5, hexNumber_eq, this.2]
  · rintro ⟨h1, h2, h3, h4⟩
    refine ⟨h1, h2, x.map fun d => (hexVal d).getD 0, by simp, (digits_pointwise x _ (by simp)).2 ⟨h3, rfl⟩, ?_⟩
    rw [h4, hexNumber_eq]

theorem isHex_not (b : UInt8) : isHex b = true → b ≠ 58 ∧ b ≠ 46 :=
  forall_uint8 (P := fun b => isHex b = true → b ≠ 58 ∧ b ≠ 46) (by decide +kernel) b

theorem isDec_isHex (b : UInt8) : isDec b = true → isHex b = true :=
  forall_uint8 (P := fun b => isDec b = true → isHex b = true) (by decide +kernel) b

/-! ## Dotted parts -/

theorem takeWhile_of {p : UInt8 → Bool} {a b : Bytes} (ha : ∀ x ∈ a, p x = true) (hb : ∀ x ∈ b.head?, p x = false) :
    (a ++ b).takeWhile p = a ∧ (a ++ b).dropWhile p = b := by
  induction a with
  | nil =>
    cases b with
    | nil => exact ⟨rfl, rfl⟩
    | cons x b => simp [hb x (by simp)]
  | cons y a ih =>
    have := ih fun x hx => ha x (List.mem_cons_of_mem _ hx)
    simp [ha y List.mem_cons_self, this]

theorem takeWhile_all (p : UInt8 → Bool) (l : Bytes) : ∀ x ∈ l.takeWhile p, p x = true := by
  intro x hx
  induction l with
  | nil => cases hx
  | cons b l ih =>
    rw [List.takeWhile_cons] at hx
    split at hx
    · rename_i hb
      cases hx with
      | head => exact hb
      | tail _ hx => exact ih hx
    · cases hx

theorem dropWhile_head (p : UInt8 → Bool) (l : Bytes) : ∀ x ∈ (l.dropWhile p).head?, p x = false := by
  intro x hx
  induction l with
  | nil => cases hx
  | cons b l ih =>
    rw [List.dropWhile_cons] at hx
    split at hx
    · exact ih hx
    · rename_i hb
      have : b = x := by simpa using hx
      subst this
      simpa using hb

theorem octet_digits : ∀ v, v < 256 → strBytes (toString v) ≠ [] ∧ (∀ b ∈ strBytes (toString v), isDec b = true) ∧
    ¬ ((strBytes (toString v)).length > 1 ∧ (strBytes (toString v)).head? = some 48) ∧ decNumber (strBytes (toString v)) = v := by
  decide +kernel

theorem one_digit : ∀ a, a < 10 → strBytes (toString a) = [UInt8.ofNat (48 + a)] := by decide +kernel

theorem two_digits : ∀ a, a < 10 → a ≠ 0 → ∀ b, b < 10 → strBytes (toString (10 * a + b)) = [UInt8.ofNat (48 + a), UInt8.ofNat (48 + b)] := by
  decide +kernel

theorem three_digits : ∀ a, a < 10 → a ≠ 0 → ∀ b, b < 10 → ∀ c, c < 10 →
    strBytes (toString (10 * (10 * a + b) + c)) = [UInt8.ofNat (48 + a), UInt8.ofNat (48 + b), UInt8.ofNat (48 + c)] := by
  decide +kernel

theorem dec_byte (b : UInt8) : isDec b = true → b.toNat - 48 < 10 ∧ b = UInt8.ofNat (48 + (b.toNat - 48)) ∧ (b ≠ 48 → b.toNat - 48 ≠ 0) :=
  forall_uint8 (P := fun b => isDec b = true → b.toNat - 48 < 10 ∧ b = UInt8.ofNat (48 + (b.toNat - 48)) ∧ (b ≠ 48 → b.toNat - 48 ≠ 0))
    (by decide +kernel) b

theorem octet_text {ds : Bytes} (h0 : ds ≠ []) (hd : ∀ b ∈ ds, isDec b = true) (hz : ¬ (ds.length > 1 ∧ ds.head? = some 48))
    (hv : decNumber ds ≤ 255) : ds = strBytes (toString (decNumber ds)) := by
  cases ds with
  | nil => exact absurd rfl h0
  | cons a ds =>
    have ha := dec_byte a (hd a (by simp))
    cases ds with
    | nil =>
      rw [show decNumber [a] = a.toNat - 48 from Nat.zero_add _, one_digit _ ha.1]
      exact congrArg (· :: []) ha.2.1
    | cons b ds =>
      have ha0 : a.toNat - 48 ≠ 0 := ha.2.2 fun h => hz ⟨by simp, by rw [h]; rfl⟩
      have hb := dec_byte b (hd b (by simp))
      cases ds with
      | nil =>
        have e : decNumber [a, b] = 10 * (a.toNat - 48) + (b.toNat - 48) := by simp [decNumber]
        rw [e, two_digits _ ha.1 ha0 _ hb.1, ← ha.2.1, ← hb.2.1]
      | cons c ds =>
        have hc := dec_byte c (hd c (by simp))
        cases ds with
        | nil =>
          have e : decNumber [a, b, c] = 10 * (10 * (a.toNat - 48) + (b.toNat - 48)) + (c.toNat - 48) := by simp [decNumber]
          rw [e, three_digits _ ha.1 ha0 _ hb.1 _ hc.1, ← ha.2.1, ← hb.2.1, ← hc.2.1]
        | cons d ds =>
          exfalso
          rw [decNumber_eq] at hv
          simp only [List.map_cons, numeral, List.length_cons, List.length_map] at hv
          have h1 : 1 ≤ 10 ^ ds.length := Nat.pow_pos (by decide)
          have h2 : 10 ^ (ds.length + 1 + 1 + 1) = 1000 * 10 ^ ds.length := by
            rw [Nat.pow_succ, Nat.pow_succ, Nat.pow_succ]; omega
          rw [h2] at hv
          have h3 : 1000 * 10 ^ ds.length ≤ (a.toNat - 48) * (1000 * 10 ^ ds.length) := Nat.le_mul_of_pos_left _ (by omega)
          omega

theorem octet_complete {w t : Bytes} {a : Nat} (h : OctetText w a) (ht : ∀ x ∈ t.head?, isDec x = false) : octet (w ++ t) = some (a, t) := by
  obtain ⟨ha, rfl⟩ := h
  obtain ⟨h0, hd, hz, hv⟩ := octet_digits a (by omega)
  obtain ⟨h1, h2⟩ := takeWhile_of (p := isDec) hd ht
  simp only [octet, h1, h2, hv]
  rw [if_neg]
  rintro (h | h | h)
  · exact h0 h
  · exact hz h
  · omega

theorem octet_sound {x t : Bytes} {a : Nat} (h : octet x = some (a, t)) : ∃ w, x = w ++ t ∧ OctetText w a ∧ ∀ y ∈ t.head?, isDec y = false := by
  simp only [octet] at h
  split at h
  · cases h
  · rename_i hc
    rw [not_or, not_or] at hc
    have h := Option.some.inj h
    injection h with h1 h2
    subst h1; subst h2
    refine ⟨x.takeWhile isDec, (List.takeWhile_append_dropWhile).symm, ⟨by omega, ?_⟩, dropWhile_head _ _⟩
    exact octet_text hc.1 (takeWhile_all _ _) hc.2.1 (by omega)

theorem quad_complete {w x y z : Bytes} {a b c d : Nat} (ha : OctetText w a) (hb : OctetText x b) (hc : OctetText y c) (hd : OctetText z d) :
    quad (w ++ 46 :: (x ++ 46 :: (y ++ 46 :: z))) = some (256 * a + b, 256 * c + d) := by
  have hdot : ∀ t : Bytes, ∀ q ∈ (46 :: t : Bytes).head?, isDec q = false := by
    intro t q hq
    have : (46 : UInt8) = q := by simpa using hq
    subst this; rfl
  have h4 := octet_complete (t := []) hd (by simp)
  rw [List.append_nil] at h4
  simp [quad, octet_complete ha (hdot _), octet_complete hb (hdot _), octet_complete hc (hdot _), h4]

theorem quad_sound {x : Bytes} {q : Nat × Nat} (h : quad x = some q) : Pieces x [q.1, q.2] := by
  unfold quad at h
  split at h
  · rename_i a x1 h1
    obtain ⟨w1, rfl, ha, -⟩ := octet_sound h1
    split at h
    · rename_i b x2 h2
      obtain ⟨w2, rfl, hb, -⟩ := octet_sound h2
      split at h
      · rename_i c x3 h3
        obtain ⟨w3, rfl, hc, -⟩ := octet_sound h3
        split at h
        · rename_i d h4
          obtain ⟨w4, e4, hd, -⟩ := octet_sound h4
          rw [List.append_nil] at e4
          subst e4
          cases h
          exact .dotted ha hb hc hd
        · cases h
      · cases h
    · cases h
  · cases h

/-! ## Pieces -/

theorem run_of {w t : Bytes} (hw : ∀ b ∈ w, isHex b = true) (hl : w.length ≤ 4) (ht : ∀ b ∈ t.head?, isHex b = false) :
    ((w ++ t).take 4).takeWhile isHex = w ∧ (w ++ t).drop w.length = t := by
  refine ⟨?_, by simp⟩
  rw [List.take_append, List.take_of_length_le hl]
  refine (takeWhile_of hw ?_).1
  intro b hb
  cases t with
  | nil => simp at hb
  | cons c t =>
    cases h : 4 - w.length with
    | zero => rw [h] at hb; simp at hb
    | succ n =>
      rw [h] at hb
      exact ht b (by simpa using hb)

theorem run_split (x : Bytes) : x = (x.take 4).takeWhile isHex ++ x.drop ((x.take 4).takeWhile isHex).length ∧
    ((x.take 4).takeWhile isHex).length ≤ 4 ∧ ∀ b ∈ (x.take 4).takeWhile isHex, isHex b = true := by
  refine ⟨?_, ?_, takeWhile_all _ _⟩
  · have h : (x.take 4).takeWhile isHex <+: x := (List.takeWhile_prefix _).trans (List.take_prefix _ _)
    obtain ⟨t, ht⟩ := h
    generalize (x.take 4).takeWhile isHex = w at ht ⊢
    subst ht
    simp
  · have h1 := (List.takeWhile_prefix (l := x.take 4) isHex).length_le
    have h2 : (x.take 4).length ≤ 4 := by simp; omega
    omega

theorem octet_length : ∀ v, v < 256 → (strBytes (toString v)).length ≤ 4 := by decide +kernel

/-- Some pieces or none. -/
def Some' (x : Bytes) (ps : List Nat) : Prop := x = [] ∧ ps = [] ∨ Pieces x ps

theorem loop_cons (n : Nat) (acc : List Nat) (gap : Option Nat) {w t : Bytes} (h1 : 1 ≤ w.length) (hw : ∀ b ∈ w, isHex b = true)
    (hl : w.length ≤ 4) (ht : ∀ b ∈ t.head?, isHex b = false) : loop (n + 1) acc gap (w ++ t) =
      match t with
      | [] => some (acc ++ [hexNumber w], gap)
      | c :: cs =>
        if c = 58 then
          if cs = [] then none else loop n (acc ++ [hexNumber w]) gap cs
        else if c = 46 then
          if n = 0 then none else (quad (w ++ t)).map fun q => (acc ++ [q.1, q.2], gap)
        else none := by
  cases w with
  | nil => simp at h1
  | cons b w =>
    have hb := (isHex_not b (hw b List.mem_cons_self)).1
    obtain ⟨e1, e2⟩ := run_of hw hl ht
    rw [List.cons_append] at e1 e2 ⊢
    conv => lhs; rw [loop]
    simp only [hb, if_false, e1, e2]
    cases t <;> rfl

theorem pieces_ne {x : Bytes} {ps : List Nat} (h : Pieces x ps) : x ≠ [] ∧ ps ≠ [] := by
  cases h with
  | one h =>
    refine ⟨?_, by simp⟩
    rintro rfl
    have := h.1
    simp at this
  | dotted => exact ⟨by simp, by simp⟩
  | more => exact ⟨by simp, by simp⟩

theorem loop_pieces {x : Bytes} {ps : List Nat} (h : Pieces x ps) :
    ∀ n acc gap, ps.length ≤ n → loop n acc gap x = some (acc ++ ps, gap) := by
  induction h with
  | one h =>
    rename_i x v
    intro n acc gap hn
    obtain ⟨h1, h2, h3, rfl⟩ := (pieceText_iff x v).1 h
    cases n with
    | zero => simp at hn
    | succ n =>
      have := loop_cons n acc gap (t := []) h1 h3 h2 (by simp)
      rw [List.append_nil] at this
      exact this
  | dotted ha hb hc hd =>
    rename_i w x y z a b c d
    intro n acc gap hn
    cases n with
    | zero => simp at hn
    | succ n =>
      cases n with
      | zero => simp at hn
      | succ n =>
        have hq := quad_complete ha hb hc hd
        obtain ⟨hle, rfl⟩ := ha
        obtain ⟨k0, kd, -, -⟩ := octet_digits a (by omega)
        rw [loop_cons (n + 1) acc gap (t := 46 :: (x ++ 46 :: (y ++ 46 :: z))) (List.length_pos_iff.2 k0)
          (fun b hb => isDec_isHex b (kd b hb)) (octet_length a (by omega)) (by
            intro q hq
            have : (46 : UInt8) = q := by simpa using hq
            subst this; rfl)]
        simp only []
        rw [if_neg (by decide), if_pos trivial, if_neg (by omega), hq]
        rfl
  | more h hr ih =>
    rename_i x r v vs
    intro n acc gap hn
    obtain ⟨h1, h2, h3, rfl⟩ := (pieceText_iff x v).1 h
    cases n with
    | zero => simp at hn
    | succ n =>
      rw [loop_cons n acc gap (t := 58 :: r) h1 h3 h2 (by
        intro q hq
        have : (58 : UInt8) = q := by simpa using hq
        subst this; rfl)]
      simp only [if_true, (pieces_ne hr).1, if_false]
      rw [ih n _ gap (by simpa using hn)]
      simp

theorem loop_some {x : Bytes} {ps : List Nat} (h : Some' x ps) (n : Nat) (acc : List Nat) (gap : Option Nat) (hn : ps.length ≤ n) :
    loop n acc gap x = some (acc ++ ps, gap) := by
  rcases h with ⟨rfl, rfl⟩ | h
  · cases n <;> simp [loop]
  · exact loop_pieces h n acc gap hn

/-- Pieces each with a colon after it, then a gap. -/
theorem loop_gap {x y : Bytes} {l r : List Nat} (h : HexPieces x l) (hr : Some' y r) :
    ∀ n acc, l.length + 1 + r.length ≤ n → loop n acc none (x ++ 58 :: 58 :: y) = some (acc ++ l ++ 0 :: r, some (acc.length + l.length + 1)) := by
  have hstep : ∀ n acc, 1 + r.length ≤ n → loop n acc none (58 :: y) = some (acc ++ 0 :: r, some (acc.length + 1)) := by
    intro n acc hn
    cases n with
    | zero => omega
    | succ n =>
      rw [loop]
      simp only [if_true, Option.isSome_none, if_false, Bool.false_eq_true]
      rw [loop_some hr n _ _ (by omega)]
      simp
  induction h with
  | one h =>
    rename_i x v
    intro n acc hn
    obtain ⟨h1, h2, h3, rfl⟩ := (pieceText_iff x v).1 h
    cases n with
    | zero => simp at hn
    | succ n =>
      rw [loop_cons n acc none (t := 58 :: 58 :: y) h1 h3 h2 (by
        intro q hq
        have : (58 : UInt8) = q := by simpa using hq
        subst this; rfl)]
      simp only [if_true]
      rw [if_neg (by simp), hstep n _ (by simp at hn; omega)]
      simp
  | more h hx ih =>
    rename_i x r' v vs
    intro n acc hn
    obtain ⟨h1, h2, h3, rfl⟩ := (pieceText_iff x v).1 h
    cases n with
    | zero => simp at hn
    | succ n =>
      rw [List.append_assoc, List.cons_append, loop_cons n acc none (t := 58 :: (r' ++ 58 :: 58 :: y)) h1 h3 h2 (by
        intro q hq
        have : (58 : UInt8) = q := by simpa using hq
        subst this; rfl)]
      simp only [if_true]
      rw [if_neg (by simp), ih n _ (by simp at hn; omega)]
      simp
      omega

/-- What the loop gives: all the pieces, or pieces with one gap. -/
theorem loop_sound : ∀ (n : Nat) (acc : List Nat) (gap : Option Nat) (x : Bytes) (ps : List Nat) (gap' : Option Nat),
    loop n acc gap x = some (ps, gap') →
    (gap' = gap ∧ ∃ qs, ps = acc ++ qs ∧ Some' x qs ∧ qs.length ≤ n) ∨
    (gap = none ∧ ∃ l r y, gap' = some (acc.length + l.length + 1) ∧ ps = acc ++ l ++ 0 :: r ∧ Some' y r ∧ l.length + 1 + r.length ≤ n ∧
      ((l = [] ∧ x = 58 :: y) ∨ ∃ w, HexPieces w l ∧ x = w ++ 58 :: 58 :: y)) := by
  intro n
  induction n with
  | zero =>
    intro acc gap x ps gap' h
    cases x with
    | nil =>
      rw [loop] at h
      cases h
      exact .inl ⟨rfl, [], by simp, .inl ⟨rfl, rfl⟩, by simp⟩
    | cons _ _ => rw [loop] at h; cases h
  | succ n ih =>
    intro acc gap x ps gap' h
    cases x with
    | nil =>
      rw [loop] at h
      cases h
      exact .inl ⟨rfl, [], by simp, .inl ⟨rfl, rfl⟩, by simp⟩
    | cons b bs =>
      by_cases hb : b = 58
      · subst hb
        rw [loop] at h
        simp only [if_true] at h
        cases gap with
        | some k => simp at h
        | none =>
          simp only [Option.isSome_none, Bool.false_eq_true, if_false] at h
          rcases ih _ _ _ _ _ h with ⟨h1, qs, h2, h3, h4⟩ | ⟨h1, _⟩
          · refine .inr ⟨rfl, [], qs, bs, by simpa using h1, by simpa using h2, h3, by simp; omega, .inl ⟨rfl, rfl⟩⟩
          · cases h1
      · obtain ⟨e1, e2, e3⟩ := run_split (b :: bs)
        rw [loop] at h
        simp only [hb, if_false] at h
        generalize ((b :: bs).take 4).takeWhile isHex = ds at h e1 e2 e3
        generalize (b :: bs).drop ds.length = t at h e1
        have hp : ds ≠ [] → PieceText ds (hexNumber ds) := fun h0 => (pieceText_iff _ _).2 ⟨List.length_pos_iff.2 h0, e2, e3, rfl⟩
        cases t with
        | nil =>
          simp only [] at h
          cases h
          rw [List.append_nil] at e1
          have h0 : ds ≠ [] := by rw [← e1]; simp
          exact .inl ⟨rfl, [hexNumber ds], rfl, .inr (by rw [e1]; exact .one (hp h0)), by simp⟩
        | cons c cs =>
          simp only [] at h
          have hd : c = 58 → ds ≠ [] := by
            rintro rfl rfl
            rw [List.nil_append] at e1
            injection e1 with e1
            exact hb e1
          split at h
          · rename_i hc
            have h0 := hp (hd hc)
            subst hc
            split at h
            · cases h
            · rename_i hcs
              rcases ih _ _ _ _ _ h with ⟨h1, qs, h2, h3, h4⟩ | ⟨h1, l, r, y, h2, h3, h4, h5, h6⟩
              · refine .inl ⟨h1, hexNumber ds :: qs, by simpa using h2, .inr ?_, by simpa using h4⟩
                rcases h3 with ⟨h3, -⟩ | h3
                · exact absurd h3 hcs
                · rw [e1]; exact .more h0 h3
              · refine .inr ⟨h1, hexNumber ds :: l, r, y, ?_, by simpa using h3, h4, by simp; omega, .inr ?_⟩
                · rw [h2]; simp; omega
                · rcases h6 with ⟨rfl, rfl⟩ | ⟨w, h6, rfl⟩
                  · exact ⟨ds, .one h0, e1⟩
                  · exact ⟨ds ++ 58 :: w, .more h0 h6, by rw [e1]; simp⟩
          · split at h
            · split at h
              · cases h
              · rename_i hn
                cases hq : quad (b :: bs) with
                | none => rw [hq] at h; cases h
                | some q =>
                  rw [hq] at h
                  cases h
                  exact .inl ⟨rfl, [q.1, q.2], rfl, .inr (quad_sound hq), by simp; omega⟩
            · cases h

theorem hexPieces_head {x : Bytes} {l : List Nat} (h : HexPieces x l) (t : Bytes) : ∃ b r, x ++ t = b :: r ∧ b ≠ 58 := by
  have : ∀ {x : Bytes} {v : Nat}, PieceText x v → ∀ t, ∃ b r, x ++ t = b :: r ∧ b ≠ 58 := by
    intro x v h t
    obtain ⟨h1, -, h3, -⟩ := (pieceText_iff x v).1 h
    cases x with
    | nil => simp at h1
    | cons b x => exact ⟨b, x ++ t, rfl, (isHex_not b (h3 b List.mem_cons_self)).1⟩
  cases h with
  | one h => exact this h t
  | more h _ => rw [List.append_assoc]; exact this h _

theorem pieces_head {x : Bytes} {l : List Nat} (h : Pieces x l) : ∃ b r, x = b :: r ∧ b ≠ 58 := by
  have : ∀ {x : Bytes} {v : Nat}, PieceText x v → ∀ t, ∃ b r, x ++ t = b :: r ∧ b ≠ 58 := by
    intro x v h t
    obtain ⟨h1, -, h3, -⟩ := (pieceText_iff x v).1 h
    cases x with
    | nil => simp at h1
    | cons b x => exact ⟨b, x ++ t, rfl, (isHex_not b (h3 b List.mem_cons_self)).1⟩
  cases h with
  | one h => simpa using this h []
  | more h _ => exact this h _
  | dotted ha _ _ _ =>
    rename_i w x y z a b c d _ _ _
    obtain ⟨hle, hw⟩ := ha
    obtain ⟨k0, kd, -, -⟩ := octet_digits _ (Nat.lt_succ_of_le hle)
    rw [← hw] at k0 kd
    cases w with
    | nil => exact absurd rfl k0
    | cons b w => exact ⟨b, _, rfl, (isHex_not b (isDec_isHex b (kd b List.mem_cons_self))).1⟩

theorem read_other {b : UInt8} {r : Bytes} (hb : b ≠ 58) : read (b :: r) = (loop 8 [] none (b :: r)).bind finish := by
  unfold read
  split
  · rename_i h; injection h with h; exact absurd h hb
  · rename_i h; injection h with h; exact absurd h hb
  · rfl

/-- Reading addresses: exactly the texts of addresses, as the addresses they stand for. -/
theorem read_iff (x : Bytes) (ps : List Nat) : read x = some ps ↔ AddressText x ps := by
  constructor
  · intro h
    unfold read at h
    split at h
    · rename_i r
      obtain ⟨⟨qs, g⟩, h1, h2⟩ := Option.bind_eq_some_iff.1 h
      rcases loop_sound _ _ _ _ _ _ h1 with ⟨rfl, q, rfl, h3, h4⟩ | ⟨h3, _⟩
      · simp only [finish, List.singleton_append, List.take_succ_cons, List.take_zero, List.drop_succ_cons, List.drop_zero, List.length_cons,
          Option.some.injEq] at h2
        have := AddressText.gap (x := []) (l := []) (n := 8 - q.length) (.inl ⟨rfl, rfl⟩) h3 (by omega) (by simp; omega)
        rw [← h2]
        have e : 0 :: List.replicate (8 - (q.length + 1)) 0 = List.replicate (8 - q.length) 0 := by
          rw [show 8 - q.length = (8 - (q.length + 1)) + 1 by omega, List.replicate_succ]
        rw [e]
        exact this
      · cases h3
    · cases h
    · rename_i hx1 hx2
      obtain ⟨⟨qs, g⟩, h1, h2⟩ := Option.bind_eq_some_iff.1 h
      rcases loop_sound _ _ _ _ _ _ h1 with ⟨rfl, q, rfl, h3, h4⟩ | ⟨-, l, r, y, rfl, rfl, h3, h4, h5⟩
      · simp only [finish] at h2
        split at h2
        · rename_i hl
          cases h2
          rcases h3 with ⟨rfl, rfl⟩ | h3
          · cases hl
          · exact .full h3 hl
        · cases h2
      · rcases h5 with ⟨rfl, rfl⟩ | ⟨w, h5, rfl⟩
        · exact absurd rfl (hx2 y)
        · simp only [finish, List.nil_append, List.length_nil, Nat.zero_add, Option.some.injEq] at h2
          have := AddressText.gap (n := 8 - l.length - r.length) (.inr h5) h3 (by omega) (by omega)
          rw [← h2]
          have e1 : (l ++ 0 :: r).take (l.length + 1) = l ++ [0] := by
            rw [List.take_append, List.take_of_length_le (by omega)]; simp
          have e2 : (l ++ 0 :: r).drop (l.length + 1) = r := by
            rw [List.drop_append]; simp
          have e3 : 8 - l.length - r.length = (8 - (l ++ 0 :: r).length) + 1 := by simp; omega
          rw [e1, e2, List.append_assoc l]
          rw [e3, List.replicate_succ] at this
          exact this
  · intro h
    cases h with
    | full h hl =>
      obtain ⟨b, r, rfl, hb⟩ := pieces_head h
      rw [read_other hb, loop_pieces h 8 [] none (by omega)]
      simp [finish, hl]
    | gap hx hy hn hl =>
      rename_i x y l r n
      rcases hx with ⟨rfl, rfl⟩ | hx
      · rw [List.nil_append, read, loop_some hy 7 _ _ (by simp at hl; omega)]
        simp only [Option.bind_some, finish, List.singleton_append, List.take_succ_cons, List.take_zero, List.drop_succ_cons, List.drop_zero,
          List.length_cons, List.nil_append]
        have e : n = (8 - (r.length + 1)) + 1 := by simp at hl; omega
        rw [e, List.replicate_succ]
      · obtain ⟨b, t, hbt, hb⟩ := hexPieces_head hx (58 :: 58 :: y)
        rw [hbt, read_other hb, ← hbt, loop_gap hx hy 8 [] (by omega)]
        simp only [Option.bind_some, finish, List.nil_append, List.length_nil, Nat.zero_add]
        have e1 : (l ++ 0 :: r).take (l.length + 1) = l ++ [0] := by
          rw [List.take_append, List.take_of_length_le (by omega)]; simp
        have e2 : (l ++ 0 :: r).drop (l.length + 1) = r := by
          rw [List.drop_append]; simp
        have e3 : n = (8 - (l ++ 0 :: r).length) + 1 := by simp; omega
        rw [e1, e2, List.append_assoc l]
        conv => rhs; rw [e3, List.replicate_succ]
        rfl

/-! ## The normal form -/

theorem digit_facts : ∀ d, d < 16 → hexVal (digit d) = some d ∧ digit d ∈ strBytes "0123456789abcdef" ∧ (digit d = 48 → d = 0) := by
  decide +kernel

theorem low_facts (b : UInt8) : b ∈ strBytes "0123456789abcdef" → ∃ d, d < 16 ∧ hexVal b = some d ∧ digit d = b ∧ (b ≠ 48 → d ≠ 0) := by
  have h := forall_uint8 (P := fun b => b ∈ strBytes "0123456789abcdef" → (hexVal b).getD 16 < 16 ∧ hexVal b = some ((hexVal b).getD 16) ∧
    digit ((hexVal b).getD 16) = b ∧ (b ≠ 48 → (hexVal b).getD 16 ≠ 0)) (by decide +kernel) b
  intro hb
  exact ⟨_, h hb⟩

theorem hex_short {v : Nat} (hv : v < 65536) : ShortPiece (hex v) v := by
  have D := digit_facts
  have hx : ∀ {d}, d < 16 → isHex (digit d) = true := fun h => by rw [isHex, (D _ h).1]; rfl
  have n1 : ∀ {d}, d < 16 → (hexVal (digit d)).getD 0 = d := fun h => by rw [(D _ h).1]; rfl
  rw [ShortPiece, pieceText_iff]
  unfold hex
  split
  · rename_i h
    refine ⟨⟨by simp, by simp, ?_, ?_⟩, ?_, fun _ => rfl⟩
    · intro b hb
      simp only [List.mem_cons, List.not_mem_nil, or_false] at hb
      rw [hb]; exact hx h
    · simp [hexNumber, n1 h]
    · intro b hb
      simp only [List.mem_cons, List.not_mem_nil, or_false] at hb
      rw [hb]; exact (D _ h).2.1
  · split
    · have h1 : v / 16 < 16 := by omega
      have h2 : v % 16 < 16 := by omega
      refine ⟨⟨by simp, by simp, ?_, ?_⟩, ?_, ?_⟩
      · intro b hb
        simp only [List.mem_cons, List.not_mem_nil, or_false] at hb
        rcases hb with rfl | rfl
        · exact hx h1
        · exact hx h2
      · simp only [hexNumber, List.foldl_cons, List.foldl_nil, n1 h1, n1 h2]; omega
      · intro b hb
        simp only [List.mem_cons, List.not_mem_nil, or_false] at hb
        rcases hb with rfl | rfl
        · exact (D _ h1).2.1
        · exact (D _ h2).2.1
      · intro h0
        have := (D _ h1).2.2 (by simpa using h0)
        omega
    · split
      · have h1 : v / 256 < 16 := by omega
        have h2 : v / 16 % 16 < 16 := by omega
        have h3 : v % 16 < 16 := by omega
        refine ⟨⟨by simp, by simp, ?_, ?_⟩, ?_, ?_⟩
        · intro b hb
          simp only [List.mem_cons, List.not_mem_nil, or_false] at hb
          rcases hb with rfl | rfl | rfl
          · exact hx h1
          · exact hx h2
          · exact hx h3
        · simp only [hexNumber, List.foldl_cons, List.foldl_nil, n1 h1, n1 h2, n1 h3]; omega
        · intro b hb
          simp only [List.mem_cons, List.not_mem_nil, or_false] at hb
          rcases hb with rfl | rfl | rfl
          · exact (D _ h1).2.1
          · exact (D _ h2).2.1
          · exact (D _ h3).2.1
        · intro h0
          have := (D _ h1).2.2 (by simpa using h0)
          omega
      · have h1 : v / 4096 < 16 := by omega
        have h2 : v / 256 % 16 < 16 := by omega
        have h3 : v / 16 % 16 < 16 := by omega
        have h4 : v % 16 < 16 := by omega
        refine ⟨⟨by simp, by simp, ?_, ?_⟩, ?_, ?_⟩
        · intro b hb
          simp only [List.mem_cons, List.not_mem_nil, or_false] at hb
          rcases hb with rfl | rfl | rfl | rfl
          · exact hx h1
          · exact hx h2
          · exact hx h3
          · exact hx h4
        · simp only [hexNumber, List.foldl_cons, List.foldl_nil, n1 h1, n1 h2, n1 h3, n1 h4]; omega
        · intro b hb
          simp only [List.mem_cons, List.not_mem_nil, or_false] at hb
          rcases hb with rfl | rfl | rfl | rfl
          · exact (D _ h1).2.1
          · exact (D _ h2).2.1
          · exact (D _ h3).2.1
          · exact (D _ h4).2.1
        · intro h0
          have := (D _ h1).2.2 (by simpa using h0)
          omega

theorem short_hex {x : Bytes} {v : Nat} (h : ShortPiece x v) : x = hex v ∧ v < 65536 := by
  obtain ⟨hp, hl, hz⟩ := h
  obtain ⟨h1, h2, -, rfl⟩ := (pieceText_iff x v).1 hp
  cases x with
  | nil => simp at h1
  | cons a x =>
    obtain ⟨d1, k1, e1, g1, z1⟩ := low_facts a (hl a (by simp))
    cases x with
    | nil =>
      have : hexNumber [a] = d1 := by simp [hexNumber, e1]
      rw [this, hex, if_pos k1, g1]
      exact ⟨rfl, by omega⟩
    | cons b x =>
      have n1 : d1 ≠ 0 := z1 fun h => by
        have := hz (by rw [h]; rfl)
        simp at this
      obtain ⟨d2, k2, e2, g2, -⟩ := low_facts b (hl b (by simp))
      cases x with
      | nil =>
        have : hexNumber [a, b] = 16 * d1 + d2 := by simp [hexNumber, e1, e2]
        rw [this, hex, if_neg (by omega), if_pos (by omega), show (16 * d1 + d2) / 16 = d1 by omega, show (16 * d1 + d2) % 16 = d2 by omega, g1, g2]
        exact ⟨rfl, by omega⟩
      | cons c x =>
        obtain ⟨d3, k3, e3, g3, -⟩ := low_facts c (hl c (by simp))
        cases x with
        | nil =>
          have : hexNumber [a, b, c] = 16 * (16 * d1 + d2) + d3 := by simp [hexNumber, e1, e2, e3]
          rw [this, hex, if_neg (by omega), if_neg (by omega), if_pos (by omega), show (16 * (16 * d1 + d2) + d3) / 256 = d1 by omega,
            show (16 * (16 * d1 + d2) + d3) / 16 % 16 = d2 by omega, show (16 * (16 * d1 + d2) + d3) % 16 = d3 by omega, g1, g2, g3]
          exact ⟨rfl, by omega⟩
        | cons d x =>
          obtain ⟨d4, k4, e4, g4, -⟩ := low_facts d (hl d (by simp))
          cases x with
          | nil =>
            have : hexNumber [a, b, c, d] = 16 * (16 * (16 * d1 + d2) + d3) + d4 := by simp [hexNumber, e1, e2, e3, e4]
            rw [this, hex, if_neg (by omega), if_neg (by omega), if_neg (by omega), show (16 * (16 * (16 * d1 + d2) + d3) + d4) / 4096 = d1 by omega,
              show (16 * (16 * (16 * d1 + d2) + d3) + d4) / 256 % 16 = d2 by omega,
              show (16 * (16 * (16 * d1 + d2) + d3) + d4) / 16 % 16 = d3 by omega,
              show (16 * (16 * (16 * d1 + d2) + d3) + d4) % 16 = d4 by omega, g1, g2, g3, g4]
            exact ⟨rfl, by omega⟩
          | cons e x => simp at h2

theorem join_short {ps : List Nat} (h : ∀ p ∈ ps, p < 65536) : ShortPieces (join ps) ps := by
  induction ps with
  | nil => exact .none
  | cons p ps ih =>
    cases ps with
    | nil => exact .one (hex_short (h p (by simp)))
    | cons q r =>
      rw [join]
      exact .more (hex_short (h p (by simp))) (ih fun x hx => h x (List.mem_cons_of_mem _ hx)) (by simp)

theorem short_join {x : Bytes} {ps : List Nat} (h : ShortPieces x ps) : x = join ps ∧ ∀ p ∈ ps, p < 65536 := by
  induction h with
  | none => exact ⟨rfl, by simp⟩
  | one h => exact ⟨(short_hex h).1, by simpa using (short_hex h).2⟩
  | more h _ hne ih =>
    rename_i x r v vs _
    refine ⟨?_, ?_⟩
    · cases vs with
      | nil => exact absurd rfl hne
      | cons q t => rw [join, ← ih.1, ← (short_hex h).1]
    · intro p hp
      cases hp with
      | head => exact (short_hex h).2
      | tail _ hp => exact ih.2 p hp

theorem zeroRun_split (ps : List Nat) : ∃ r, ps = List.replicate (zeroRun ps) 0 ++ r := by
  induction ps with
  | nil => exact ⟨[], rfl⟩
  | cons p ps ih =>
    rw [zeroRun]
    split
    · rename_i h
      obtain ⟨r, hr⟩ := ih
      refine ⟨r, ?_⟩
      rw [List.replicate_succ, List.cons_append, ← hr, h]
    · exact ⟨p :: ps, rfl⟩

theorem zeroRun_max (m : Nat) : ∀ ps b, ps = List.replicate m 0 ++ b → m ≤ zeroRun ps := by
  induction m with
  | zero => intros; exact Nat.zero_le _
  | succ m ih =>
    rintro _ b rfl
    rw [List.replicate_succ, List.cons_append, zeroRun, if_pos rfl]
    exact Nat.succ_le_succ (ih _ b rfl)

theorem longest_spec (ps : List Nat) : ∀ i, ∃ l r, ps = l ++ List.replicate (longest i ps).2 0 ++ r ∧ (longest i ps).1 = i + l.length ∧
    ∀ a m b, ps = a ++ List.replicate m 0 ++ b → m ≤ (longest i ps).2 ∧ (m = (longest i ps).2 → l.length ≤ a.length) := by
  induction ps with
  | nil =>
    intro i
    refine ⟨[], [], rfl, rfl, ?_⟩
    intro a m b h
    have h := congrArg List.length h
    simp at h
    refine ⟨?_, fun _ => Nat.zero_le _⟩
    rw [longest]; show m ≤ 0; omega
  | cons p ps ih =>
    intro i
    obtain ⟨l, r, h1, h2, h3⟩ := ih (i + 1)
    rw [longest]
    split
    · rename_i hle
      obtain ⟨t, ht⟩ := zeroRun_split (p :: ps)
      refine ⟨[], t, ht, by simp, ?_⟩
      intro a m b h
      refine ⟨?_, fun _ => Nat.zero_le _⟩
      cases a with
      | nil => exact zeroRun_max m _ b h
      | cons q a =>
        rw [List.cons_append, List.cons_append] at h
        injection h with _ h
        exact Nat.le_trans (h3 a m b h).1 hle
    · rename_i hlt
      refine ⟨p :: l, r, ?_, ?_, ?_⟩
      · rw [List.cons_append, List.cons_append, ← h1]
      · rw [h2, List.length_cons]; omega
      · intro a m b h
        cases a with
        | nil =>
          have := zeroRun_max m _ b h
          exact ⟨by omega, by omega⟩
        | cons q a =>
          rw [List.cons_append, List.cons_append] at h
          injection h with _ h
          have := h3 a m b h
          exact ⟨this.1, fun e => by have := this.2 e; simp; omega⟩

/-- What is written is the normal form. -/
theorem write_normal {ps : List Nat} (h : ∀ p ∈ ps, p < 65536) : NormalText ps (write ps) := by
  obtain ⟨l, r, h1, h2, h3⟩ := longest_spec ps 0
  rw [Nat.zero_add] at h2
  simp only [write]
  split
  · rename_i hn
    refine .full ?_ (join_short h)
    intro a b e
    have := (h3 a 2 b (by rw [e]; simp [List.replicate])).1
    omega
  · rename_i hn
    have et : ps.take (longest 0 ps).1 = l := by
      rw [h2]; conv => lhs; rw [h1]
      rw [List.append_assoc]; simp
    have ed : ps.drop ((longest 0 ps).1 + (longest 0 ps).2) = r := by
      rw [h2]
      generalize (longest 0 ps).2 = n at h1
      rw [h1]
      rw [← List.length_replicate (n := n) (a := 0), ← List.length_append]
      simp
    rw [et, ed]
    generalize (longest 0 ps).2 = n at h1 h3 hn
    subst h1
    exact .gap (by omega) h3 (join_short fun p hp => h p (by simp [hp])) (join_short fun p hp => h p (by simp [hp]))

/-- There is one normal form. -/
theorem normal_unique {ps : List Nat} {x : Bytes} (h : NormalText ps x) : x = write ps ∧ ∀ p ∈ ps, p < 65536 := by
  obtain ⟨l', r', h1', h2', h3'⟩ := longest_spec ps 0
  rw [Nat.zero_add] at h2'
  cases h with
  | full hn hs =>
    obtain ⟨e, hb⟩ := short_join hs
    refine ⟨?_, hb⟩
    rw [e]
    simp only [write]
    rw [if_pos]
    refine Nat.lt_of_not_le fun h => ?_
    obtain ⟨k, hk⟩ : ∃ k, (longest 0 ps).2 = k + 2 := ⟨_, (Nat.sub_add_cancel h).symm⟩
    rw [hk, List.replicate_succ, List.replicate_succ] at h1'
    exact hn l' (List.replicate k 0 ++ r') (by rw [h1']; simp)
  | gap hn hm hx hy =>
    rename_i l r n x y
    obtain ⟨ex, bx⟩ := short_join hx
    obtain ⟨ey, bY⟩ := short_join hy
    have k1 := hm _ _ _ h1'
    have k2 := h3' _ _ _ rfl
    have en : (longest 0 (l ++ List.replicate n 0 ++ r)).2 = n := Nat.le_antisymm k1.1 k2.1
    have el : l'.length = l.length := Nat.le_antisymm (k2.2 en.symm) (k1.2 en)
    refine ⟨?_, ?_⟩
    · simp only [write]
      rw [en, if_neg (by omega), h2', el]
      have e1 : (l ++ List.replicate n 0 ++ r).take l.length = l := by rw [List.append_assoc]; simp
      have e2 : (l ++ List.replicate n 0 ++ r).drop (l.length + n) = r := by
        have : l.length + n = (l ++ List.replicate n 0).length := by simp
        rw [this, List.drop_append]; simp
      rw [e1, e2, ← ex, ← ey]
    · intro p hp
      simp only [List.mem_append, List.mem_replicate] at hp
      rcases hp with (hp | hp) | hp
      · exact bx p hp
      · omega
      · exact bY p hp

/-- The normal form is one of the texts of the address. -/
theorem normal_address {ps : List Nat} {x : Bytes} (h : NormalText ps x) (hl : ps.length = 8) : AddressText x ps := by
  have key : ∀ {x ps}, ShortPieces x ps → ps = [] ∧ x = [] ∨ (HexPieces x ps ∧ Pieces x ps) := by
    intro x ps h
    induction h with
    | none => exact .inl ⟨rfl, rfl⟩
    | one h => exact .inr ⟨.one h.1, .one h.1⟩
    | more h _ hne ih =>
      rcases ih with ⟨e, -⟩ | ⟨i1, i2⟩
      · exact absurd e hne
      · exact .inr ⟨.more h.1 i1, .more h.1 i2⟩
  cases h with
  | full _ hs =>
    rcases key hs with ⟨rfl, -⟩ | ⟨-, h⟩
    · cases hl
    · exact .full h hl
  | gap hn _ hx hy =>
    refine .gap ?_ ?_ (by omega) (by simpa [Nat.add_assoc] using hl)
    · rcases key hx with ⟨rfl, rfl⟩ | ⟨h, -⟩
      · exact .inl ⟨rfl, rfl⟩
      · exact .inr h
    · rcases key hy with ⟨rfl, rfl⟩ | ⟨-, h⟩
      · exact .inl ⟨rfl, rfl⟩
      · exact .inr h

theorem numeral_lt (ds : List Nat) (h : ∀ d ∈ ds, d < 16) : numeral 16 ds < 16 ^ ds.length := by
  induction ds with
  | nil => simp [numeral]
  | cons d ds ih =>
    have h1 := ih fun x hx => h x (List.mem_cons_of_mem _ hx)
    have h2 := h d (by simp)
    have h3 : d * 16 ^ ds.length ≤ 15 * 16 ^ ds.length := Nat.mul_le_mul_right _ (by omega)
    rw [numeral, List.length_cons, Nat.pow_succ]
    omega

theorem pieceText_lt {x : Bytes} {v : Nat} (h : PieceText x v) : v < 65536 := by
  obtain ⟨h1, h2, h3, rfl⟩ := (pieceText_iff x v).1 h
  rw [hexNumber_eq]
  have := numeral_lt (x.map fun d => (hexVal d).getD 0) (by
    intro d hd
    obtain ⟨b, hb, rfl⟩ := List.mem_map.1 hd
    cases hv : hexVal b with
    | none => exact (by decide : 0 < 16)
    | some n => exact hexVal_lt b n hv)
  rw [List.length_map] at this
  have h4 : 16 ^ x.length ≤ 16 ^ 4 := Nat.pow_le_pow_right (by decide) h2
  exact Nat.lt_of_lt_of_le this h4

/-- Addresses are eight pieces of 16 bits. -/
theorem address_shape {x : Bytes} {ps : List Nat} (h : AddressText x ps) : ps.length = 8 ∧ ∀ p ∈ ps, p < 65536 := by
  have kh : ∀ {x ps}, HexPieces x ps → ∀ p ∈ ps, p < 65536 := by
    intro x ps h
    induction h with
    | one h => simpa using pieceText_lt h
    | more h _ ih =>
      intro p hp
      cases hp with
      | head => exact pieceText_lt h
      | tail _ hp => exact ih p hp
  have kp : ∀ {x ps}, Pieces x ps → ∀ p ∈ ps, p < 65536 := by
    intro x ps h
    induction h with
    | one h => simpa using pieceText_lt h
    | dotted ha hb hc hd =>
      intro p hp
      have := ha.1
      have := hb.1
      have := hc.1
      have := hd.1
      simp only [List.mem_cons, List.not_mem_nil, or_false] at hp
      omega
    | more h _ ih =>
      intro p hp
      cases hp with
      | head => exact pieceText_lt h
      | tail _ hp => exact ih p hp
  cases h with
  | full h hl => exact ⟨hl, kp h⟩
  | gap hx hy hn hl =>
    refine ⟨by simp; omega, ?_⟩
    intro p hp
    simp only [List.mem_append, List.mem_replicate] at hp
    rcases hp with (hp | hp) | hp
    · rcases hx with ⟨rfl, rfl⟩ | hx
      · cases hp
      · exact kh hx p hp
    · omega
    · rcases hy with ⟨rfl, rfl⟩ | hy
      · cases hp
      · exact kp hy p hp

/-- The normal form is what it should be. -/
theorem normal_iff (x y : Bytes) : normal x = some y ↔ ∃ ps, AddressText x ps ∧ NormalText ps y := by
  rw [normal, Option.map_eq_some_iff]
  constructor
  · rintro ⟨ps, h, rfl⟩
    have h := (read_iff x ps).1 h
    exact ⟨ps, h, write_normal (address_shape h).2⟩
  · rintro ⟨ps, h1, h2⟩
    exact ⟨ps, (read_iff x ps).2 h1, (normal_unique h2).1.symm⟩

/-- Characters of the text of an address. -/
theorem address_chars {x : Bytes} {ps : List Nat} (h : AddressText x ps) : ∀ b ∈ x, isHex b = true ∨ b = 58 ∨ b = 46 := by
  have kt : ∀ {x v}, PieceText x v → ∀ b ∈ x, isHex b = true := fun h => ((pieceText_iff _ _).1 h).2.2.1
  have ko : ∀ {x v}, OctetText x v → ∀ b ∈ x, isHex b = true := by
    rintro x v ⟨h, rfl⟩ b hb
    exact isDec_isHex b ((octet_digits v (by omega)).2.1 b hb)
  have kh : ∀ {x ps}, HexPieces x ps → ∀ b ∈ x, isHex b = true ∨ b = 58 ∨ b = 46 := by
    intro x ps h
    induction h with
    | one h => exact fun b hb => .inl (kt h b hb)
    | more h _ ih =>
      intro b hb
      simp only [List.mem_append, List.mem_cons] at hb
      rcases hb with hb | hb | hb
      · exact .inl (kt h b hb)
      · exact .inr (.inl hb)
      · exact ih b hb
  have kp : ∀ {x ps}, Pieces x ps → ∀ b ∈ x, isHex b = true ∨ b = 58 ∨ b = 46 := by
    intro x ps h
    induction h with
    | one h => exact fun b hb => .inl (kt h b hb)
    | dotted ha hb hc hd =>
      intro b hb'
      simp only [List.mem_append, List.mem_cons] at hb'
      rcases hb' with h | h | h | h | h | h | h
      · exact .inl (ko ha b h)
      · exact .inr (.inr h)
      · exact .inl (ko hb b h)
      · exact .inr (.inr h)
      · exact .inl (ko hc b h)
      · exact .inr (.inr h)
      · exact .inl (ko hd b h)
    | more h _ ih =>
      intro b hb
      simp only [List.mem_append, List.mem_cons] at hb
      rcases hb with hb | hb | hb
      · exact .inl (kt h b hb)
      · exact .inr (.inl hb)
      · exact ih b hb
  cases h with
  | full h _ => exact kp h
  | gap hx hy _ _ =>
    intro b hb
    simp only [List.mem_append, List.mem_cons] at hb
    rcases hb with hb | hb | hb | hb
    · rcases hx with ⟨rfl, rfl⟩ | hx
      · cases hb
      · exact kh hx b hb
    · exact .inr (.inl hb)
    · exact .inr (.inl hb)
    · rcases hy with ⟨rfl, rfl⟩ | hy
      · cases hb
      · exact kp hy b hb

/-- The normal form is its own normal form. -/
theorem normal_again {x y : Bytes} (h : normal x = some y) : normal y = some y := by
  obtain ⟨ps, h1, h2⟩ := (normal_iff x y).1 h
  exact (normal_iff y y).2 ⟨ps, normal_address h2 (address_shape h1).1, h2⟩

/-- Texts of the same address have the same normal form, and only they. -/
theorem normal_same {x x' y y' : Bytes} {ps ps' : List Nat} (h : AddressText x ps) (h' : AddressText x' ps') (hy : normal x = some y)
    (hy' : normal x' = some y') : y = y' ↔ ps = ps' := by
  obtain ⟨qs, h1, h2⟩ := (normal_iff x y).1 hy
  obtain ⟨qs', h1', h2'⟩ := (normal_iff x' y').1 hy'
  have e : qs = ps := Option.some.inj (((read_iff x qs).2 h1).symm.trans ((read_iff x ps).2 h))
  have e' : qs' = ps' := Option.some.inj (((read_iff x' qs').2 h1').symm.trans ((read_iff x' ps').2 h'))
  subst e; subst e'
  constructor
  · rintro rfl
    have a1 := (read_iff y qs).2 (normal_address h2 (address_shape h1).1)
    have a2 := (read_iff y qs').2 (normal_address h2' (address_shape h1').1)
    exact Option.some.inj (a1.symm.trans a2)
  · rintro rfl
    rw [(normal_unique h2).1, (normal_unique h2').1]

example : normal (strBytes "2001:DB8:0:0:1:0:0:1") = some (strBytes "2001:db8::1:0:0:1") ∧
    normal (strBytes "::ffff:192.0.2.128") = some (strBytes "::ffff:c000:280") ∧ normal (strBytes "1:0:0:2:0:0:0:3") = some (strBytes "1:0:0:2::3") ∧
    normal (strBytes "0:1:2:3:4:5:6:7") = some (strBytes "0:1:2:3:4:5:6:7") ∧ normal (strBytes "::") = some (strBytes "::") ∧
    normal (strBytes "1::") = some (strBytes "1::") ∧ normal (strBytes "1:2:3:4:5:6:7:8:9") = none ∧ normal (strBytes "1::2::3") = none ∧
    normal (strBytes "1:2:3:4:5:6:7::8") = none ∧ normal (strBytes "::1.2.3.04") = none := by decide +kernel

end Ipv6
end Verif
