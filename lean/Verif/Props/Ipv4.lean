import Verif.Model.Ipv4
import Verif.Spec.Ipv4
import Verif.Props.Ipv6

/-!
# Addresses of four numbers in hosts
-/

namespace Verif
namespace Ipv4
open Spec

/-! ## Numbers -/

theorem isDigitOf_iff {radix : Nat} (hr : radix ≤ 16) (b : UInt8) : isDigitOf radix b = true ↔ ∃ d, d < radix ∧ Ipv6.hexVal b = some d := by
  unfold isDigitOf
  cases h : Ipv6.hexVal b with
  | none => simp; omega
  | some d => simp

theorem radixText_iff {radix : Nat} (hr : radix ≤ 16) (x : Bytes) (v : Nat) : number radix x = some v ↔ RadixText radix x v := by
  have hnum : x.foldl (fun n d => radix * n + (Ipv6.hexVal d).getD 0) 0 = numeral radix (x.map fun d => (Ipv6.hexVal d).getD 0) := by
    rw [Ipv6.foldl_digits radix (fun d => (Ipv6.hexVal d).getD 0) x 0, Nat.zero_mul, Nat.zero_add]
  unfold number
  rw [hnum]
  constructor
  · intro h
    split at h
    · rename_i ha
      have ha := List.all_eq_true.1 ha
      refine ⟨x.map fun d => (Ipv6.hexVal d).getD 0, by simp, ?_, (Option.some.inj h).symm⟩
      intro i b d hb hd
      rw [List.getElem?_map, hb] at hd
      obtain ⟨e, he, hv⟩ := (isDigitOf_iff hr b).1 (ha b (List.mem_of_getElem? hb))
      rw [Option.map_some, hv] at hd
      cases hd
      exact ⟨he, (Ipv6.hexVal_iff b e).1 hv⟩
    · cases h
  · rintro ⟨ds, hl, hd, rfl⟩
    obtain ⟨_, e⟩ := (Ipv6.digits_pointwise x ds hl).1 fun i b d h h' => (hd i b d h h').2
    rw [if_pos, ← e]
    rw [List.all_eq_true]
    intro b hb
    obtain ⟨i, hi⟩ := List.getElem?_of_mem hb
    have hlt : i < ds.length := by rw [hl]; exact (List.getElem?_eq_some_iff.1 hi).1
    have := hd i b _ hi (List.getElem?_eq_getElem hlt)
    exact (isDigitOf_iff hr b).2 ⟨_, this.1, (Ipv6.hexVal_iff b _).2 this.2⟩

theorem xs_iff (c : UInt8) : c ∈ strBytes "xX" ↔ c = 120 ∨ c = 88 := by
  have : strBytes "xX" = [120, 88] := by decide +kernel
  rw [this]; simp

theorem value_iff (x : Bytes) (v : Nat) : value x = some v ↔ PartText x v := by
  constructor
  · intro h
    unfold value at h
    split at h
    · cases h
    · exact .decimal (by simp) (fun _ => rfl) ((radixText_iff (by omega) _ _).1 h)
    · rename_i b c ds
      split at h
      · rename_i hb
        subst hb
        split at h
        · rename_i hx
          exact .hexadecimal ((xs_iff _).2 hx) ((radixText_iff (by omega) _ _).1 h)
        · exact .octal (by simp) ((radixText_iff (by omega) _ _).1 h)
      · rename_i hb
        refine .decimal (by simp) (fun h' => absurd (by simpa using h') hb) ((radixText_iff (by omega) _ _).1 h)
  · intro h
    cases h with
    | decimal hne hz hr =>
      have hr := (radixText_iff (by omega) _ _).2 hr
      cases x with
      | nil => exact absurd rfl hne
      | cons b t =>
        cases t with
        | nil => exact hr
        | cons c ds =>
          have hb : b ≠ 48 := by
            rintro rfl
            exact absurd (hz rfl) (by simp)
          rw [value, if_neg hb]
          exact hr
    | @octal x v hne hr =>
      have hr' := (radixText_iff (by omega) _ _).2 hr
      cases x with
      | nil => exact absurd rfl hne
      | cons c ds =>
        rw [value, if_pos rfl, if_neg, hr']
        intro hc
        obtain ⟨es, hl, hd, _⟩ := hr
        cases es with
        | nil => simp at hl
        | cons e es =>
          have := (Ipv6.hexVal_iff c e).2 (hd 0 c e rfl rfl).2
          rcases hc with rfl | rfl <;> cases this
    | hexadecimal hc hr =>
      rw [value, if_pos rfl, if_pos ((xs_iff _).1 hc)]
      exact (radixText_iff (by omega) _ _).2 hr

theorem partText_unique {x : Bytes} {v w : Nat} (h : PartText x v) (h' : PartText x w) : v = w := by
  have h := (value_iff x v).2 h
  rw [(value_iff x w).2 h'] at h
  exact (Option.some.inj h).symm

/-! ## Labels -/

theorem splitDot_ne (d : Bytes) : splitDot d ≠ [] := by
  cases d with
  | nil => simp [splitDot]
  | cons b t =>
    rw [splitDot]
    split
    · simp
    · split <;> simp

theorem splitDot_dotted (d : Bytes) : Dotted d (splitDot d) := by
  induction d with
  | nil => exact .one (by simp)
  | cons b t ih =>
    rw [splitDot]
    split
    · rename_i hb
      subst hb
      exact .more (x := []) (by simp) ih
    · rename_i hb
      split
      · rename_i h r e
        rw [e] at ih
        cases ih with
        | one hx => exact .one (by simp [Ne.symm hb, hx])
        | @more x r' xs hx hr =>
          rw [← List.cons_append]
          exact .more (by simp [Ne.symm hb, hx]) hr
      · rename_i e
        exact absurd e (splitDot_ne t)

theorem splitDot_one {x : Bytes} (h : 46 ∉ x) : splitDot x = [x] := by
  induction x with
  | nil => rfl
  | cons b t ih =>
    rw [List.mem_cons, not_or] at h
    rw [splitDot, if_neg (Ne.symm h.1), ih h.2]

theorem splitDot_more {x : Bytes} (h : 46 ∉ x) (r : Bytes) : splitDot (x ++ 46 :: r) = x :: splitDot r := by
  induction x with
  | nil => rw [List.nil_append, splitDot, if_pos rfl]
  | cons b t ih =>
    rw [List.mem_cons, not_or] at h
    rw [List.cons_append, splitDot, if_neg (Ne.symm h.1), ih h.2]

theorem dotted_iff (d : Bytes) (ls : List Bytes) : Dotted d ls ↔ ls = splitDot d := by
  constructor
  · intro h
    induction h with
    | one h => exact (splitDot_one h).symm
    | more h _ ih => rw [splitDot_more h, ← ih]
  · rintro rfl
    exact splitDot_dotted d

theorem labels_iff (d : Bytes) (ls : List Bytes) : Labels d ls ↔ ls = parts d := by
  unfold parts
  simp only []
  constructor
  · rintro (⟨h, hl⟩ | ⟨hne, h⟩)
    · rw [dotted_iff] at h
      rw [← h, if_neg]
      rintro ⟨h1, h2⟩
      have := hl h2
      omega
    · rw [dotted_iff] at h
      rw [← h, if_pos]
      · simp
      · refine ⟨?_, by simp⟩
        rw [List.length_append]
        have := List.length_pos_iff.2 hne
        simp only [List.length_cons, List.length_nil]
        omega
  · intro h
    split at h
    · rename_i hc
      right
      have hne := splitDot_ne d
      have hg : (splitDot d).getLast hne = [] := by
        have := hc.2
        rw [List.getLast?_eq_some_getLast hne] at this
        exact Option.some.inj this
      have hsplit := List.dropLast_concat_getLast hne
      rw [hg] at hsplit
      refine ⟨?_, ?_⟩
      · rw [h]
        intro he
        have := congrArg List.length hsplit
        rw [he] at this
        simp only [List.nil_append, List.length_cons, List.length_nil] at this
        omega
      · rw [dotted_iff, h, hsplit]
    · rename_i hc
      left
      subst h
      refine ⟨splitDot_dotted d, fun hl => ?_⟩
      have : 0 < (splitDot d).length := List.length_pos_iff.2 (splitDot_ne d)
      rcases Nat.lt_or_ge 1 (splitDot d).length with h1 | h1
      · exact absurd ⟨h1, hl⟩ hc
      · omega

theorem dec_iff (b : UInt8) : Ipv6.isDec b = true ↔ b ∈ strBytes "0123456789" :=
  forall_uint8 (P := fun b => Ipv6.isDec b = true ↔ b ∈ strBytes "0123456789") (by decide +kernel) b

theorem endsInNumber_iff (d : Bytes) : endsInNumber d = true ↔ Numeric d := by
  have key (l : Bytes) : ((l != [] && l.all Ipv6.isDec) || (value l).isSome) = true ↔
      ((l ≠ [] ∧ ∀ b ∈ l, b ∈ strBytes "0123456789") ∨ ∃ v, PartText l v) := by
    rw [Bool.or_eq_true, Bool.and_eq_true, bne_iff_ne, List.all_eq_true, Option.isSome_iff_exists]
    simp only [dec_iff, value_iff]
  unfold endsInNumber
  constructor
  · intro h
    split at h
    · cases h
    · rename_i l hl
      exact ⟨parts d, l, (labels_iff _ _).2 rfl, hl, (key l).1 h⟩
  · rintro ⟨ls, l, hls, hl, h⟩
    rw [labels_iff] at hls
    subst hls
    rw [hl]
    exact (key l).2 h

/-! ## Addresses -/

theorem values_iff (ls : List Bytes) : ∀ ns : List Nat, values ls = some ns ↔
    ns.length = ls.length ∧ ∀ (i : Nat) (l : Bytes) (n : Nat), ls[i]? = some l → ns[i]? = some n → PartText l n := by
  induction ls with
  | nil =>
    intro ns
    cases ns with
    | nil => simp [values]
    | cons _ _ => simp [values]
  | cons p ps ih =>
    intro ns
    rw [values]
    constructor
    · intro h
      split at h
      · cases h
      · rename_i n hn
        split at h
        · cases h
        · rename_i ms hm
          cases h
          obtain ⟨h1, h2⟩ := (ih ms).1 hm
          refine ⟨by simp [h1], ?_⟩
          intro i l m hl hm'
          cases i with
          | zero =>
            cases hl; cases hm'
            exact (value_iff _ _).1 hn
          | succ i => exact h2 i l m (by simpa using hl) (by simpa using hm')
    · rintro ⟨h1, h2⟩
      cases ns with
      | nil => simp at h1
      | cons n ns =>
        rw [(value_iff p n).2 (h2 0 p n rfl rfl)]
        simp only []
        rw [(ih ns).2 ⟨by simpa using h1, fun i l m hl hm => h2 (i + 1) l m (by simpa using hl) (by simpa using hm)⟩]

theorem combine_iff : ∀ (k : Nat) (ns : List Nat) (v : Nat), combine k ns = some v ↔
    ∃ pre last, ns = pre ++ [last] ∧ pre.length + 1 ≤ k ∧ (∀ n ∈ pre, n < 256) ∧ last < 256 ^ (k - pre.length) ∧
      v = numeral 256 pre * 256 ^ (k - pre.length) + last
  | 0, ns, v => by
    rw [combine]
    constructor
    · intro h; cases h
    · rintro ⟨pre, last, _, h, _⟩; omega
  | k + 1, [], v => by
    rw [combine]
    constructor
    · intro h; cases h
    · rintro ⟨pre, last, h, _⟩
      simp at h
  | k + 1, [n], v => by
    rw [combine]
    constructor
    · intro h
      split at h
      · rename_i hn
        cases h
        exact ⟨[], n, rfl, by simp, by simp, hn, by simp [numeral]⟩
      · cases h
    · rintro ⟨pre, last, h, _, _, hl, hv⟩
      cases pre with
      | nil =>
        cases h
        rw [if_pos (show n < 256 ^ (k + 1) from hl), hv]
        simp [numeral]
      | cons _ pre =>
        have := congrArg List.length h
        simp at this
  | k + 1, n :: m :: ns, v => by
    rw [combine]
    constructor
    · intro h
      split at h
      · rename_i hn
        split at h
        · cases h
        · rename_i w hw
          cases h
          obtain ⟨pre, last, e, h1, h2, h3, h4⟩ := (combine_iff k (m :: ns) w).1 hw
          refine ⟨n :: pre, last, by rw [e]; rfl, by simp; omega, ?_, ?_, ?_⟩
          · intro x hx
            rcases List.mem_cons.1 hx with rfl | hx
            · exact hn
            · exact h2 x hx
          · rw [List.length_cons, Nat.add_sub_add_right]; exact h3
          · rw [h4, List.length_cons, Nat.add_sub_add_right, numeral, Nat.add_mul, ← Nat.add_assoc, Nat.mul_assoc, ← Nat.pow_add,
              Nat.add_sub_cancel' (by omega)]
      · cases h
    · rintro ⟨pre, last, h, h1, h2, h3, h4⟩
      cases pre with
      | nil => simp at h
      | cons x pre =>
        rw [List.cons_append] at h
        obtain ⟨rfl, h'⟩ := List.cons.inj h
        rw [List.length_cons, Nat.add_sub_add_right] at h3 h4
        rw [List.length_cons] at h1
        rw [if_pos (h2 n (by simp)), (combine_iff k (m :: ns) (numeral 256 pre * 256 ^ (k - pre.length) + last)).2
          ⟨pre, last, h', by omega, fun x hx => h2 x (by simp [hx]), h3, rfl⟩]
        simp only [Option.some.injEq]
        rw [h4, numeral, Nat.add_mul, ← Nat.add_assoc, Nat.mul_assoc, ← Nat.pow_add, Nat.add_sub_cancel' (by omega)]

theorem addressNumber_iff (ns : List Nat) (v : Nat) : combine 4 ns = some v ↔ AddressNumber ns v := by
  rw [combine_iff]
  constructor
  · rintro ⟨pre, last, e, h1, h⟩
    exact ⟨pre, last, e, by omega, h⟩
  · rintro ⟨pre, last, e, h1, h⟩
    exact ⟨pre, last, e, by omega, h⟩

theorem numeral_bytes_lt (pre : List Nat) (h : ∀ n ∈ pre, n < 256) : numeral 256 pre < 256 ^ pre.length := by
  induction pre with
  | nil => simp [numeral]
  | cons n pre ih =>
    rw [numeral, List.length_cons, Nat.pow_succ]
    have h1 := ih fun x hx => h x (by simp [hx])
    have h2 := h n (by simp)
    have h3 := Nat.mul_le_mul_right (256 ^ pre.length) (show n ≤ 255 by omega)
    omega

theorem addressNumber_lt {ns : List Nat} {v : Nat} (h : AddressNumber ns v) : v < 256 ^ 4 := by
  obtain ⟨pre, last, _, hl, hp, hlast, rfl⟩ := h
  have h1 := numeral_bytes_lt pre hp
  have h2 := Nat.mul_le_mul_right (256 ^ (4 - pre.length)) (show numeral 256 pre + 1 ≤ 256 ^ pre.length by omega)
  rw [← Nat.pow_add, Nat.add_sub_cancel' (by omega), Nat.add_mul] at h2
  omega

theorem text_of {v a b c e : Nat} (hb : b < 256) (hc : c < 256) (he : e < 256) (h : v = numeral 256 [a, b, c, e]) :
    text v = toString a ++ "." ++ toString b ++ "." ++ toString c ++ "." ++ toString e := by
  have hv : v = a * 16777216 + (b * 65536 + (c * 256 + e)) := by
    rw [h]; simp [numeral]
  unfold text
  rw [show v / 256 ^ 3 = a by omega, show v / 256 ^ 2 % 256 = b by omega, show v / 256 % 256 = c by omega, show v % 256 = e by omega]

theorem numeral_of {v : Nat} : v = numeral 256 [v / 16777216, v / 65536 % 256, v / 256 % 256, v % 256] := by
  simp [numeral]
  omega

/-- A domain is read as an address exactly if it is the text of one. -/
theorem normal_iff (d : Bytes) (s : String) : normal d = some s ↔ Address4Text d s := by
  unfold normal
  constructor
  · intro h
    split at h
    · cases h
    · rename_i ns hns
      cases hv : combine 4 ns with
      | none => rw [hv] at h; cases h
      | some v =>
        rw [hv] at h
        cases h
        obtain ⟨h1, h2⟩ := (values_iff _ _).1 hns
        have ha := (addressNumber_iff _ _).1 hv
        have hlt := addressNumber_lt ha
        exact ⟨parts d, ns, v, v / 16777216, v / 65536 % 256, v / 256 % 256, v % 256, (labels_iff _ _).2 rfl, h1, h2, ha, by omega, by omega, by omega,
          by omega, numeral_of, text_of (by omega) (by omega) (by omega) numeral_of⟩
  · rintro ⟨ls, ns, v, a, b, c, e, hls, h1, h2, ha, _, hb, hc, he, hv, rfl⟩
    rw [labels_iff] at hls
    subst hls
    rw [(values_iff _ _).2 ⟨h1, h2⟩]
    simp only []
    rw [(addressNumber_iff _ _).2 ha, Option.map_some, text_of hb hc he hv]

end Ipv4
end Verif
