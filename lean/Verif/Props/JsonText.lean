import Verif.Codec.JsonLemmas
import Verif.Props.Encoding
import Verif.Spec.Json

/-! # C71: JSON texts -/

namespace Verif
open Spec

namespace Json

/-! ## White space -/

theorem isWs_iff (c : UInt8) : isWs c = true ↔ c ∈ strBytes " \t\n\r" := by
  have h : strBytes " \t\n\r" = [32, 9, 10, 13] := by decide +kernel
  rw [h]
  simp only [isWs, Bool.or_eq_true, beq_iff_eq, List.mem_cons, List.not_mem_nil, or_false]
  constructor
  · rintro (((h | h) | h) | h) <;> simp [h]
  · rintro (h | h | h | h) <;> simp [h]

theorem skipWs_split (b : Bytes) : ∃ w, Ws w ∧ b = w ++ skipWs b := by
  induction b with
  | nil => exact ⟨[], (fun _ h => by cases h), rfl⟩
  | cons c cs ih =>
    simp only [skipWs]
    split
    · rename_i h
      obtain ⟨w, hw, e⟩ := ih
      refine ⟨c :: w, ?_, by rw [List.cons_append, ← e]⟩
      intro x hx
      rcases List.mem_cons.1 hx with rfl | hx
      · exact (isWs_iff _).1 h
      · exact hw x hx
    · exact ⟨[], (fun _ h => by cases h), rfl⟩

theorem skipWs_append {w : Bytes} (hw : Ws w) (b : Bytes) : skipWs (w ++ b) = skipWs b := by
  induction w with
  | nil => rfl
  | cons c w ih =>
    rw [List.cons_append, skipWs, if_pos ((isWs_iff c).2 (hw c (List.mem_cons_self ..)))]
    exact ih fun x hx => hw x (List.mem_cons_of_mem _ hx)

theorem skipWs_idem (b : Bytes) : skipWs (skipWs b) = skipWs b := by
  obtain ⟨w, hw, e⟩ := skipWs_split b
  have := skipWs_append hw (skipWs b)
  rw [← e] at this
  exact this.symm

/-! ## Strings -/

theorem hexVal_iff (c : UInt8) (v : Nat) : hexVal c = some v ↔ HexDigit c v := by
  have l1 : strBytes "0123456789abcdef" = [48,49,50,51,52,53,54,55,56,57,97,98,99,100,101,102] := by decide +kernel
  have l2 : strBytes "0123456789ABCDEF" = [48,49,50,51,52,53,54,55,56,57,65,66,67,68,69,70] := by decide +kernel
  unfold HexDigit
  rw [l1, l2]
  constructor
  · intro h
    have : ∀ c : UInt8, ∀ v ∈ hexVal c, [48,49,50,51,52,53,54,55,56,57,97,98,99,100,101,102][v]? = some c ∨
        [48,49,50,51,52,53,54,55,56,57,65,66,67,68,69,70][v]? = some c :=
      forall_uint8 (P := fun c => ∀ v ∈ hexVal c, [48,49,50,51,52,53,54,55,56,57,97,98,99,100,101,102][v]? = some c ∨
        [48,49,50,51,52,53,54,55,56,57,65,66,67,68,69,70][v]? = some c) (by decide +kernel)
    exact this c v h
  · intro h
    have key : ∀ c ∈ [48,49,50,51,52,53,54,55,56,57,97,98,99,100,101,102,65,66,67,68,69,70], ∀ v : Fin 16,
        ([48,49,50,51,52,53,54,55,56,57,97,98,99,100,101,102][v.val]? = some c ∨
        [48,49,50,51,52,53,54,55,56,57,65,66,67,68,69,70][v.val]? = some c) → hexVal c = some v.val := by decide +kernel
    have hv : v < 16 := by
      rcases h with h | h
      · exact (List.getElem?_eq_some_iff.1 h).1
      · exact (List.getElem?_eq_some_iff.1 h).1
    refine key c ?_ ⟨v, hv⟩ h
    rcases h with h | h
    · have := List.mem_of_getElem? h
      simp only [List.mem_cons, List.not_mem_nil, or_false] at this ⊢
      simp only [← or_assoc] at this ⊢
      simp [this]
    · have := List.mem_of_getElem? h
      simp only [List.mem_cons, List.not_mem_nil, or_false] at this ⊢
      rcases this with h | h | h | h | h | h | h | h | h | h | h | h | h | h | h | h <;> simp [h]

theorem hex4_iff (a b c d : UInt8) (n : Nat) : hex4 a b c d = some n ↔ Hex4 [a, b, c, d] n := by
  unfold hex4
  constructor
  · intro h
    split at h
    · rename_i w x y z h1 h2 h3 h4
      cases h
      exact ⟨a, b, c, d, w, x, y, z, rfl, (hexVal_iff _ _).1 h1, (hexVal_iff _ _).1 h2, (hexVal_iff _ _).1 h3, (hexVal_iff _ _).1 h4, by omega⟩
    · cases h
  · rintro ⟨a', b', c', d', w, x, y, z, e, h1, h2, h3, h4, rfl⟩
    cases e
    rw [(hexVal_iff _ _).2 h1, (hexVal_iff _ _).2 h2, (hexVal_iff _ _).2 h3, (hexVal_iff _ _).2 h4]
    simp only [Option.some.injEq]
    omega

theorem simpleEsc_iff (e x : UInt8) : simpleEsc e = some x ↔ (e, x) ∈ escapes := by
  have h1 : ∀ e : UInt8, ∀ x ∈ simpleEsc e, (e, x) ∈ escapes :=
    forall_uint8 (P := fun e => ∀ x ∈ simpleEsc e, (e, x) ∈ escapes) (by decide +kernel)
  have h2 : ∀ p ∈ escapes, simpleEsc p.1 = some p.2 := by decide +kernel
  exact ⟨h1 e x, fun h => h2 (e, x) h⟩

theorem pStrBytes_pair {a b c d a' b' c' d' : UInt8} {n m : Nat} {r : Bytes} (h : hex4 a b c d = some n) (h' : hex4 a' b' c' d' = some m)
    (h1 : 0xD800 ≤ n) (h2 : n < 0xDC00) (h3 : 0xDC00 ≤ m) (h4 : m < 0xE000) :
    pStrBytes (92 :: 117 :: a :: b :: c :: d :: 92 :: 117 :: a' :: b' :: c' :: d' :: r) = (match pStrBytes r with
      | none => none
      | some (s, rest) => some (String.utf8EncodeChar (Char.ofNat (0x10000 + (n - 0xD800) * 0x400 + (m - 0xDC00))) ++ s, rest)) := by
  rw [pStrBytes]
  simp only [h, h']
  rw [if_neg (by omega), if_pos (by omega), if_pos (by omega)]
  rw [show (n - 0xD800) * 0x400 + (m - 0xDC00) + 0x10000 = 0x10000 + (n - 0xD800) * 0x400 + (m - 0xDC00) by omega]
  rfl

theorem pStrBytes_code {a b c d : UInt8} {n : Nat} {r : Bytes} (h : hex4 a b c d = some n) (hn : ¬ (0xD800 ≤ n ∧ n < 0xE000)) :
    pStrBytes (92 :: 117 :: a :: b :: c :: d :: r) =
      (pStrBytes r).map fun p => (String.utf8EncodeChar (Char.ofNat n) ++ p.1, p.2) := by
  conv => lhs; rw [pStrBytes]
  rw [h]
  simp only []
  rw [if_neg (by omega), if_neg (by omega)]
  cases pStrBytes r with
  | none => rfl
  | some p => rfl

theorem pStrBytes_complete {t s : Bytes} (h : Chars t s) (r : Bytes) : pStrBytes (t ++ 34 :: r) = some (s, r) := by
  induction h with
  | nil => rfl
  | @plain c t s h1 h2 h3 _ ih =>
    rw [List.cons_append, pStrBytes_cons (by rw [UInt8.lt_iff_toNat_lt]; simp; omega) h2 h3, ih]
    rfl
  | escape h _ ih =>
    simp only [List.cons_append]
    rw [pStrBytes_simple ((simpleEsc_iff _ _).2 h), ih]
    rfl
  | @code h t s n hh hn _ ih =>
    obtain ⟨a, b, c, d, _, _, _, _, rfl, _⟩ := id hh
    simp only [List.cons_append, List.nil_append]
    rw [pStrBytes_code ((hex4_iff _ _ _ _ _).2 hh) hn, ih]
    rfl
  | @pair h h' t s n m hh hh' h1 h2 h3 h4 _ ih =>
    obtain ⟨a, b, c, d, _, _, _, _, rfl, _⟩ := id hh
    obtain ⟨a', b', c', d', _, _, _, _, rfl, _⟩ := id hh'
    simp only [List.cons_append, List.nil_append]
    rw [pStrBytes_pair ((hex4_iff _ _ _ _ _).2 hh) ((hex4_iff _ _ _ _ _).2 hh') h1 h2 h3 h4, ih]

theorem pStrBytes_sound (b s r : Bytes) (h : pStrBytes b = some (s, r)) : ∃ t, b = t ++ 34 :: r ∧ Chars t s := by
  fun_induction pStrBytes b generalizing s r
  case case2 => cases h; exact ⟨[], rfl, .nil⟩
  case case7 a b c d n hn _ h2 a' b' c' d' r' m hm h4 s' rest' hr ih =>
    obtain ⟨t, rfl, ht⟩ := ih _ _ hr
    rw [Option.some.injEq, Prod.mk.injEq] at h
    obtain ⟨rfl, rfl⟩ := h
    refine ⟨92 :: 117 :: ([a, b, c, d] ++ 92 :: 117 :: ([a', b', c', d'] ++ t)), rfl, ?_⟩
    rw [show (n - 0xD800) * 0x400 + (m - 0xDC00) + 0x10000 = 0x10000 + (n - 0xD800) * 0x400 + (m - 0xDC00) by omega]
    exact .pair ((hex4_iff _ _ _ _ _).1 hn) ((hex4_iff _ _ _ _ _).1 hm) h2.1 h2.2 h4.1 h4.2 ht
  case case11 a b c d r' n hn h1 h2 s' rest' hr ih =>
    obtain ⟨t, rfl, ht⟩ := ih _ _ hr
    rw [Option.some.injEq, Prod.mk.injEq] at h
    obtain ⟨rfl, rfl⟩ := h
    exact ⟨92 :: 117 :: ([a, b, c, d] ++ t), rfl, .code ((hex4_iff _ _ _ _ _).1 hn) (by omega) ht⟩
  case case14 e r' _ x hx s' rest' hr ih =>
    obtain ⟨t, rfl, ht⟩ := ih _ _ hr
    rw [Option.some.injEq, Prod.mk.injEq] at h
    obtain ⟨rfl, rfl⟩ := h
    exact ⟨92 :: e :: t, rfl, .escape ((simpleEsc_iff _ _).1 hx) ht⟩
  case case17 c r' h34 _ _ hc s' rest' hr ih =>
    obtain ⟨t, rfl, ht⟩ := ih _ _ hr
    rw [Option.some.injEq, Prod.mk.injEq] at h
    obtain ⟨rfl, rfl⟩ := h
    refine ⟨c :: t, rfl, .plain ?_ h34 (fun e => hc (Or.inr e)) ht⟩
    have : ¬ c < 32 := fun e => hc (Or.inl e)
    rw [UInt8.lt_iff_toNat_lt] at this
    simpa using this
  all_goals cases h

theorem pStr_sound {b : Bytes} {s : String} {r : Bytes} (h : pStr b = some (s, r)) : ∃ t, b = t ++ r ∧ StringText (34 :: t) s := by
  unfold pStr at h
  split at h
  · cases h
  rename_i s' rest hs
  split at h
  · cases h
  rename_i u hu
  cases h
  obtain ⟨t, rfl, ht⟩ := pStrBytes_sound _ _ _ hs
  refine ⟨t ++ [34], by simp, t, rfl, ?_⟩
  rwa [strBytes_of_bytesStr? hu]

theorem pStr_complete {t : Bytes} {s : String} (h : StringText (34 :: t) s) (r : Bytes) : pStr (t ++ r) = some (s, r) := by
  obtain ⟨body, e, hb⟩ := h
  cases e
  unfold pStr
  rw [List.append_assoc, List.singleton_append, pStrBytes_complete hb]
  simp only [bytesStr?_strBytes]

/-! ## Numbers -/

theorem isDigit_iff (c : UInt8) : isDigit c = true ↔ 48 ≤ c.toNat ∧ c.toNat ≤ 57 := by
  simp [isDigit, UInt8.le_iff_toNat_le]

theorem spanDigits_spec (b : Bytes) : b = (spanDigits b).1 ++ (spanDigits b).2 ∧ (∀ c ∈ (spanDigits b).1, isDigit c = true) := by
  induction b with
  | nil => exact ⟨rfl, (fun _ h => by cases h)⟩
  | cons c cs ih =>
    simp only [spanDigits]
    split
    · rename_i h
      refine ⟨by rw [List.cons_append, ← ih.1], ?_⟩
      intro x hx
      rcases List.mem_cons.1 hx with rfl | hx
      · exact h
      · exact ih.2 x hx
    · exact ⟨rfl, (fun _ h => by cases h)⟩

theorem digits_span {b : Bytes} (h : (spanDigits b).1 ≠ []) : Digits (spanDigits b).1 :=
  ⟨h, fun c hc => (isDigit_iff c).1 ((spanDigits_spec b).2 c hc)⟩

theorem decVal_eq (b : Bytes) : decVal b = digitsValue b := (numeral_eq 10 _).symm

theorem pFrac_sound {b fr r : Bytes} (h : pFrac b = some (fr, r)) : b = fr ++ r ∧ Fraction fr := by
  unfold pFrac at h
  split at h
  · split at h
    · cases h
    · rename_i hne
      cases h
      exact ⟨by rw [List.cons_append, ← (spanDigits_spec _).1], Or.inr ⟨_, rfl, digits_span hne⟩⟩
  · cases h
    exact ⟨rfl, Or.inl rfl⟩

theorem pExp_sound {b ex r : Bytes} (h : pExp b = some (ex, r)) : b = ex ++ r ∧ Exponent ex := by
  unfold pExp at h
  split at h
  · rename_i e r0
    split at h
    · rename_i he
      split at h
      · rename_i s r'
        split at h
        · rename_i hs
          unfold pExpDigits at h
          split at h
          · cases h
          · rename_i hne
            cases h
            refine ⟨by simp [← (spanDigits_spec r').1], Or.inr ⟨e, [s], _, rfl, he, ?_, digits_span hne⟩⟩
            rcases hs with rfl | rfl <;> simp
        · unfold pExpDigits at h
          split at h
          · cases h
          · rename_i hne
            cases h
            exact ⟨by simp [← (spanDigits_spec _).1], Or.inr ⟨e, [], _, rfl, he, Or.inl rfl, digits_span hne⟩⟩
      · cases h
    · cases h
      exact ⟨rfl, Or.inl rfl⟩
  · cases h
    exact ⟨rfl, Or.inl rfl⟩

theorem natural_span {b : Bytes} (h : (spanDigits b).1 ≠ []) (h0 : ¬ ((spanDigits b).1.head? = some 48 ∧ (spanDigits b).1.length ≠ 1)) :
    Natural (spanDigits b).1 := by
  refine ⟨digits_span h, ?_⟩
  by_cases hh : (spanDigits b).1.head? = some 48
  · left
    have hl : (spanDigits b).1.length = 1 := Decidable.byContradiction fun x => h0 ⟨hh, x⟩
    cases hs : (spanDigits b).1 with
    | nil => exact absurd hs h
    | cons c t =>
      rw [hs] at hl hh
      have : t = [] := by simpa using hl
      subst this
      simpa using hh
  · exact Or.inr hh

theorem pUnsigned_sound {D : Deps} {neg : Bool} {b r : Bytes} {v : Json} (h : pUnsigned D neg b = some (v, r)) :
    ∃ t, b = t ++ r ∧ NumberText D ((if neg then [45] else []) ++ t) v := by
  unfold pUnsigned at h
  simp only at h
  split at h
  · cases h
  rename_i hne
  split at h
  · cases h
  rename_i h0
  split at h
  · cases h
  rename_i fr r2 hf
  split at h
  · cases h
  rename_i ex r3 he
  obtain ⟨e1, hfr⟩ := pFrac_sound hf
  obtain ⟨e2, hex⟩ := pExp_sound he
  have hnat := natural_span hne h0
  have e0 := (spanDigits_spec b).1
  rw [decVal_eq] at h
  refine ⟨(spanDigits b).1 ++ fr ++ ex, ?_, ?_⟩
  · split at h
    · cases h; rw [List.append_assoc, List.append_assoc, ← e2, ← e1]; exact e0
    split at h
    · cases h; rw [List.append_assoc, List.append_assoc, ← e2, ← e1]; exact e0
    split at h
    · cases h
    · cases h; rw [List.append_assoc, List.append_assoc, ← e2, ← e1]; exact e0
  · split at h
    · rename_i hc
      obtain ⟨rfl, rfl, rfl, hlt⟩ := hc
      cases h
      simp only [List.append_nil]
      exact .nat hnat hlt
    rename_i hc1
    split at h
    · rename_i hc
      obtain ⟨rfl, rfl, rfl, h1, h2⟩ := hc
      cases h
      simp only [List.append_nil]
      exact .neg hnat h1 h2
    rename_i hc2
    split at h
    · cases h
    · rename_i f hp
      cases h
      rw [← List.append_assoc, ← List.append_assoc]
      refine .double ?_ hnat hfr hex ?_ ?_ ?_
      · cases neg <;> simp
      · intro a1 a2 a3
        cases neg with
        | true => simp at a3
        | false => exact Nat.le_of_not_lt fun hl => hc1 ⟨a1, a2, rfl, hl⟩
      · intro a1 a2 a3
        cases neg with
        | false => simp at a3
        | true =>
          apply Decidable.byContradiction
          intro hn
          exact hc2 ⟨a1, a2, rfl, by omega, by omega⟩
      · simpa only [List.append_assoc] using hp

theorem pNumber_sound {D : Deps} {b r : Bytes} {v : Json} (h : pNumber D b = some (v, r)) : ∃ t, b = t ++ r ∧ NumberText D t v := by
  unfold pNumber at h
  split at h
  · obtain ⟨t, rfl, ht⟩ := pUnsigned_sound h
    exact ⟨45 :: t, rfl, by simpa using ht⟩
  · obtain ⟨t, rfl, ht⟩ := pUnsigned_sound h
    exact ⟨t, rfl, by simpa using ht⟩

theorem pFrac_complete {fr r : Bytes} (h : Fraction fr) (hr : ∀ c, r.head? = some c → isDigit c = false ∧ c ≠ 46) :
    pFrac (fr ++ r) = some (fr, r) := by
  rcases h with rfl | ⟨ds, rfl, hne, hds⟩
  · unfold pFrac
    split
    · rename_i e
      exact absurd rfl ((hr 46 (by simp only [List.nil_append] at e; rw [e]; rfl)).2)
    · rfl
  · rw [List.cons_append, pFrac, spanDigits_append (fun c hc => (isDigit_iff c).2 (hds c hc)) (fun c hc => (hr c hc).1), if_neg hne]

theorem pExp_complete {ex r : Bytes} (h : Exponent ex) (hr : NumEnd r) : pExp (ex ++ r) = some (ex, r) := by
  rcases h with rfl | ⟨e, sg, ds, rfl, he, hsg, hne, hds⟩
  · exact pExp_end hr
  · have hs := spanDigits_append (fun c hc => (isDigit_iff c).2 (hds c hc)) (fun c hc => (hr c hc).1)
    rw [List.cons_append, pExp.eq_def]
    simp only
    rw [if_pos he]
    rcases hsg with rfl | rfl | rfl
    · cases ds with
      | nil => exact absurd rfl hne
      | cons d ds =>
        simp only [List.nil_append, List.cons_append]
        have hd := hds d (List.mem_cons_self ..)
        rw [if_neg (by rintro (rfl | rfl) <;> exact absurd hd (by decide))]
        simp only [pExpDigits]
        simp only [List.cons_append] at hs
        rw [hs, if_neg hne]
        rfl
    · simp only [List.cons_append, List.nil_append, true_or, if_true]
      rw [pExpDigits, hs, if_neg hne]
      rfl
    · simp only [List.cons_append, List.nil_append, or_true, if_true]
      rw [pExpDigits, hs, if_neg hne]
      rfl

theorem exponent_head {ex r : Bytes} (h : Exponent ex) (hr : NumEnd r) : ∀ c, (ex ++ r).head? = some c → isDigit c = false ∧ c ≠ 46 := by
  rcases h with rfl | ⟨e, sg, ds, rfl, he, _⟩
  · intro c hc; exact ⟨(hr c hc).1, (hr c hc).2.1⟩
  · intro c hc
    cases hc
    rcases he with rfl | rfl <;> decide

theorem fraction_head {fr r : Bytes} (h : Fraction fr) (hr : ∀ c, r.head? = some c → isDigit c = false ∧ c ≠ 46) :
    ∀ c, (fr ++ r).head? = some c → isDigit c = false := by
  rcases h with rfl | ⟨ds, rfl, _⟩
  · intro c hc; exact (hr c hc).1
  · intro c hc
    cases hc
    decide

theorem pUnsigned_complete (D : Deps) (neg : Bool) {ip fr ex r : Bytes} (hip : Natural ip) (hfr : Fraction fr) (hex : Exponent ex) (hr : NumEnd r) :
    pUnsigned D neg (ip ++ (fr ++ (ex ++ r))) =
      if fr = [] ∧ ex = [] ∧ neg = false ∧ digitsValue ip < 2 ^ 64 then some (int (Int.ofNat (digitsValue ip)), r)
      else if fr = [] ∧ ex = [] ∧ neg = true ∧ digitsValue ip ≠ 0 ∧ digitsValue ip ≤ 2 ^ 63 then some (int (-(Int.ofNat (digitsValue ip))), r)
      else match D.f64Parse ((if neg then [45] else []) ++ ip ++ fr ++ ex) with
        | none => none
        | some f => some (float f, r) := by
  unfold pUnsigned
  have h1 := exponent_head hex hr
  rw [spanDigits_append (fun c hc => (isDigit_iff c).2 (hip.1.2 c hc)) (fraction_head hfr h1)]
  simp only [hip.1.1, if_false]
  rw [if_neg, pFrac_complete hfr h1]
  · simp only [pExp_complete hex hr, decVal_eq]
    rfl
  · rintro ⟨a, b⟩
    rcases hip.2 with h | h
    · rw [h] at b; exact b rfl
    · exact h a

theorem natural_head {ip : Bytes} (h : Natural ip) : ∃ c t, ip = c :: t ∧ isDigit c = true := by
  cases ip with
  | nil => exact absurd rfl h.1.1
  | cons c t => exact ⟨c, t, rfl, (isDigit_iff c).2 (h.1.2 c (List.mem_cons_self ..))⟩

theorem pNumber_pos (D : Deps) {ip b : Bytes} (h : Natural ip) : pNumber D (ip ++ b) = pUnsigned D false (ip ++ b) := by
  obtain ⟨c, t, rfl, hc⟩ := natural_head h
  rw [List.cons_append]
  unfold pNumber
  split
  · rename_i e
    cases e
    exact absurd hc (by decide)
  · rfl

theorem pNumber_complete {D : Deps} {t r : Bytes} {v : Json} (h : NumberText D t v) (hr : NumEnd r) : pNumber D (t ++ r) = some (v, r) := by
  cases h with
  | nat h1 h2 =>
    rw [pNumber_pos D h1]
    have := pUnsigned_complete D false h1 (Or.inl rfl) (Or.inl rfl) hr
    rw [if_pos ⟨rfl, rfl, rfl, h2⟩] at this
    exact this
  | neg h1 h2 h3 =>
    rw [List.cons_append, pNumber]
    have := pUnsigned_complete D true h1 (Or.inl rfl) (Or.inl rfl) hr
    rw [if_neg (by simp), if_pos ⟨rfl, rfl, rfl, h2, h3⟩] at this
    exact this
  | @double sg ip fr ex f hsg h1 h2 h3 h4 h5 h6 =>
    rcases hsg with rfl | rfl
    · simp only [List.nil_append, List.append_assoc] at h6 ⊢
      rw [pNumber_pos D h1, pUnsigned_complete D false h1 h2 h3 hr, if_neg, if_neg]
      · simp only [Bool.false_eq_true, if_false, List.nil_append, List.append_assoc, h6]
      · simp
      · rintro ⟨a, b, _, c⟩
        have := h4 a b rfl
        omega
    · simp only [List.cons_append, List.nil_append, List.append_assoc] at h6 ⊢
      rw [pNumber, pUnsigned_complete D true h1 h2 h3 hr, if_neg, if_neg]
      · simp only [if_true, List.cons_append, List.nil_append, List.append_assoc, h6]
      · rintro ⟨a, b, _, c⟩
        have := h5 a b rfl
        omega
      · simp

theorem numberText_head {D : Deps} {t : Bytes} {v : Json} (h : NumberText D t v) : ∃ c r, t = c :: r ∧ (isDigit c = true ∨ c = 45) := by
  cases h with
  | nat h1 _ =>
    obtain ⟨c, r, rfl, hc⟩ := natural_head h1
    exact ⟨c, r, rfl, Or.inl hc⟩
  | neg h1 _ _ => exact ⟨45, _, rfl, Or.inr rfl⟩
  | double hsg h1 _ _ _ _ _ =>
    obtain ⟨c, r, rfl, hc⟩ := natural_head h1
    rcases hsg with rfl | rfl
    · exact ⟨c, _, rfl, Or.inl hc⟩
    · exact ⟨45, _, rfl, Or.inr rfl⟩

/-! ## Values: soundness -/

theorem elements_of {D : Deps} {w t r' r : Bytes} {v : Json} {l : List Json} (hw : Ws w) (ht : ValueText D t v)
    (h : (∃ w', Ws w' ∧ l = [] ∧ r' = w' ++ 93 :: r) ∨ ∃ w' ts, Ws w' ∧ r' = w' ++ 44 :: (ts ++ 93 :: r) ∧ ElementsText D ts l) :
    ∃ ts, w ++ (t ++ r') = ts ++ 93 :: r ∧ ElementsText D ts (v :: l) := by
  rcases h with ⟨w', hw', rfl, rfl⟩ | ⟨w', ts, hw', rfl, hts⟩
  · exact ⟨w ++ (t ++ w'), by simp, .one (.mk hw ht hw')⟩
  · exact ⟨(w ++ (t ++ w')) ++ 44 :: ts, by simp, .more (.mk hw ht hw') hts⟩

theorem sound (D : Deps) : ∀ f : Nat,
    (∀ d b v r, pValue D f d b = some (v, r) → ∃ w t, Ws w ∧ b = w ++ (t ++ r) ∧ ValueText D t v ∧ DepthLe v (d - 1)) ∧
    (∀ d b l r, pElems D f d b = some (l, r) → ((∃ w, Ws w ∧ l = [] ∧ b = w ++ 93 :: r) ∨ ∃ t, b = t ++ 93 :: r ∧ ElementsText D t l) ∧
      ∀ v ∈ l, DepthLe v (d - 1)) ∧
    (∀ d b l r, pElemsTail D f d b = some (l, r) → ((∃ w, Ws w ∧ l = [] ∧ b = w ++ 93 :: r) ∨
      ∃ w t, Ws w ∧ b = w ++ 44 :: (t ++ 93 :: r) ∧ ElementsText D t l) ∧ ∀ v ∈ l, DepthLe v (d - 1)) ∧
    (∀ d b m r, pMembers D f d b = some (m, r) → ((∃ w, Ws w ∧ m = [] ∧ b = w ++ 125 :: r) ∨ ∃ t, b = t ++ 125 :: r ∧ MembersText D t m) ∧
      ∀ e ∈ m, DepthLe e.2 (d - 1)) ∧
    (∀ d b m r, pMember D f d b = some (m, r) → (∃ t, b = t ++ 125 :: r ∧ MembersText D t m) ∧ ∀ e ∈ m, DepthLe e.2 (d - 1)) ∧
    (∀ d b m r, pMembersTail D f d b = some (m, r) → ((∃ w, Ws w ∧ m = [] ∧ b = w ++ 125 :: r) ∨
      ∃ w t, Ws w ∧ b = w ++ 44 :: (t ++ 125 :: r) ∧ MembersText D t m) ∧ ∀ e ∈ m, DepthLe e.2 (d - 1)) := by
  intro f
  induction f with
  | zero =>
    refine ⟨?_, ?_, ?_, ?_, ?_, ?_⟩ <;> intro d b v r h
    · rw [pValue] at h; cases h
    · rw [pElems] at h; cases h
    · rw [pElemsTail] at h; cases h
    · rw [pMembers] at h; cases h
    · rw [pMember] at h; cases h
    · rw [pMembersTail] at h; cases h
  | succ f ih =>
    obtain ⟨ihV, ihE, ihET, ihMs, ihM, ihMT⟩ := ih
    refine ⟨?_, ?_, ?_, ?_, ?_, ?_⟩
    · intro d b v r h
      rw [pValue] at h
      obtain ⟨w, hw, e⟩ := skipWs_split b
      split at h
      · rename_i r0 hs; cases h; rw [hs] at e
        exact ⟨w, _, hw, e, .null, .null⟩
      · rename_i r0 hs; cases h; rw [hs] at e
        exact ⟨w, _, hw, e, .true, .bool⟩
      · rename_i r0 hs; cases h; rw [hs] at e
        exact ⟨w, _, hw, e, .false, .bool⟩
      · rename_i r0 hs
        split at h
        · cases h
        rename_i s r' hp
        cases h
        obtain ⟨t, rfl, ht⟩ := pStr_sound hp
        exact ⟨w, 34 :: t, hw, by rw [e, hs]; rfl, .string ht, .str⟩
      · rename_i r0 hs
        split at h
        · cases h
        rename_i hd
        split at h
        · cases h
        rename_i l r' hp
        cases h
        obtain ⟨h1, h2⟩ := ihE _ _ _ _ hp
        have hdep : DepthLe (.arr l) (d - 1) := by
          rw [show d - 1 = (d - 1 - 1) + 1 by omega]
          exact .arr h2
        rcases h1 with ⟨w', hw', rfl, rfl⟩ | ⟨t, rfl, ht⟩
        · exact ⟨w, _, hw, by rw [e, hs]; simp, .emptyArray hw', hdep⟩
        · exact ⟨w, _, hw, by rw [e, hs]; simp, .array ht, hdep⟩
      · rename_i r0 hs
        split at h
        · cases h
        rename_i hd
        split at h
        · cases h
        rename_i l r' hp
        cases h
        obtain ⟨h1, h2⟩ := ihMs _ _ _ _ hp
        have hdep : DepthLe (.obj l) (d - 1) := by
          rw [show d - 1 = (d - 1 - 1) + 1 by omega]
          exact .obj h2
        rcases h1 with ⟨w', hw', rfl, rfl⟩ | ⟨t, rfl, ht⟩
        · exact ⟨w, _, hw, by rw [e, hs]; simp, .emptyObject hw', hdep⟩
        · exact ⟨w, _, hw, by rw [e, hs]; simp, .object ht, hdep⟩
      · obtain ⟨t, e', ht⟩ := pNumber_sound h
        refine ⟨w, t, hw, by rw [← e']; exact e, .number ht, ?_⟩
        cases ht with
        | nat _ _ => exact .int
        | neg _ _ _ => exact .int
        | double _ _ _ _ _ _ _ => exact .float
    · intro d b l r h
      rw [pElems] at h
      obtain ⟨w, hw, e⟩ := skipWs_split b
      split at h
      · rename_i r0 hs
        cases h
        rw [hs] at e
        exact ⟨Or.inl ⟨w, hw, rfl, e⟩, (fun _ h => by cases h)⟩
      · split at h
        · cases h
        rename_i x r' hx
        split at h
        · cases h
        rename_i xs r'' hxs
        cases h
        obtain ⟨w2, t, hw2, e2, ht, hd⟩ := ihV _ _ _ _ hx
        obtain ⟨h1, h2⟩ := ihET _ _ _ _ hxs
        have hww : Ws (w ++ w2) := by
          intro c hc
          rcases List.mem_append.1 hc with hc | hc
          · exact hw c hc
          · exact hw2 c hc
        obtain ⟨ts, e3, h3⟩ := elements_of hww ht h1
        refine ⟨Or.inr ⟨ts, ?_, h3⟩, ?_⟩
        · rw [e, e2, ← List.append_assoc, e3]
        · intro v hv
          rcases List.mem_cons.1 hv with rfl | hv
          · exact hd
          · exact h2 v hv
    · intro d b l r h
      rw [pElemsTail] at h
      obtain ⟨w, hw, e⟩ := skipWs_split b
      split at h
      · rename_i r0 hs
        cases h
        rw [hs] at e
        exact ⟨Or.inl ⟨w, hw, rfl, e⟩, (fun _ h => by cases h)⟩
      · rename_i r0 hs
        split at h
        · cases h
        rename_i x r' hx
        split at h
        · cases h
        rename_i xs r'' hxs
        cases h
        obtain ⟨w2, t, hw2, e2, ht, hd⟩ := ihV _ _ _ _ hx
        obtain ⟨h1, h2⟩ := ihET _ _ _ _ hxs
        obtain ⟨ts, e3, h3⟩ := elements_of hw2 ht h1
        refine ⟨Or.inr ⟨w, ts, hw, ?_, h3⟩, ?_⟩
        · rw [← e3, ← e2, ← hs]; exact e
        · intro v hv
          rcases List.mem_cons.1 hv with rfl | hv
          · exact hd
          · exact h2 v hv
      · cases h
    · intro d b m r h
      rw [pMembers] at h
      obtain ⟨w, hw, e⟩ := skipWs_split b
      split at h
      · rename_i r0 hs
        cases h
        rw [hs] at e
        exact ⟨Or.inl ⟨w, hw, rfl, e⟩, (fun _ h => by cases h)⟩
      · obtain ⟨⟨t, e', ht⟩, h2⟩ := ihM _ _ _ _ h
        refine ⟨Or.inr ⟨w ++ t, by rw [List.append_assoc, ← e']; exact e, ?_⟩, h2⟩
        have hww : ∀ w2, Ws w2 → Ws (w ++ w2) := by
          intro w2 hw2 c hc
          rcases List.mem_append.1 hc with hc | hc
          · exact hw c hc
          · exact hw2 c hc
        cases ht with
        | one a1 a2 a3 a4 => rw [← List.append_assoc]; exact .one (hww _ a1) a2 a3 a4
        | more a1 a2 a3 a4 a5 => rw [← List.append_assoc]; exact .more (hww _ a1) a2 a3 a4 a5
    · intro d b m r h
      rw [pMember] at h
      obtain ⟨w, hw, e⟩ := skipWs_split b
      split at h
      · rename_i r0 hs
        split at h
        · cases h
        rename_i k r' hk
        obtain ⟨w', hw', e'⟩ := skipWs_split r'
        split at h
        · rename_i r2 hs2
          split at h
          · cases h
          rename_i x r3 hx
          split at h
          · cases h
          rename_i xs r4 hxs
          cases h
          obtain ⟨w2, t, hw2, e2, ht, hd⟩ := ihV _ _ _ _ hx
          obtain ⟨h1, h2⟩ := ihMT _ _ _ _ hxs
          obtain ⟨kt, ek, hkt⟩ := pStr_sound hk
          refine ⟨?_, ?_⟩
          · rcases h1 with ⟨w3, hw3, rfl, rfl⟩ | ⟨w3, ts, hw3, rfl, hts⟩
            · refine ⟨_, ?_, .one hw hkt hw' (.mk hw2 ht hw3)⟩
              rw [e, hs, ek, e', hs2, e2]; simp
            · refine ⟨_, ?_, .more hw hkt hw' (.mk hw2 ht hw3) hts⟩
              rw [e, hs, ek, e', hs2, e2]; simp
          · intro v hv
            rcases List.mem_cons.1 hv with rfl | hv
            · exact hd
            · exact h2 v hv
        · cases h
      · cases h
    · intro d b m r h
      rw [pMembersTail] at h
      obtain ⟨w, hw, e⟩ := skipWs_split b
      split at h
      · rename_i r0 hs
        cases h
        rw [hs] at e
        exact ⟨Or.inl ⟨w, hw, rfl, e⟩, (fun _ h => by cases h)⟩
      · rename_i r0 hs
        obtain ⟨⟨t, e', ht⟩, h2⟩ := ihM _ _ _ _ h
        exact ⟨Or.inr ⟨w, t, hw, by rw [← e', ← hs]; exact e, ht⟩, h2⟩
      · cases h

/-! ## Values: completeness -/

theorem null_bytes : strBytes "null" = [110, 117, 108, 108] := by decide +kernel
theorem true_bytes : strBytes "true" = [116, 114, 117, 101] := by decide +kernel
theorem false_bytes : strBytes "false" = [102, 97, 108, 115, 101] := by decide +kernel

theorem valueText_head {D : Deps} {t : Bytes} {v : Json} (h : ValueText D t v) :
    ∃ c r, t = c :: r ∧ isWs c = false ∧ c ≠ 93 ∧ c ≠ 125 := by
  cases h with
  | null => rw [null_bytes]; exact ⟨_, _, rfl, by decide⟩
  | true => rw [true_bytes]; exact ⟨_, _, rfl, by decide⟩
  | false => rw [false_bytes]; exact ⟨_, _, rfl, by decide⟩
  | number h =>
    obtain ⟨c, r, rfl, hc⟩ := numberText_head h
    refine ⟨c, r, rfl, ?_⟩
    rcases hc with hc | rfl
    · have := (isDigit_iff c).1 hc
      refine ⟨?_, ?_, ?_⟩
      · simp only [isWs, Bool.or_eq_false_iff, beq_eq_false_iff_ne]
        refine ⟨⟨⟨?_, ?_⟩, ?_⟩, ?_⟩ <;> (rintro rfl; simp at this)
      · rintro rfl; simp at this
      · rintro rfl; simp at this
    · decide
  | string h => obtain ⟨body, rfl, _⟩ := h; exact ⟨_, _, rfl, by decide⟩
  | emptyArray _ => exact ⟨_, _, rfl, by decide⟩
  | array _ => exact ⟨_, _, rfl, by decide⟩
  | emptyObject _ => exact ⟨_, _, rfl, by decide⟩
  | object _ => exact ⟨_, _, rfl, by decide⟩

theorem pValue_ws (D : Deps) (f d : Nat) {w : Bytes} (hw : Ws w) (b : Bytes) : pValue D f d (w ++ b) = pValue D f d b := by
  cases f with
  | zero => rw [pValue, pValue]
  | succ f => rw [pValue, pValue, skipWs_append hw]

theorem numEnd_ws {w r : Bytes} (hw : Ws w) (hr : NumEnd r) : NumEnd (w ++ r) := by
  cases w with
  | nil => exact hr
  | cons c w =>
    intro x hx
    cases hx
    have := hw c (List.mem_cons_self ..)
    rw [show strBytes " \t\n\r" = [32, 9, 10, 13] by decide +kernel] at this
    simp only [List.mem_cons, List.not_mem_nil, or_false] at this
    rcases this with rfl | rfl | rfl | rfl <;> decide

theorem numEnd_punct {c : UInt8} (h : c = 44 ∨ c = 93 ∨ c = 125) (r : Bytes) : NumEnd (c :: r) := by
  intro x hx
  cases hx
  rcases h with rfl | rfl | rfl <;> decide

theorem elementsText_head {D : Deps} {t : Bytes} {l : List Json} (h : ElementsText D t l) :
    ∃ w c r, Ws w ∧ t = w ++ c :: r ∧ isWs c = false ∧ c ≠ 93 := by
  have key : ∀ {t v}, ElementText D t v → ∃ w c r, Ws w ∧ t = w ++ c :: r ∧ isWs c = false ∧ c ≠ 93 := by
    rintro t v ⟨hw, hv, _⟩
    obtain ⟨c, r, rfl, h1, h2, _⟩ := valueText_head hv
    exact ⟨_, c, _, hw, rfl, h1, h2⟩
  cases h with
  | one h => exact key h
  | more h _ =>
    obtain ⟨w, c, r, hw, rfl, h1, h2⟩ := key h
    exact ⟨w, c, _, hw, by rw [List.append_assoc]; rfl, h1, h2⟩

theorem membersText_head {D : Deps} {t : Bytes} {m : List (String × Json)} (h : MembersText D t m) : ∃ w r, Ws w ∧ t = w ++ 34 :: r := by
  cases h with
  | one hw hk _ _ =>
    obtain ⟨body, rfl, _⟩ := hk
    exact ⟨_, _, hw, rfl⟩
  | more hw hk _ _ _ =>
    obtain ⟨body, rfl, _⟩ := hk
    exact ⟨_, _, hw, rfl⟩

theorem pMember_ws (D : Deps) (f d : Nat) {w : Bytes} (hw : Ws w) (b : Bytes) : pMember D f d (w ++ b) = pMember D f d b := by
  cases f with
  | zero => rw [pMember, pMember]
  | succ f => rw [pMember, pMember, skipWs_append hw]

/-- One member: the key, the colon and the value are read, the tail is given. -/
theorem pMember_step (D : Deps) {f d : Nat} {w k w' b r' r : Bytes} {s : String} {v : Json} {m : List (String × Json)} (hw : Ws w)
    (hk : StringText k s) (hw' : Ws w') (hv : pValue D f d b = some (v, r')) (ht : pMembersTail D f d r' = some (m, r)) :
    pMember D (f + 1) d (w ++ (k ++ (w' ++ 58 :: b))) = some ((s, v) :: m, r) := by
  obtain ⟨body, rfl, _⟩ := id hk
  rw [pMember_ws D _ _ hw, List.cons_append, pMember, skipWs_cons (by decide)]
  simp only
  rw [pStr_complete hk]
  simp only
  rw [skipWs_append hw', skipWs_cons (by decide)]
  simp only
  rw [hv]
  simp only
  rw [ht]

theorem numberText_isNumber {D : Deps} {t : Bytes} {v : Json} (h : NumberText D t v) : IsNumber v := by
  cases h <;> trivial

theorem complete (D : Deps) {t : Bytes} {v : Json} (h : ValueText D t v) : ∀ f d r, (IsNumber v → NumEnd r) → DepthLe v (d - 1) → 2 * t.length ≤ f →
    pValue D f d (t ++ r) = some (v, r) := by
  refine @ValueText.rec D
    (fun t v _ => ∀ f d r, (IsNumber v → NumEnd r) → DepthLe v (d - 1) → 2 * t.length ≤ f → pValue D f d (t ++ r) = some (v, r))
    (fun t v _ => ∀ f d r, NumEnd r → DepthLe v (d - 1) → 2 * t.length ≤ f → ∃ w', Ws w' ∧ pValue D f d (t ++ r) = some (v, w' ++ r))
    (fun t l _ => ∀ f d r, (∀ v ∈ l, DepthLe v (d - 1)) → 2 * t.length + 1 ≤ f → ∃ v l' r', l = v :: l' ∧
      pValue D f d (t ++ 93 :: r) = some (v, r') ∧ pElemsTail D f d r' = some (l', r))
    (fun t m _ => ∀ f d r, (∀ e ∈ m, DepthLe e.2 (d - 1)) → 2 * t.length + 1 ≤ f → pMember D f d (t ++ 125 :: r) = some (m, r))
    ?_ ?_ ?_ ?_ ?_ ?_ ?_ ?_ ?_ ?_ ?_ ?_ ?_ ?_ t v h
  · intro f d r _ _ hf
    rw [null_bytes] at hf ⊢
    obtain ⟨f, rfl⟩ : ∃ g, f = g + 1 := ⟨f - 1, by simp at hf; omega⟩
    rw [pValue]
    rfl
  · intro f d r _ _ hf
    rw [true_bytes] at hf ⊢
    obtain ⟨f, rfl⟩ : ∃ g, f = g + 1 := ⟨f - 1, by simp at hf; omega⟩
    rw [pValue]
    rfl
  · intro f d r _ _ hf
    rw [false_bytes] at hf ⊢
    obtain ⟨f, rfl⟩ : ∃ g, f = g + 1 := ⟨f - 1, by simp at hf; omega⟩
    rw [pValue]
    rfl
  · intro t v hn f d r hr _ hf
    obtain ⟨c, t', rfl, hc⟩ := numberText_head hn
    obtain ⟨f, rfl⟩ : ∃ g, f = g + 1 := ⟨f - 1, by simp at hf; omega⟩
    rw [List.cons_append, pValue_number D f d hc]
    exact pNumber_complete hn (hr (numberText_isNumber hn))
  · intro t s hs f d r _ _ hf
    obtain ⟨body, rfl, hb⟩ := id hs
    obtain ⟨f, rfl⟩ : ∃ g, f = g + 1 := ⟨f - 1, by simp at hf; omega⟩
    rw [List.cons_append, pValue, skipWs_cons (by decide)]
    simp only
    rw [pStr_complete hs]
  · intro w hw f d r _ hd hf
    obtain ⟨f, rfl⟩ : ∃ g, f = g + 2 := ⟨f - 2, by simp at hf; omega⟩
    rw [List.cons_append, pValue, skipWs_cons (by decide)]
    simp only
    rw [if_neg (by intro hle; rw [show d - 1 = 0 by omega] at hd; cases hd), pElems, List.append_assoc, skipWs_append hw, List.singleton_append,
      skipWs_cons (by decide)]
    rfl
  · intro t l he ih f d r _ hd hf
    obtain ⟨f, rfl⟩ : ∃ g, f = g + 2 := ⟨f - 2, by simp at hf; omega⟩
    rw [List.cons_append, pValue, skipWs_cons (by decide)]
    simp only
    have hd1 : ¬ d ≤ 1 := by intro hle; rw [show d - 1 = 0 by omega] at hd; cases hd
    rw [if_neg hd1, pElems, List.append_assoc, List.singleton_append]
    have hdl : ∀ v ∈ l, DepthLe v (d - 1 - 1) := by
      rw [show d - 1 = d - 1 - 1 + 1 by omega] at hd
      cases hd with
      | arr h => exact h
    obtain ⟨v, l', r', rfl, hv, hl⟩ := ih f (d - 1) r hdl (by simp at hf; omega)
    obtain ⟨w, c, t', hw, rfl, hc, hc93⟩ := elementsText_head he
    rw [List.append_assoc, pValue_ws D _ _ hw, List.cons_append] at hv
    rw [List.append_assoc, skipWs_append hw, List.cons_append, skipWs_cons hc]
    split
    · rename_i e
      split at e
      · rename_i e'; exact absurd (List.cons.inj e').1 hc93
      · rw [hv] at e
        simp only at e
        rw [hl] at e
        cases e
    · rename_i l2 r2 e
      split at e
      · rename_i e'; exact absurd (List.cons.inj e').1 hc93
      · rw [hv] at e
        simp only at e
        rw [hl] at e
        cases e
        rfl
  · intro w hw f d r _ hd hf
    obtain ⟨f, rfl⟩ : ∃ g, f = g + 2 := ⟨f - 2, by simp at hf; omega⟩
    rw [List.cons_append, pValue, skipWs_cons (by decide)]
    simp only
    rw [if_neg (by intro hle; rw [show d - 1 = 0 by omega] at hd; cases hd), pMembers, List.append_assoc, skipWs_append hw, List.singleton_append,
      skipWs_cons (by decide)]
    rfl
  · intro t m he ih f d r _ hd hf
    obtain ⟨f, rfl⟩ : ∃ g, f = g + 2 := ⟨f - 2, by simp at hf; omega⟩
    rw [List.cons_append, pValue, skipWs_cons (by decide)]
    simp only
    have hd1 : ¬ d ≤ 1 := by intro hle; rw [show d - 1 = 0 by omega] at hd; cases hd
    rw [if_neg hd1, pMembers, List.append_assoc, List.singleton_append]
    have hdl : ∀ e ∈ m, DepthLe e.2 (d - 1 - 1) := by
      rw [show d - 1 = d - 1 - 1 + 1 by omega] at hd
      cases hd with
      | obj h => exact h
    have hm := ih f (d - 1) r hdl (by simp at hf; omega)
    obtain ⟨w, t', hw, rfl⟩ := membersText_head he
    rw [List.append_assoc, pMember_ws D _ _ hw, List.cons_append] at hm
    rw [List.append_assoc, skipWs_append hw, List.cons_append, skipWs_cons (by decide)]
    change (match pMember D f (d - 1) (34 :: (t' ++ 125 :: r)) with
      | none => none
      | some (m, r') => some (Json.obj m, r')) = _
    rw [hm]
  · intro w t w' v hw hv hw' ih f d r hr hd hf
    refine ⟨w', hw', ?_⟩
    rw [List.append_assoc, pValue_ws D _ _ hw, List.append_assoc]
    exact ih f d (w' ++ r) (fun _ => numEnd_ws hw' hr) hd (by simp at hf; omega)
  · intro t v he ih f d r hd hf
    obtain ⟨w', hw', hv⟩ := ih f d (93 :: r) (numEnd_punct (by simp) r) (hd v (List.mem_cons_self ..)) (by omega)
    refine ⟨v, [], _, rfl, hv, ?_⟩
    obtain ⟨f, rfl⟩ : ∃ g, f = g + 1 := ⟨f - 1, by omega⟩
    rw [pElemsTail, skipWs_append hw', skipWs_cons (by decide)]
    rfl
  · intro t ts v l he hes ih ihs f d r hd hf
    obtain ⟨w', hw', hv⟩ := ih f d (44 :: (ts ++ 93 :: r)) (numEnd_punct (by simp) _) (hd v (List.mem_cons_self ..)) (by simp at hf; omega)
    refine ⟨v, l, _, rfl, by rw [List.append_assoc]; exact hv, ?_⟩
    obtain ⟨f, rfl⟩ : ∃ g, f = g + 1 := ⟨f - 1, by omega⟩
    obtain ⟨x, l', r', rfl, h1, h2⟩ := ihs f d r (fun y hy => hd y (List.mem_cons_of_mem _ hy)) (by simp at hf; omega)
    rw [pElemsTail, skipWs_append hw', skipWs_cons (by decide)]
    simp only
    rw [h1]
    simp only
    rw [h2]
  · intro w k w' t s v hw hk hw' he ih f d r hd hf
    obtain ⟨f, rfl⟩ : ∃ g, f = g + 2 := ⟨f - 2, by
      obtain ⟨body, rfl, _⟩ := hk
      simp at hf; omega⟩
    obtain ⟨w2, hw2, hv⟩ := ih (f + 1) d (125 :: r) (numEnd_punct (by simp) r) (hd _ (List.mem_cons_self ..)) (by simp at hf; omega)
    simp only [List.append_assoc, List.cons_append]
    refine pMember_step D hw hk hw' hv ?_
    rw [pMembersTail, skipWs_append hw2, skipWs_cons (by decide)]
    rfl
  · intro w k w' t ts s v m hw hk hw' he hes ih ihs f d r hd hf
    obtain ⟨f, rfl⟩ : ∃ g, f = g + 2 := ⟨f - 2, by
      obtain ⟨body, rfl, _⟩ := hk
      simp at hf; omega⟩
    obtain ⟨w2, hw2, hv⟩ := ih (f + 1) d (44 :: (ts ++ 125 :: r)) (numEnd_punct (by simp) _) (hd _ (List.mem_cons_self ..)) (by simp at hf; omega)
    simp only [List.append_assoc, List.cons_append]
    refine pMember_step D hw hk hw' hv ?_
    rw [pMembersTail, skipWs_append hw2, skipWs_cons (by decide)]
    simp only
    exact ihs f d r (fun y hy => hd y (List.mem_cons_of_mem _ hy)) (by simp at hf; omega)

end Json

/-! ## C71 -/

theorem depthLe_mono {v : Json} {n : Nat} (h : DepthLe v n) : ∀ {m : Nat}, n ≤ m → DepthLe v m := by
  induction h with
  | null => intros; exact .null
  | bool => intros; exact .bool
  | int => intros; exact .int
  | float => intros; exact .float
  | str => intros; exact .str
  | arr h ih =>
    intro m hm
    obtain ⟨m, rfl⟩ : ∃ k, m = k + 1 := ⟨m - 1, by omega⟩
    exact .arr fun v hv => ih v hv (by omega)
  | obj h ih =>
    intro m hm
    obtain ⟨m, rfl⟩ : ∃ k, m = k + 1 := ⟨m - 1, by omega⟩
    exact .obj fun v hv => ih v hv (by omega)

mutual
theorem depthLe_depth : ∀ v : Json, DepthLe v v.depth
  | .null => .null
  | .bool _ => .bool
  | .int _ => .int
  | .float _ => .float
  | .str _ => .str
  | .arr l => by
    rw [Json.depth, Nat.add_comm]
    exact .arr (depthLe_list l)
  | .obj m => by
    rw [Json.depth, Nat.add_comm]
    exact .obj (depthLe_members m)
theorem depthLe_list : ∀ (l : List Json), ∀ v ∈ l, DepthLe v (Json.depthList l)
  | [], _, h => by cases h
  | x :: xs, v, h => by
    rw [Json.depthList]
    rcases List.mem_cons.1 h with e | h
    · rw [e]; exact depthLe_mono (depthLe_depth x) (Nat.le_max_left _ _)
    · exact depthLe_mono (depthLe_list xs v h) (Nat.le_max_right _ _)
theorem depthLe_members : ∀ (m : List (String × Json)), ∀ e ∈ m, DepthLe e.2 (Json.depthMembers m)
  | [], _, h => by cases h
  | (k, x) :: xs, e, h => by
    rw [Json.depthMembers]
    rcases List.mem_cons.1 h with e' | h
    · rw [e']; exact depthLe_mono (depthLe_depth x) (Nat.le_max_left _ _)
    · exact depthLe_mono (depthLe_members xs e h) (Nat.le_max_right _ _)
end

theorem parse_of_text (D : Deps) {w t w' r : Bytes} {v : Json} (hw : Ws w) (ht : ValueText D t v) (hr : IsNumber v → Json.NumEnd (w' ++ r)) (hd : DepthLe v 127) :
    Json.pValue D (2 * (w ++ (t ++ (w' ++ r))).length + 2) Json.depthLimit (w ++ (t ++ (w' ++ r))) = some (v, w' ++ r) := by
  rw [Json.pValue_ws D _ _ hw]
  exact Json.complete D ht _ _ _ hr hd (by simp; omega)

/-- C71: when nothing but white space may follow the value, the reader accepts exactly the JSON texts of depth at most 127, each with the value it denotes. -/
theorem C71_accepts (D : Deps) (hD : D.jsonCheckEnd = true) (b : Bytes) (v : Json) :
    Json.parse D b = some v ↔ ElementText D b v ∧ DepthLe v 127 := by
  unfold Json.parse
  constructor
  · intro h
    split at h
    · cases h
    rename_i v' r hp
    split at h
    · cases h
    rename_i he
    cases h
    obtain ⟨w, t, hw, e, ht, hd⟩ := (Json.sound D _).1 _ _ _ _ hp
    refine ⟨?_, hd⟩
    obtain ⟨w', hw', e'⟩ := Json.skipWs_split r
    have hr : Json.skipWs r = [] := by
      simpa [hD] using he
    rw [hr, List.append_nil] at e'
    rw [e, e']
    exact .mk hw ht hw'
  · rintro ⟨⟨hw, ht, hw'⟩, hd⟩
    have hne : Json.NumEnd ([] : Bytes) := by intro c hc; cases hc
    have := parse_of_text D (r := []) hw ht (fun _ => Json.numEnd_ws hw' hne) hd
    rw [List.append_nil] at this
    rw [this]
    simp only
    rw [if_neg]
    have h0 : Json.skipWs (_ ++ []) = Json.skipWs [] := Json.skipWs_append hw' []
    rw [List.append_nil] at h0
    rw [h0]
    simp [Json.skipWs]

/-- C71: when the reader does not look beyond the value, what it accepts starts with a JSON text of the value. -/
theorem C71_prefix (D : Deps) (b : Bytes) (v : Json) (h : Json.parse D b = some v) :
    ∃ t r, b = t ++ r ∧ ElementText D t v ∧ DepthLe v 127 := by
  unfold Json.parse at h
  split at h
  · cases h
  rename_i v' r hp
  split at h
  · cases h
  cases h
  obtain ⟨w, t, hw, e, ht, hd⟩ := (Json.sound D _).1 _ _ _ _ hp
  exact ⟨w ++ (t ++ []), r, by simpa using e, .mk hw ht (fun _ h => by cases h), hd⟩

/-- C71: and it accepts whatever starts with a JSON text, unless a number goes on after it. -/
theorem C71_prefix_accepted (D : Deps) (hD : D.jsonCheckEnd = false) (t r : Bytes) (v : Json) (h : ElementText D t v) (hd : DepthLe v 127)
    (hr : ∀ c, r.head? = some c → c ∉ strBytes "0123456789.eE") : Json.parse D (t ++ r) = some v := by
  obtain ⟨hw, ht, hw'⟩ := h
  have hend : Json.NumEnd r := by
    intro c hc
    have := hr c hc
    rw [show strBytes "0123456789.eE" = [48, 49, 50, 51, 52, 53, 54, 55, 56, 57, 46, 101, 69] by decide +kernel] at this
    refine ⟨?_, ?_, ?_, ?_⟩
    · have key : ∀ c : UInt8, c ∉ [48, 49, 50, 51, 52, 53, 54, 55, 56, 57, 46, 101, 69] → Json.isDigit c = false :=
        forall_uint8 (P := fun c => c ∉ [48, 49, 50, 51, 52, 53, 54, 55, 56, 57, 46, 101, 69] → Json.isDigit c = false) (by decide +kernel)
      exact key c this
    · rintro rfl; exact this (by decide)
    · rintro rfl; exact this (by decide)
    · rintro rfl; exact this (by decide)
  have := parse_of_text D hw ht (fun _ => Json.numEnd_ws hw' hend) hd
  unfold Json.parse
  simp only [List.append_assoc]
  rw [this]
  simp [hD]

/-- C71: for everything but numbers, in particular for headers and payloads, the exact condition when the reader does not look beyond the value. -/
theorem C71_exact_prefix (D : Deps) (hD : D.jsonCheckEnd = false) (b : Bytes) (v : Json) (hv : ¬ IsNumber v) :
    Json.parse D b = some v ↔ (∃ t r, b = t ++ r ∧ ElementText D t v) ∧ DepthLe v 127 := by
  constructor
  · intro h
    obtain ⟨t, r, e, h1, h2⟩ := C71_prefix D b _ h
    exact ⟨⟨t, r, e, h1⟩, h2⟩
  · rintro ⟨⟨t, r, rfl, h⟩, hd⟩
    cases h with
    | @mk w t w' _ hw ht hw' =>
      have := parse_of_text D (r := r) (w' := w') hw ht (fun h => absurd h hv) hd
      unfold Json.parse
      simp only [List.append_assoc]
      rw [this]
      simp [hD]

/-- C71: a text denotes at most one value. -/
theorem C71_unambiguous (D : Deps) (b : Bytes) (v v' : Json) (h : ElementText D b v) (h' : ElementText D b v') : v = v' := by
  have key : ∀ {v : Json}, ElementText D b v → ∀ d, v.depth < d → ∃ w, Json.pValue D (2 * b.length) d b = some (v, w) := by
    rintro v ⟨hw, ht, hw'⟩ d hd
    rw [Json.pValue_ws D _ _ hw]
    have hne : Json.NumEnd ([] : Bytes) := by intro c hc; cases hc
    refine ⟨_, Json.complete D ht _ _ _ ?_ (depthLe_mono (depthLe_depth v) (by omega)) (by simp; omega)⟩
    have := Json.numEnd_ws hw' hne
    rw [List.append_nil] at this
    exact fun _ => this
  obtain ⟨w, h1⟩ := key h (v.depth + v'.depth + 1) (by omega)
  obtain ⟨w', h2⟩ := key h' (v.depth + v'.depth + 1) (by omega)
  rw [h1] at h2
  cases h2
  rfl

/-- C71: what the writer writes is a JSON text of the value (if doubles survive, see `Json.NumOk`). -/
theorem C71_written (D : Deps) (v : Json) (h : Json.NumOk D v) : ValueText D (Json.print D v) v := by
  have hne : Json.NumEnd ([] : Bytes) := by intro c hc; cases hc
  have hp := Json.pValue_print D v _ (v.depth + 1) [] h (by omega) (Nat.le_refl _) hne
  obtain ⟨w, t, hw, e, ht, _⟩ := (Json.sound D _).1 _ _ _ _ hp
  rw [List.append_nil, List.append_nil] at e
  cases w with
  | nil => rw [e]; exact ht
  | cons c w =>
    obtain ⟨c', r, e', hc, _⟩ := Json.print_head D v h
    rw [e'] at e
    injection e with e _
    subst e
    have := (Json.isWs_iff c').2 (hw c' (List.mem_cons_self ..))
    rw [hc] at this
    cases this

/-- C71: texts nested deeper are refused. -/
theorem C71_too_deep (D : Deps) (hD : D.jsonCheckEnd = true) (b : Bytes) (v : Json) (h : ElementText D b v) (hd : ¬ DepthLe v 127) :
    Json.parse D b = none := by
  cases hp : Json.parse D b with
  | none => rfl
  | some v' =>
    obtain ⟨h1, h2⟩ := (C71_accepts D hD b v').1 hp
    exact absurd (C71_unambiguous D b v v' h h1 ▸ h2) hd

/-! ### The written text is the shortest -/

theorem natural_eq {t : Bytes} (h : Natural t) : t = Json.decBytes (digitsValue t) := by
  have hmap : ∀ (l : Bytes), (∀ c ∈ l, 48 ≤ c.toNat ∧ c.toNat ≤ 57) → (l.map fun c => c.toNat - 48).map (fun d => UInt8.ofNat (48 + d)) = l := by
    intro l hl
    rw [List.map_map]
    conv => rhs; rw [← List.map_id l]
    apply List.map_congr_left
    intro c hc
    have := hl c hc
    show UInt8.ofNat (48 + (c.toNat - 48)) = c
    rw [show 48 + (c.toNat - 48) = c.toNat by omega]
    simp
  obtain ⟨⟨hne, hd⟩, h0⟩ := h
  rcases h0 with rfl | h0
  · decide
  · have hdig : toDigits 10 (digitsValue t) = t.map fun c => c.toNat - 48 := by
      unfold digitsValue
      rw [numeral_eq]
      apply toDigits_ofDigits (by omega) _ _ rfl
      · intro d hd'
        obtain ⟨c, hc, rfl⟩ := List.mem_map.1 hd'
        have := hd c hc
        omega
      · intro d hd'
        cases t with
        | nil => cases hd'
        | cons c t =>
          cases hd'
          have := hd c (List.mem_cons_self ..)
          intro (e : c.toNat - 48 = 0)
          exact h0 (congrArg some (UInt8.toNat_inj.1 (by simp; omega)))
    have hpos : digitsValue t ≠ 0 := by
      intro e
      rw [e, toDigits_zero] at hdig
      cases t with
      | nil => exact hne rfl
      | cons => cases hdig
    unfold Json.decBytes
    rw [if_neg hpos, hdig, hmap t hd]

theorem escByte_length (c : UInt8) : 1 ≤ (Json.escByte c).length ∧ (Json.escByte c).length ≤ 6 := by
  have : ∀ c : UInt8, 1 ≤ (Json.escByte c).length ∧ (Json.escByte c).length ≤ 6 :=
    forall_uint8 (P := fun c => 1 ≤ (Json.escByte c).length ∧ (Json.escByte c).length ≤ 6) (by decide +kernel)
  exact this c

theorem escByte_high (c : UInt8) (h : 128 ≤ c.toNat) : Json.escByte c = [c] := by
  have : ∀ c : UInt8, 128 ≤ c.toNat → Json.escByte c = [c] :=
    forall_uint8 (P := fun c => 128 ≤ c.toNat → Json.escByte c = [c]) (by decide +kernel)
  exact this c h

theorem escAll_high : ∀ (l : Bytes), (∀ x ∈ l, 128 ≤ x.toNat) → (Json.escAll l).length = l.length
  | [], _ => rfl
  | x :: l, h => by
    have ih := escAll_high l fun y hy => h y (List.mem_cons_of_mem _ hy)
    simp only [Json.escAll, List.flatMap_cons, List.length_append, List.length_cons] at ih ⊢
    rw [escByte_high x (h x (List.mem_cons_self ..)), ih]
    simp only [List.length_cons, List.length_nil]
    omega

theorem escAll_char (c : Char) : (Json.escAll (String.utf8EncodeChar c)).length ≤ 6 := by
  unfold String.utf8EncodeChar
  simp only
  split
  · simp only [Json.escAll, List.flatMap_cons, List.flatMap_nil, List.append_nil]
    exact (escByte_length _).2
  · split
    · rw [escAll_high _ (by simp only [List.mem_cons, List.not_mem_nil, or_false]; rintro x (rfl | rfl) <;> (simp only [UInt8.toNat_ofNat']; omega))]
      simp
    split
    · rw [escAll_high _ (by simp only [List.mem_cons, List.not_mem_nil, or_false]; rintro x (rfl | rfl | rfl) <;> (simp only [UInt8.toNat_ofNat']; omega))]
      simp
    · rw [escAll_high _ (by simp only [List.mem_cons, List.not_mem_nil, or_false]; rintro x (rfl | rfl | rfl | rfl) <;> (simp only [UInt8.toNat_ofNat']; omega))]
      simp

theorem C71_shortest_string {t s : Bytes} (h : Chars t s) : (Json.escAll s).length ≤ t.length := by
  induction h with
  | nil => exact Nat.le_refl _
  | @plain c t s h1 h2 h3 _ ih =>
    have : Json.escByte c = [c] := by
      have key : ∀ c : UInt8, 32 ≤ c.toNat → c ≠ 34 → c ≠ 92 → Json.escByte c = [c] :=
        forall_uint8 (P := fun c => 32 ≤ c.toNat → c ≠ 34 → c ≠ 92 → Json.escByte c = [c]) (by decide +kernel)
      exact key c h1 h2 h3
    simp only [Json.escAll, List.flatMap_cons, List.length_append, this, List.length_cons, List.length_nil] at ih ⊢
    omega
  | @escape e x t s h _ ih =>
    have : (Json.escByte x).length ≤ 2 := by
      have key : ∀ p ∈ escapes, (Json.escByte p.2).length ≤ 2 := by decide +kernel
      exact key (e, x) h
    simp only [Json.escAll, List.flatMap_cons, List.length_append, List.length_cons] at ih ⊢
    omega
  | @code h t s n hh _ _ ih =>
    obtain ⟨a, b, c, d, _, _, _, _, rfl, _⟩ := hh
    have := escAll_char (Char.ofNat n)
    simp only [Json.escAll, List.flatMap_append, List.length_append, List.length_cons, List.length_nil] at ih this ⊢
    omega
  | @pair h h' t s n m hh hh' _ _ _ _ _ ih =>
    obtain ⟨a, b, c, d, _, _, _, _, rfl, _⟩ := hh
    obtain ⟨a', b', c', d', _, _, _, _, rfl, _⟩ := hh'
    have := escAll_char (Char.ofNat (0x10000 + (n - 0xD800) * 0x400 + (m - 0xDC00)))
    simp only [Json.escAll, List.flatMap_append, List.length_append, List.length_cons, List.length_nil] at ih this ⊢
    omega

theorem printStr_shortest {t : Bytes} {s : String} (h : StringText t s) : (Json.printStr s).length ≤ t.length := by
  obtain ⟨body, rfl, hb⟩ := h
  have := C71_shortest_string hb
  simp only [Json.printStr, List.length_cons, List.length_append, List.length_nil]
  omega

theorem printElemsTail_length (D : Deps) (v : Json) (l : List Json) :
    (Json.printElemsTail D (v :: l)).length = 1 + (Json.printElems D (v :: l)).length := by
  simp only [Json.printElemsTail, Json.printElems, List.length_cons]
  omega

theorem printMembersTail_length (D : Deps) (k : String) (v : Json) (l : List (String × Json)) :
    (Json.printMembersTail D ((k, v) :: l)).length = 1 + (Json.printMembers D ((k, v) :: l)).length := by
  simp only [Json.printMembersTail, Json.printMembers, List.length_cons]
  omega

/-- C71: no JSON text of a value is shorter than the one written (for values without doubles): no white space, no needless escape. -/
theorem C71_shortest (D : Deps) (t : Bytes) (v : Json) (h : ElementText D t v) (hv : NoDouble v) : (Json.print D v).length ≤ t.length := by
  revert hv
  refine @ElementText.rec D
    (fun t v _ => NoDouble v → (Json.print D v).length ≤ t.length)
    (fun t v _ => NoDouble v → (Json.print D v).length ≤ t.length)
    (fun t l _ => (∀ v ∈ l, NoDouble v) → l ≠ [] ∧ (Json.printElems D l).length ≤ t.length + 1)
    (fun t m _ => (∀ e ∈ m, NoDouble e.2) → m ≠ [] ∧ (Json.printMembers D m).length ≤ t.length + 1)
    ?_ ?_ ?_ ?_ ?_ ?_ ?_ ?_ ?_ ?_ ?_ ?_ ?_ ?_ t v h
  · intro _; rw [Json.null_bytes]; exact Nat.le_refl _
  · intro _; rw [Json.true_bytes]; exact Nat.le_refl _
  · intro _; rw [Json.false_bytes]; exact Nat.le_refl _
  · intro t v hn hv
    cases hn with
    | nat h1 h2 =>
      rw [Json.print]
      exact Nat.le_of_eq (congrArg List.length (natural_eq h1).symm)
    | @neg t h1 h2 h3 =>
      rw [Json.print]
      have e : (-(digitsValue t : Int)) = Int.negSucc (digitsValue t - 1) := by omega
      rw [e, Json.printInt, show digitsValue t - 1 + 1 = digitsValue t by omega]
      exact Nat.le_of_eq (congrArg (fun l => (45 :: l : Bytes).length) (natural_eq h1).symm)
    | double _ _ _ _ _ _ _ => cases hv
  · intro t s hs _
    exact printStr_shortest hs
  · intro w _ _
    simp only [Json.print, Json.printElems, List.length_cons, List.length_append, List.length_nil]
    omega
  · intro t l _ ih hv
    cases hv with
    | arr hv =>
      have := (ih hv).2
      simp only [Json.print, List.length_cons, List.length_append, List.length_nil]
      omega
  · intro w _ _
    simp only [Json.print, Json.printMembers, List.length_cons, List.length_append, List.length_nil]
    omega
  · intro t l _ ih hv
    cases hv with
    | obj hv =>
      have := (ih hv).2
      simp only [Json.print, List.length_cons, List.length_append, List.length_nil]
      omega
  · intro w t w' v _ _ _ ih hv
    have := ih hv
    simp only [List.length_append]
    omega
  · intro t v _ ih hv
    refine ⟨by simp, ?_⟩
    have := ih (hv v (List.mem_cons_self ..))
    simp only [Json.printElems, Json.printElemsTail, List.length_append, List.length_cons, List.length_nil]
    omega
  · intro t ts v l _ _ ih ihs hv
    refine ⟨by simp, ?_⟩
    have h1 := ih (hv v (List.mem_cons_self ..))
    obtain ⟨hne, h2⟩ := ihs fun x hx => hv x (List.mem_cons_of_mem _ hx)
    cases l with
    | nil => exact absurd rfl hne
    | cons x l =>
      rw [Json.printElems, List.length_append, printElemsTail_length]
      simp only [List.length_append, List.length_cons]
      omega
  · intro w k w' t s v _ hk _ _ ih hv
    refine ⟨by simp, ?_⟩
    have h1 := ih (hv _ (List.mem_cons_self ..))
    have h2 := printStr_shortest hk
    simp only [Json.printMembers, Json.printMembersTail, List.length_append, List.length_cons, List.length_nil]
    omega
  · intro w k w' t ts s v l _ hk _ _ _ ih ihs hv
    refine ⟨by simp, ?_⟩
    have h1 := ih (hv _ (List.mem_cons_self ..))
    have h3 := printStr_shortest hk
    obtain ⟨hne, h2⟩ := ihs fun x hx => hv x (List.mem_cons_of_mem _ hx)
    cases l with
    | nil => exact absurd rfl hne
    | cons x l =>
      obtain ⟨k2, x⟩ := x
      rw [Json.printMembers, List.length_append, List.length_cons, List.length_append, printMembersTail_length]
      simp only [List.length_append, List.length_cons]
      omega

/-! ### The written text is determined -/

theorem canonicalChars_escAll (s : Bytes) : CanonicalChars (Json.escAll s) s := by
  induction s with
  | nil => exact .nil
  | cons c s ih =>
    rw [show Json.escAll (c :: s) = Json.escByte c ++ Json.escAll s from rfl]
    have key : ∀ c : UInt8, (Json.escByte c = [c] ∧ 32 ≤ c.toNat ∧ c ≠ 34 ∧ c ≠ 92) ∨
        ((∃ e ∈ escapes, e.2 = c ∧ Json.escByte c = [92, e.1]) ∧ c ≠ 47) ∨
        ((∀ e ∈ escapes, e.2 ≠ c) ∧ c.toNat < 32 ∧ ∃ h ∈ strBytes "0123456789abcdef", ∃ l ∈ strBytes "0123456789abcdef",
          (strBytes "0123456789abcdef")[c.toNat / 16]? = some h ∧ (strBytes "0123456789abcdef")[c.toNat % 16]? = some l ∧
          Json.escByte c = [92, 117, 48, 48, h, l]) :=
      forall_uint8 (P := fun c => (Json.escByte c = [c] ∧ 32 ≤ c.toNat ∧ c ≠ 34 ∧ c ≠ 92) ∨
        ((∃ e ∈ escapes, e.2 = c ∧ Json.escByte c = [92, e.1]) ∧ c ≠ 47) ∨
        ((∀ e ∈ escapes, e.2 ≠ c) ∧ c.toNat < 32 ∧ ∃ h ∈ strBytes "0123456789abcdef", ∃ l ∈ strBytes "0123456789abcdef",
          (strBytes "0123456789abcdef")[c.toNat / 16]? = some h ∧ (strBytes "0123456789abcdef")[c.toNat % 16]? = some l ∧
          Json.escByte c = [92, 117, 48, 48, h, l])) (by decide +kernel)
    rcases key c with ⟨e, h1, h2, h3⟩ | ⟨⟨⟨e, x⟩, h1, h2, h3⟩, h4⟩ | ⟨h1, h2, h, _, l, _, h3, h4, h5⟩
    · rw [e]; exact .plain h1 h2 h3 ih
    · cases (show x = c from h2)
      rw [h3]; exact .escape h1 h4 ih
    · rw [h5]; exact .control h2 (fun e he => h1 _ he rfl) h3 h4 ih

theorem canonicalChars_unique {t s : Bytes} (h : CanonicalChars t s) : ∀ {t' : Bytes}, CanonicalChars t' s → t = t' := by
  have special : ∀ c : UInt8, ∀ e ∈ escapes, e.2 = c → c ≠ 47 → c.toNat < 32 ∨ c = 34 ∨ c = 92 :=
    forall_uint8 (P := fun c => ∀ e ∈ escapes, e.2 = c → c ≠ 47 → c.toNat < 32 ∨ c = 34 ∨ c = 92) (by decide +kernel)
  have functional : ∀ c : UInt8, ∀ e ∈ escapes, e.2 = c → ∀ e' ∈ escapes, e'.2 = c → e.1 = e'.1 :=
    forall_uint8 (P := fun c => ∀ e ∈ escapes, e.2 = c → ∀ e' ∈ escapes, e'.2 = c → e.1 = e'.1) (by decide +kernel)
  induction h with
  | nil => intro t' h'; cases h'; rfl
  | plain h1 h2 h3 _ ih =>
    intro t' h'
    cases h' with
    | plain _ _ _ h => rw [ih h]
    | escape he hx h =>
      rcases special _ _ he rfl hx with h | h | h
      · exact absurd h (Nat.not_lt.2 h1)
      · exact absurd h h2
      · exact absurd h h3
    | control h _ _ _ _ => exact absurd h (by omega)
  | escape he hx _ ih =>
    intro t' h'
    cases h' with
    | plain h1 h2 h3 h =>
      rcases special _ _ he rfl hx with h | h | h
      · exact absurd h (Nat.not_lt.2 h1)
      · exact absurd h h2
      · exact absurd h h3
    | escape he' _ h =>
      have := functional _ _ he rfl _ he' rfl
      simp only at this
      rw [this, ih h]
    | control _ hn _ _ _ => exact absurd he (hn _)
  | control h1 hn h2 h3 _ ih =>
    intro t' h'
    cases h' with
    | plain h _ _ _ => exact absurd h1 (by omega)
    | escape he _ _ => exact absurd he (hn _)
    | control _ _ h2' h3' h =>
      rw [h2] at h2'; rw [h3] at h3'
      cases h2'; cases h3'
      rw [ih h]

theorem numberText_int_print {D : Deps} {t : Bytes} {i : Int} (h : NumberText D t (.int i)) : t = Json.printInt i := by
  generalize hv : Json.int i = v at h
  cases h with
  | nat h1 h2 => cases hv; exact natural_eq h1
  | @neg t h1 h2 h3 =>
    cases hv
    have e : (-(digitsValue t : Int)) = Int.negSucc (digitsValue t - 1) := by omega
    rw [e, Json.printInt, show digitsValue t - 1 + 1 = digitsValue t by omega]
    exact congrArg (45 :: ·) (natural_eq h1)
  | double _ _ _ _ _ _ _ => cases hv

/-- C71: the text written is the only one without white space and with escapes only where they are needed, of one letter if there is such,
else with lower case digits. -/
theorem C71_canonical_unique (D : Deps) (t : Bytes) (v : Json) (h : CanonicalText D t v) : t = Json.print D v := by
  refine @CanonicalText.rec D (fun t v _ => t = Json.print D v) (fun t l _ => l ≠ [] ∧ t ++ [93] = Json.printElems D l)
    (fun t m _ => m ≠ [] ∧ t ++ [125] = Json.printMembers D m) ?_ ?_ ?_ ?_ ?_ ?_ ?_ ?_ ?_ ?_ ?_ ?_ ?_ ?_ t v h
  · exact Json.null_bytes
  · exact Json.true_bytes
  · exact Json.false_bytes
  · intro t i h; exact numberText_int_print h
  · intro f; rfl
  · intro t s h
    rw [canonicalChars_unique h (canonicalChars_escAll _)]; rfl
  · rfl
  · intro t l _ ih; rw [ih.2]; rfl
  · rfl
  · intro t m _ ih; rw [ih.2]; rfl
  · intro t v _ ih; exact ⟨by simp, by rw [ih]; rfl⟩
  · intro t ts v l _ _ ih1 ih2
    refine ⟨by simp, ?_⟩
    cases l with
    | nil => exact absurd rfl ih2.1
    | cons x l =>
      rw [ih1, List.append_assoc, List.cons_append, ih2.2]; rfl
  · intro k t s v _ _ ih1 ih2
    refine ⟨by simp, ?_⟩
    rw [ih1, ih2, List.append_assoc, List.cons_append]; rfl
  · intro k t ts s v m _ _ _ ih1 ih2 ih3
    refine ⟨by simp, ?_⟩
    cases m with
    | nil => exact absurd rfl ih3.1
    | cons x m =>
      rw [ih1, ih2, List.append_assoc, List.cons_append, List.append_assoc, List.cons_append, ih3.2]; rfl

/-- C71: and it is one. -/
theorem C71_canonical (D : Deps) (v : Json) (h : Json.NumOk D v) : CanonicalText D (Json.print D v) v := by
  have hstr : ∀ s, CanonicalText D (Json.print D (.str s)) (.str s) := fun s => .string (canonicalChars_escAll _)
  revert h
  induction v using Json.induct with
  | null => intro _; rw [Json.print, ← Json.null_bytes]; exact .null
  | bool b =>
    intro _
    cases b
    · rw [Json.print, ← Json.false_bytes]; exact .false
    · rw [Json.print, ← Json.true_bytes]; exact .true
  | int i =>
    intro h
    have := C71_written D (.int i) h
    generalize hv : Json.int i = v at this
    generalize ht : Json.print D v = t at this
    cases this with
    | number h => cases hv; exact .int h
    | _ => cases hv
  | float f => intro _; exact .double
  | str s => intro _; exact hstr s
  | arr l ih =>
    intro h
    have h : Json.NumOkList D l := h
    have key : ∀ l : List Json, (∀ v ∈ l, Json.NumOk D v → CanonicalText D (Json.print D v) v) → Json.NumOkList D l → l ≠ [] →
        ∃ t, Json.printElems D l = t ++ [93] ∧ CanonicalElements D t l := by
      intro l
      induction l with
      | nil => intro _ _ h; exact absurd rfl h
      | cons x l ihl =>
        intro ih h _
        have hx := ih x (List.mem_cons_self ..) h.1
        cases l with
        | nil => exact ⟨_, rfl, .one hx⟩
        | cons y l =>
          obtain ⟨t, e, ht⟩ := ihl (fun v hv => ih v (List.mem_cons_of_mem _ hv)) h.2 (by simp)
          refine ⟨Json.print D x ++ 44 :: t, ?_, .more hx ht⟩
          rw [List.append_assoc, List.cons_append, ← e]; rfl
    cases l with
    | nil => exact .emptyArray
    | cons x l =>
      obtain ⟨t, e, ht⟩ := key _ ih h (by simp)
      rw [Json.print, e]; exact .array ht
  | obj m ih =>
    intro h
    have h : Json.NumOkMembers D m := h
    have key : ∀ m : List (String × Json), (∀ e ∈ m, Json.NumOk D e.2 → CanonicalText D (Json.print D e.2) e.2) → Json.NumOkMembers D m → m ≠ [] →
        ∃ t, Json.printMembers D m = t ++ [125] ∧ CanonicalMembers D t m := by
      intro m
      induction m with
      | nil => intro _ _ h; exact absurd rfl h
      | cons x m ihm =>
        obtain ⟨k, x⟩ := x
        intro ih h _
        have hx := ih (k, x) (List.mem_cons_self ..) h.1
        cases m with
        | nil =>
          refine ⟨Json.print D (.str k) ++ 58 :: Json.print D x, ?_, .one (hstr k) hx⟩
          rw [List.append_assoc, List.cons_append]; rfl
        | cons y m =>
          obtain ⟨t, e, ht⟩ := ihm (fun v hv => ih v (List.mem_cons_of_mem _ hv)) h.2 (by simp)
          refine ⟨Json.print D (.str k) ++ 58 :: (Json.print D x ++ 44 :: t), ?_, .more (hstr k) hx ht⟩
          rw [List.append_assoc, List.cons_append, List.append_assoc, List.cons_append, ← e]; rfl
    cases m with
    | nil => exact .emptyObject
    | cons x m =>
      obtain ⟨t, e, ht⟩ := key _ ih h (by simp)
      rw [Json.print, e]; exact .object ht

/-! ### Beside C71 -/

namespace Ex

/-- A reader that insists on the end of the text and knows no doubles. -/
def plainDeps : Deps := ⟨fun _ => [], fun _ => none, true, true, fun _ _ => none, fun _ _ => [], fun _ => none, fun _ => none, true⟩

/-- A text with white space and escapes. -/
def sampleText : Bytes := strBytes " {\"a\" : [1, -2, \"\\u00e9\\n\\ud83d\\ude00\"], \"a\":null}\n"

def sampleValue : Json := .obj [("a", .arr [.int 1, .int (-2), .str "é\n😀"]), ("a", .null)]

theorem sample_parse : Json.parse plainDeps sampleText = some sampleValue := by decide +kernel

/-- It is a JSON text of that value; the text written for the value is different and shorter. -/
example : ElementText plainDeps sampleText sampleValue ∧ Json.print plainDeps sampleValue ≠ sampleText ∧
    (Json.print plainDeps sampleValue).length < sampleText.length :=
  ⟨((C71_accepts plainDeps rfl _ _).1 sample_parse).1, by decide +kernel, by decide +kernel⟩

/-- The written text is canonical; one with upper case digits is not. -/
example : CanonicalText plainDeps (strBytes "[\"\\u001f/\\n\"]") (.arr [.str "\x1f/\n"]) ∧ ¬ CanonicalText plainDeps (strBytes "[\"\\u001F/\\n\"]") (.arr [.str "\x1f/\n"]) := by
  constructor
  · have := C71_canonical plainDeps (.arr [.str "\x1f/\n"]) ⟨trivial, trivial⟩
    rw [show Json.print plainDeps (.arr [.str "\x1f/\n"]) = strBytes "[\"\\u001f/\\n\"]" by decide +kernel] at this
    exact this
  · intro h
    exact absurd (C71_canonical_unique _ _ _ h) (by decide +kernel)

/-- Trailing commas, leading zeros, raw control characters and lone surrogates are refused. -/
example : Json.parse plainDeps (strBytes "[1,]") = none ∧ Json.parse plainDeps (strBytes "01") = none ∧
    Json.parse plainDeps (strBytes "\"\t\"") = none ∧ Json.parse plainDeps (strBytes "\"\\ud83d\"") = none := by decide +kernel

end Ex

end Verif
