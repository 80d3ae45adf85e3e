import Verif.Codec.Base58
import Verif.Codec.Base64
import Verif.Codec.Base32
import Verif.Spec.Encoding

/-! # C69: the text encodings are the standard ones -/

namespace Verif

open Spec

/-! ## Bits -/

theorem bits_length (w n : Nat) : (bits w n).length = w := by
  induction w with
  | zero => rfl
  | succ w ih => simp [bits, ih]

theorem bits_inj (w : Nat) : ∀ {m n : Nat}, m < 2 ^ w → n < 2 ^ w → bits w m = bits w n → m = n := by
  have key : ∀ w, ∀ {m n : Nat}, bits w m = bits w n → m % 2 ^ w = n % 2 ^ w := by
    intro w
    induction w with
    | zero => intro m n _; simp [Nat.mod_one]
    | succ w ih =>
      intro m n h
      simp only [bits, List.cons.injEq, decide_eq_decide] at h
      have h1 := ih h.2
      have h2 := h.1
      rw [Nat.pow_succ, Nat.mod_mul, Nat.mod_mul, h1]
      have : m / 2 ^ w % 2 = n / 2 ^ w % 2 := by omega
      rw [this]
  intro m n hm hn h
  have := key w h
  rwa [Nat.mod_eq_of_lt hm, Nat.mod_eq_of_lt hn] at this

theorem flatMap_bits_length (w : Nat) (vs : List Nat) : (vs.flatMap (bits w)).length = w * vs.length := by
  induction vs with
  | nil => rfl
  | cons v vs ih => simp [bits_length, ih, Nat.mul_add]; omega

theorem byteBits_length (b : Bytes) : (byteBits b).length = 8 * b.length := by
  induction b with
  | nil => rfl
  | cons v vs ih =>
    simp only [byteBits, List.flatMap_cons, List.length_append, bits_length, List.length_cons] at ih ⊢
    omega

theorem flatMap_bits_inj (w : Nat) : ∀ {us vs : List Nat}, us.length = vs.length → (∀ v ∈ us, v < 2 ^ w) → (∀ v ∈ vs, v < 2 ^ w) →
    us.flatMap (bits w) = vs.flatMap (bits w) → us = vs := by
  intro us
  induction us with
  | nil => intro vs h _ _ _; cases vs with
    | nil => rfl
    | cons => cases h
  | cons u us ih =>
    intro vs h hu hv e
    cases vs with
    | nil => cases h
    | cons v vs =>
      simp only [List.flatMap_cons] at e
      obtain ⟨e1, e2⟩ := List.append_inj e (by rw [bits_length, bits_length])
      rw [bits_inj w (hu u (List.mem_cons_self ..)) (hv v (List.mem_cons_self ..)) e1,
        ih (by simpa using h) (fun x hx => hu x (List.mem_cons_of_mem _ hx)) (fun x hx => hv x (List.mem_cons_of_mem _ hx)) e2]

theorem byteBits_eq (b : Bytes) : byteBits b = (b.map UInt8.toNat).flatMap (bits 8) := by
  simp [byteBits, List.flatMap_map]

theorem byteBits_inj {a b : Bytes} (hl : a.length = b.length) (h : byteBits a = byteBits b) : a = b := by
  rw [byteBits_eq, byteBits_eq] at h
  have := flatMap_bits_inj 8 (by simpa using hl) (by intro v hv; obtain ⟨x, _, rfl⟩ := List.mem_map.1 hv; exact x.toNat_lt)
    (by intro v hv; obtain ⟨x, _, rfl⟩ := List.mem_map.1 hv; exact x.toNat_lt) h
  exact (List.map_inj_right (fun x y => UInt8.toNat_inj.1)).1 this

/-- The text is determined by the bytes. -/
theorem bitText_unique {w : Nat} {al : String} {b t t' : Bytes} (h : BitText w al b t) (h' : BitText w al b t') : t = t' := by
  obtain ⟨vs, fill, h1, h2, h3, h4, h5⟩ := h
  obtain ⟨vs', fill', h1', h2', h3', h4', h5'⟩ := h'
  have l := congrArg List.length h3
  have l' := congrArg List.length h3'
  rw [flatMap_bits_length, List.length_append, byteBits_length] at l l'
  have hv : vs.length = vs'.length := by
    apply Nat.le_antisymm <;> apply Nat.le_of_not_lt <;> intro hlt
    · have := Nat.mul_le_mul_left w (show vs'.length + 1 ≤ vs.length from hlt)
      rw [Nat.mul_add] at this; omega
    · have := Nat.mul_le_mul_left w (show vs.length + 1 ≤ vs'.length from hlt)
      rw [Nat.mul_add] at this; omega
  have hf : fill = fill' := by
    rw [hv] at l
    have e1 : fill = List.replicate fill.length false := List.eq_replicate_iff.2 ⟨rfl, h5⟩
    have e2 : fill' = List.replicate fill'.length false := List.eq_replicate_iff.2 ⟨rfl, h5'⟩
    rw [e1, e2]
    congr 1; omega
  have : vs = vs' := flatMap_bits_inj w hv h2 h2' (by rw [h3, h3', hf])
  rw [← this, ← h1] at h1'
  exact ((List.map_inj_right (fun x y h => Option.some.inj h)).1 h1').symm

/-! ## base64url -/

theorem sextet_alphabet {n : Nat} (h : n < 64) : (strBytes base64url)[n]? = some (Base64.sextetChar n) := by
  have : ∀ m : Fin 64, (strBytes base64url)[m.val]? = some (Base64.sextetChar m.val) := by decide +kernel
  exact this ⟨n, h⟩

/-- The 6-bit groups of a byte string. -/
def sextets : Bytes → List Nat
  | [] => []
  | [a] => [a.toNat / 4, a.toNat % 4 * 16]
  | [a, b] => [a.toNat / 4, a.toNat % 4 * 16 + b.toNat / 16, b.toNat % 16 * 4]
  | a :: b :: c :: t =>
    a.toNat / 4 :: (a.toNat % 4 * 16 + b.toNat / 16) :: (b.toNat % 16 * 4 + c.toNat / 64) :: c.toNat % 64 :: sextets t

theorem encode_eq_sextets : ∀ b : Bytes, Base64.encode b = (sextets b).map Base64.sextetChar
  | [] => rfl
  | [a] => rfl
  | [a, b] => rfl
  | a :: b :: c :: t => by simp [Base64.encode, sextets, encode_eq_sextets t]

theorem sextets_lt : ∀ b : Bytes, ∀ v ∈ sextets b, v < 2 ^ 6
  | [] => by simp [sextets]
  | [a] => by have := a.toNat_lt; simp [sextets]; omega
  | [a, b] => by have := a.toNat_lt; have := b.toNat_lt; simp [sextets]; omega
  | a :: b :: c :: t => by
    have := a.toNat_lt; have := b.toNat_lt; have := c.toNat_lt
    intro v hv
    simp only [sextets, List.mem_cons] at hv
    rcases hv with h | h | h | h | h
    · omega
    · omega
    · omega
    · omega
    · exact sextets_lt t v h

theorem sextets_bits : ∀ b : Bytes, ∃ fill : List Bool, (sextets b).flatMap (bits 6) = byteBits b ++ fill ∧ fill.length < 6 ∧ ∀ x ∈ fill, x = false
  | [] => ⟨[], rfl, by simp, by simp⟩
  | [a] => by
    refine ⟨[false, false, false, false], ?_, by simp, by simp⟩
    have := a.toNat_lt
    simp only [sextets, byteBits, List.flatMap_cons, List.flatMap_nil, bits, List.append_nil, List.cons_append, List.nil_append,
      List.cons.injEq, decide_eq_decide, decide_eq_false_iff_not, and_true]
    omega
  | [a, b] => by
    refine ⟨[false, false], ?_, by simp, by simp⟩
    have := a.toNat_lt; have := b.toNat_lt
    simp only [sextets, byteBits, List.flatMap_cons, List.flatMap_nil, bits, List.append_nil, List.cons_append, List.nil_append,
      List.cons.injEq, decide_eq_decide, decide_eq_false_iff_not, and_true]
    omega
  | a :: b :: c :: t => by
    obtain ⟨fill, h1, h2, h3⟩ := sextets_bits t
    refine ⟨fill, ?_, h2, h3⟩
    have := a.toNat_lt; have := b.toNat_lt; have := c.toNat_lt
    unfold byteBits at h1 ⊢
    simp only [sextets, List.flatMap_cons, h1]
    simp only [bits, List.cons_append, List.nil_append, List.cons.injEq, decide_eq_decide, and_true]
    omega

theorem base64_encode_text (b : Bytes) : BitText 6 base64url b (Base64.encode b) := by
  obtain ⟨fill, h1, h2, h3⟩ := sextets_bits b
  refine ⟨sextets b, fill, ?_, sextets_lt b, h1, h2, h3⟩
  rw [encode_eq_sextets, List.map_map]
  apply List.map_congr_left
  intro v hv
  exact (sextet_alphabet (sextets_lt b v hv)).symm

/-- C69: the encoder writes the RFC 4648 base64url text of the bytes, without padding. -/
theorem C69_base64_encode (b t : Bytes) : Base64.encode b = t ↔ BitText 6 base64url b t :=
  ⟨fun h => h ▸ base64_encode_text b, fun h => bitText_unique (base64_encode_text b) h⟩

/-- C69: the decoder accepts exactly those texts: no padding, no other symbol, no bit set after the last byte. -/
theorem C69_base64_decode (b t : Bytes) : Base64.decode t = some b ↔ BitText 6 base64url b t :=
  ⟨fun h => (C69_base64_encode b t).1 (Base64.encode_of_decode h),
   fun h => (C69_base64_encode b t).2 h ▸ Base64.decode_encode b⟩

/-- Beside C69: `fo` is `Zm8`; with a trailing bit (`Zm9`) or padding (`Zm8=`) the text is rejected. -/
example : Base64.encode [102, 111] = strBytes "Zm8" ∧ Base64.decode (strBytes "Zm9") = none ∧ Base64.decode (strBytes "Zm8=") = none := by
  decide +kernel

/-! ## base32 -/

theorem quint_alphabet {n : Nat} (h : n < 32) : (strBytes base32lower)[n]? = some (Base32.quintChar n) := by
  have : ∀ m : Fin 32, (strBytes base32lower)[m.val]? = some (Base32.quintChar m.val) := by decide +kernel
  exact this ⟨n, h⟩

theorem pack_bits : ∀ b : Bytes, ∃ fill : List Bool, (Base32.pack b).flatMap (bits 5) = byteBits b ++ fill ∧ fill.length < 5 ∧ ∀ x ∈ fill, x = false
  | [] => ⟨[], rfl, by simp, by simp⟩
  | [a] => by
    refine ⟨[false, false], ?_, by simp, by simp⟩
    have := a.toNat_lt
    simp only [Base32.pack, byteBits, List.flatMap_cons, List.flatMap_nil, bits, List.append_nil, List.cons_append, List.nil_append,
      List.cons.injEq, decide_eq_decide, decide_eq_false_iff_not, and_true]
    omega
  | [a, b] => by
    refine ⟨[false, false, false, false], ?_, by simp, by simp⟩
    have := a.toNat_lt; have := b.toNat_lt
    simp only [Base32.pack, byteBits, List.flatMap_cons, List.flatMap_nil, bits, List.append_nil, List.cons_append, List.nil_append,
      List.cons.injEq, decide_eq_decide, decide_eq_false_iff_not, and_true]
    omega
  | [a, b, c] => by
    refine ⟨[false], ?_, by simp, by simp⟩
    have := a.toNat_lt; have := b.toNat_lt; have := c.toNat_lt
    simp only [Base32.pack, byteBits, List.flatMap_cons, List.flatMap_nil, bits, List.append_nil, List.cons_append, List.nil_append,
      List.cons.injEq, decide_eq_decide, decide_eq_false_iff_not, and_true]
    omega
  | [a, b, c, d] => by
    refine ⟨[false, false, false], ?_, by simp, by simp⟩
    have := a.toNat_lt; have := b.toNat_lt; have := c.toNat_lt; have := d.toNat_lt
    simp only [Base32.pack, byteBits, List.flatMap_cons, List.flatMap_nil, bits, List.append_nil, List.cons_append, List.nil_append,
      List.cons.injEq, decide_eq_decide, decide_eq_false_iff_not, and_true]
    omega
  | a :: b :: c :: d :: e :: t => by
    obtain ⟨fill, h1, h2, h3⟩ := pack_bits t
    refine ⟨fill, ?_, h2, h3⟩
    have := a.toNat_lt; have := b.toNat_lt; have := c.toNat_lt; have := d.toNat_lt; have := e.toNat_lt
    unfold byteBits at h1 ⊢
    simp only [Base32.pack, List.flatMap_cons, h1]
    simp only [bits, List.cons_append, List.nil_append, List.cons.injEq, decide_eq_decide, and_true]
    omega

theorem base32_encode_text (b : Bytes) : BitText 5 base32lower b (Base32.encode b) := by
  obtain ⟨fill, h1, h2, h3⟩ := pack_bits b
  refine ⟨Base32.pack b, fill, ?_, Base32.pack_lt b, h1, h2, h3⟩
  rw [Base32.encode_eq_pack, List.map_map]
  apply List.map_congr_left
  intro v hv
  exact (quint_alphabet (Base32.pack_lt b v hv)).symm

/-- C69: the same for base32. -/
theorem C69_base32_encode (b t : Bytes) : Base32.encode b = t ↔ BitText 5 base32lower b t :=
  ⟨fun h => h ▸ base32_encode_text b, fun h => bitText_unique (base32_encode_text b) h⟩

theorem C69_base32_decode (b t : Bytes) : Base32.decode t = some b ↔ BitText 5 base32lower b t :=
  ⟨fun h => (C69_base32_encode b t).1 (Base32.encode_of_decode h),
   fun h => (C69_base32_encode b t).2 h ▸ Base32.decode_encode b⟩

/-- Beside C69. -/
example : Base32.encode (strBytes "fooba") = strBytes "mzxw6ytb" := by decide +kernel

/-! ## base58 -/

theorem digit_alphabet {n : Nat} (h : n < 58) : (strBytes base58btc)[n]? = some (Base58.digitChar n) := by
  have : ∀ m : Fin 58, (strBytes base58btc)[m.val]? = some (Base58.digitChar m.val) := by decide +kernel
  exact this ⟨n, h⟩

theorem numeral_eq (r : Nat) (ds : List Nat) : numeral r ds = ofDigits r ds := by
  have key : ∀ (ds : List Nat) (a : Nat), ds.foldl (fun a d => a * r + d) a = a * r ^ ds.length + numeral r ds := by
    intro ds
    induction ds with
    | nil => intro a; simp [numeral]
    | cons d ds ih =>
      intro a
      simp only [List.foldl_cons, ih, numeral, List.length_cons, Nat.pow_succ]
      rw [Nat.add_mul, Nat.mul_assoc, Nat.mul_comm r, Nat.add_assoc]
  have := key ds 0
  simp at this
  exact this.symm

theorem base58_encode_text (b : Bytes) : Base58Text b (Base58.encode b) := by
  refine ⟨(b.takeWhile (· == 0)).length, b.dropWhile (· == 0), toDigits 58 (ofDigits 256 ((b.dropWhile (· == 0)).map UInt8.toNat)),
    ?_, ?_, ?_, ?_, toDigits_lt (by omega) _, ?_⟩
  · exact (replicate_takeWhile_dropWhile (0 : UInt8) b).symm
  · intro h; exact dropWhile_head (0 : UInt8) b _ h rfl
  · unfold Base58.encode
    simp only [List.map_append, List.map_replicate, List.map_map]
    rw [digit_alphabet (by omega : 0 < 58)]
    congr 1
    apply List.map_congr_left
    intro d hd
    exact (digit_alphabet (toDigits_lt (by omega) _ d hd)).symm
  · intro h; exact toDigits_head (by omega) _ _ h rfl
  · rw [numeral_eq, numeral_eq, ofDigits_toDigits (by omega)]

theorem base58Text_unique {b t t' : Bytes} (h : Base58Text b t) (h' : Base58Text b t') : t = t' := by
  obtain ⟨z, r, ds, h1, h2, h3, h4, h5, h6⟩ := h
  obtain ⟨z', r', ds', h1', h2', h3', h4', h5', h6'⟩ := h'
  have hz : z = z' := by
    have e1 := (takeWhile_replicate_append (0 : UInt8) z r (fun y hy e => h2 (e ▸ hy))).1
    have e2 := (takeWhile_replicate_append (0 : UInt8) z' r' (fun y hy e => h2' (e ▸ hy))).1
    rw [← h1] at e1
    rw [← h1'] at e2
    exact e1.symm.trans e2
  subst hz
  have hr : r = r' := List.append_cancel_left (h1.symm.trans h1')
  subst hr
  have hd : ds = ds' := by
    rw [numeral_eq, numeral_eq] at h6 h6'
    have e1 := toDigits_ofDigits (b := 58) (by omega) _ ds rfl h5 (fun y hy e => h4 (e ▸ hy))
    have e2 := toDigits_ofDigits (b := 58) (by omega) _ ds' rfl h5' (fun y hy e => h4' (e ▸ hy))
    rw [← e1, ← e2, h6, h6']
  subst hd
  rw [← h3] at h3'
  exact ((List.map_inj_right (fun x y h => Option.some.inj h)).1 h3').symm

/-- C69: the same for base58btc. -/
theorem C69_base58_encode (b t : Bytes) : Base58.encode b = t ↔ Base58Text b t :=
  ⟨fun h => h ▸ base58_encode_text b, fun h => base58Text_unique (base58_encode_text b) h⟩

theorem C69_base58_decode (b t : Bytes) : Base58.decode t = some b ↔ Base58Text b t :=
  ⟨fun h => (C69_base58_encode b t).1 (Base58.encode_of_decode h),
   fun h => (C69_base58_encode b t).2 h ▸ Base58.decode_encode b⟩

/-- Beside C69. -/
example : Base58.encode [0, 0, 40, 127, 180, 205] = strBytes "11233QC4" := by decide +kernel

end Verif
