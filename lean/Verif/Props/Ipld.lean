import Verif.Props.Store
import Verif.Spec.Ipld

/-! # Properties C44–C47, C57, C64: UCAN-IPLD -/

namespace Verif
open Spec

/-! ## Varints -/

theorem Varint.decodeAux_iff : ∀ (b : Bytes) (i acc v : Nat) (rest : Bytes), i ≤ 9 → acc < 2 ^ 64 →
    (decodeAux i acc b = some (v, rest) ↔ ∃ p x, b = p ++ rest ∧ Leb p x ∧ i + p.length ≤ 10 ∧
      ((i = 0 ∧ p.length = 1) ∨ p.getLast? ≠ some 0) ∧ v = (acc + x * 2 ^ (7 * i)) % 2 ^ 64)
  | [], i, acc, v, rest, _, _ => by
    simp only [decodeAux]
    constructor
    · intro h; cases h
    · rintro ⟨p, x, e, hl, _⟩
      cases hl with
      | last _ => cases e
      | more _ _ => cases e
  | b :: bs, i, acc, v, rest, hi, hacc => by
    simp only [decodeAux]
    split
    · rename_i hb
      split
      · rename_i hz
        constructor
        · intro h; cases h
        · rintro ⟨p, x, e, hl, hlen, hlast, _⟩
          cases hl with
          | last _ =>
            injection e with e _
            subst e
            rcases hlast with ⟨h, _⟩ | h
            · omega
            · exact absurd (by rw [List.getLast?_singleton, show (_ : UInt8) = 0 from UInt8.toNat_inj.1 hz.1]) h
          | more h _ =>
            injection e with e _
            subst e
            omega
      · rename_i hz
        constructor
        · intro h
          cases h
          refine ⟨[b], b.toNat, rfl, .last hb, by simp; omega, ?_, by rw [Nat.mod_eq_of_lt hb]⟩
          by_cases h0 : i = 0
          · exact Or.inl ⟨h0, rfl⟩
          · refine Or.inr ?_
            intro h
            rw [List.getLast?_singleton] at h
            cases h
            exact hz ⟨rfl, by omega⟩
        · rintro ⟨p, x, e, hl, hlen, hlast, rfl⟩
          cases hl with
          | last _ =>
            injection e with e e'
            subst e
            rw [Nat.mod_eq_of_lt hb]
            exact congrArg some (Prod.ext rfl e')
          | more h _ =>
            injection e with e _
            subst e
            omega
    · rename_i hb
      split
      · rename_i h9
        constructor
        · intro h; cases h
        · rintro ⟨p, x, e, hl, hlen, hlast, _⟩
          cases hl with
          | last h => injection e with e _; subst e; exact absurd h hb
          | @more _ t _ _ h =>
            have : 1 ≤ t.length := by
              cases h with
              | last _ => exact Nat.le_refl 1
              | more _ _ => exact Nat.succ_le_succ (Nat.zero_le _)
            simp only [List.length_cons] at hlen
            omega
      · rename_i h9
        rw [decodeAux_iff bs (i + 1) _ v rest (by omega) (Nat.mod_lt _ (by omega))]
        have hmod : b.toNat % 128 = b.toNat - 128 := by have := b.toNat_lt; omega
        have hval : ∀ x, ((acc + b.toNat % 128 * 2 ^ (7 * i)) % 2 ^ 64 + x * 2 ^ (7 * (i + 1))) % 2 ^ 64 =
            (acc + (b.toNat - 128 + 128 * x) * 2 ^ (7 * i)) % 2 ^ 64 := by
          intro x
          have hp : 2 ^ (7 * (i + 1)) = 128 * 2 ^ (7 * i) := by
            rw [Nat.mul_add, Nat.pow_add, Nat.mul_comm]
          rw [Nat.mod_add_mod, hp, hmod, Nat.add_mul (b.toNat - 128) (128 * x), Nat.add_assoc]
          congr 3
          rw [Nat.mul_comm 128 x, Nat.mul_assoc]
        constructor
        · rintro ⟨p, x, rfl, hl, hlen, hlast, rfl⟩
          refine ⟨b :: p, _, rfl, .more (Nat.not_lt.1 hb) hl, by simp only [List.length_cons]; omega, Or.inr ?_, hval x⟩
          rcases hlast with ⟨h, _⟩ | h
          · omega
          · cases hl with
            | last _ => simpa using h
            | more _ _ => simpa using h
        · rintro ⟨p, x, e, hl, hlen, hlast, rfl⟩
          cases hl with
          | last h => injection e with e _; subst e; exact absurd h hb
          | @more _ t y _ hl =>
            injection e with e e'
            subst e
            refine ⟨t, y, e', hl, by simp only [List.length_cons] at hlen; omega, Or.inr ?_, (hval y).symm⟩
            rcases hlast with ⟨_, h⟩ | h
            · cases hl <;> simp at h
            · cases hl with
              | last _ => simpa using h
              | more _ _ => simpa using h

theorem Varint.decode_iff (b : Bytes) (n : UInt64) (rest : Bytes) : decode b = some (n, rest) ↔ ∃ p, b = p ++ rest ∧ VarintOf p n := by
  unfold decode
  rw [Option.map_eq_some_iff]
  constructor
  · rintro ⟨⟨v, r⟩, h, e⟩
    cases e
    obtain ⟨p, x, rfl, hl, hlen, hlast, hv⟩ := (decodeAux_iff b 0 0 v _ (by omega) (by omega)).1 h
    refine ⟨p, rfl, x, hl, by omega, ?_, ?_⟩
    · rcases hlast with h | h
      · exact Or.inl h.2
      · exact Or.inr h
    · rw [hv]; simp
  · rintro ⟨p, rfl, x, hl, hlen, hlast, hn⟩
    refine ⟨(n.toNat, rest), (decodeAux_iff _ 0 0 n.toNat rest (by omega) (by omega)).2 ⟨p, x, rfl, hl, by omega, ?_, by simpa using hn⟩, by simp⟩
    rcases hlast with h | h
    · exact Or.inl ⟨rfl, h⟩
    · exact Or.inr h

theorem Spec.Leb.bound {p : Bytes} {v : Nat} (h : Leb p v) : v < 128 ^ p.length := by
  induction h with
  | last h => simpa using h
  | more h _ ih => simp only [List.length_cons, Nat.pow_succ]; have := UInt8.toNat_lt (by assumption); omega

theorem Varint.encodeAux_length : ∀ (f k n : Nat), n < 128 ^ (k + 1) → (encodeAux f n).length ≤ k + 1
  | 0, k, n, _ => by simp [encodeAux]
  | f + 1, k, n, h => by
    simp only [encodeAux]
    split
    · simp
    · rename_i hn
      cases k with
      | zero => simp at h; omega
      | succ k =>
        have := encodeAux_length f k (n / 128) (by rw [Nat.pow_succ] at h; exact Nat.div_lt_of_lt_mul (by omega))
        simp only [List.length_cons]
        omega

/-! ## C44 Varsig round trip -/

theorem Varsig.ofCode_code (v : Varsig) : ofCode (code v) = some v := by cases v <;> decide
theorem Varsig.toAlg_ofAlg (a : JwtAlg) : toAlg (ofAlg a) = some a := by cases a <;> rfl

/-- C44: encoding an algorithm and a signature and decoding gives them back, whatever follows. -/
theorem C44_round_trip (alg : JwtAlg) (sig rest : Bytes) (h : sig.length < 2 ^ 64) :
    IpldSig.decode ⟨(IpldSig.ofAlg alg sig).bytes ++ rest⟩ = .ok (alg, sig) := by
  unfold IpldSig.decode IpldSig.ofAlg
  simp only [List.append_assoc, Varint.decode_encode, Varsig.ofCode_code, Varsig.toAlg_ofAlg]
  have : (UInt64.ofNat sig.length).toNat = sig.length := by simp; omega
  rw [this, if_pos (by simp)]
  simp

/-- C44: integers in the encoding round trip. -/
theorem C44_varint (n : UInt64) : VarintOf (Varint.encode n) n := by
  have := (Varint.decode_iff (Varint.encode n ++ []) n []).1 (Varint.decode_encode n [])
  obtain ⟨p, e, h⟩ := this
  rw [List.append_nil, List.append_nil] at e
  rwa [e]

/-- C44: no other encoding of the integer that a decoder accepts is shorter. -/
theorem C44_minimal (n : UInt64) (p : Bytes) (h : VarintOf p n) : (Varint.encode n).length ≤ p.length := by
  obtain ⟨v, hl, _, _, hn⟩ := h
  have hb := hl.bound
  have hv : n.toNat ≤ v := by rw [hn]; exact Nat.mod_le _ _
  cases hp : p.length with
  | zero => rw [hp] at hb; cases hl with
    | last _ => simp at hp
    | more _ _ => simp at hp
  | succ k => rw [hp] at hb; exact Varint.encodeAux_length 9 k _ (Nat.lt_of_le_of_lt hv hb)

/-- C44: signatures with different content have different encodings. -/
theorem C44_injective (a b : JwtAlg) (s t : Bytes) (hs : s.length < 2 ^ 64) (ht : t.length < 2 ^ 64) (h : IpldSig.ofAlg a s = IpldSig.ofAlg b t) :
    a = b ∧ s = t := by
  have h1 := C44_round_trip a s [] hs
  rw [h, C44_round_trip b t [] ht] at h1
  cases h1
  exact ⟨rfl, rfl⟩

/-! ## C57 Algorithm tables -/

/-- C57: a name is known exactly if it is in the table, and then has the code given there. -/
theorem C57_name_code (s : String) (n : UInt64) : (∃ v, Varsig.ofStr s = some v ∧ v.code = n) ↔ (s, n) ∈ algTable := by
  unfold Varsig.ofStr JwtAlg.ofStr algTable
  constructor
  · rintro ⟨v, h, rfl⟩
    rw [Option.map_eq_some_iff] at h
    obtain ⟨a, h, rfl⟩ := h
    repeat' split at h
    all_goals cases h
    all_goals (rename_i e; subst e; decide)
  · intro h
    simp only [List.mem_cons, List.not_mem_nil, or_false, Prod.mk.injEq] at h
    rcases h with ⟨rfl, rfl⟩ | ⟨rfl, rfl⟩ | ⟨rfl, rfl⟩ | ⟨rfl, rfl⟩ | ⟨rfl, rfl⟩
    all_goals exact ⟨_, rfl, rfl⟩

/-- C57: a code has an algorithm exactly if it is in the table, and then the name given there. -/
theorem C57_code_name (s : String) (n : UInt64) : (∃ v a, Varsig.ofCode n = some v ∧ v.toAlg = some a ∧ a.toStr = s) ↔ (s, n) ∈ algTable := by
  unfold Varsig.ofCode algTable
  constructor
  · rintro ⟨v, a, h, h', rfl⟩
    repeat' split at h
    all_goals cases h
    all_goals first
      | cases h'
      | skip
    all_goals (rename_i e; subst e; decide)
  · intro h
    simp only [List.mem_cons, List.not_mem_nil, or_false, Prod.mk.injEq] at h
    rcases h with ⟨rfl, rfl⟩ | ⟨rfl, rfl⟩ | ⟨rfl, rfl⟩ | ⟨rfl, rfl⟩ | ⟨rfl, rfl⟩
    all_goals exact ⟨_, _, rfl, rfl, rfl⟩

/-- C57: the codes that are recognised without having an algorithm. -/
theorem C57_without_alg (n : UInt64) : (∃ v, Varsig.ofCode n = some v ∧ v.toAlg = none) ↔ n ∈ codesWithoutAlg := by
  unfold Varsig.ofCode codesWithoutAlg
  constructor
  · rintro ⟨v, h, h'⟩
    repeat' split at h
    all_goals cases h
    all_goals first
      | (cases h'; done)
      | (cases h'; rename_i e; subst e; decide)
  · intro h
    simp only [List.mem_cons, List.not_mem_nil, or_false] at h
    rcases h with rfl | rfl | rfl | rfl | rfl
    all_goals exact ⟨_, rfl, rfl⟩

/-- C57: codes and prefixes are mutually inverse. -/
theorem C57_codes (n : UInt64) (v : Varsig) : Varsig.ofCode n = some v ↔ v.code = n := by
  constructor
  · unfold Varsig.ofCode
    intro h
    repeat' split at h
    all_goals cases h
    all_goals (rename_i e; subst e; rfl)
  · rintro rfl
    exact Varsig.ofCode_code v

/-- C57: names and algorithms are mutually inverse. -/
theorem C57_names (s : String) (a : JwtAlg) : JwtAlg.ofStr s = some a ↔ a.toStr = s := by
  constructor
  · unfold JwtAlg.ofStr
    intro h
    repeat' split at h
    all_goals cases h
    all_goals (rename_i e; subst e; rfl)
  · rintro rfl
    cases a <;> decide

/-! ## C45 Malformed varsig -/

/-- C45: decoding succeeds exactly on a code of the table, a length, and at least that many bytes; what follows is ignored. -/
theorem C45_success (x : IpldSig) (alg : JwtAlg) (sig : Bytes) : x.decode = .ok (alg, sig) ↔
    ∃ p q rest code len, x.bytes = p ++ (q ++ (sig ++ rest)) ∧ VarintOf p code ∧ VarintOf q len ∧ (alg.toStr, code) ∈ algTable ∧
      len.toNat = sig.length := by
  constructor
  · intro h
    unfold IpldSig.decode at h
    split at h
    · cases h
    rename_i pre buffer h1
    split at h
    · cases h
    rename_i len buffer' h2
    split at h
    · cases h
    rename_i v h3
    split at h
    · cases h
    rename_i a h4
    split at h
    · rename_i hlen
      cases h
      obtain ⟨p, e1, hp⟩ := (Varint.decode_iff _ _ _).1 h1
      obtain ⟨q, e2, hq⟩ := (Varint.decode_iff _ _ _).1 h2
      refine ⟨p, q, buffer'.drop len.toNat, pre, len, ?_, hp, hq, (C57_code_name _ _).1 ⟨v, _, h3, h4, rfl⟩, ?_⟩
      · rw [List.take_append_drop, ← e2, ← e1]
      · rw [List.length_take]; omega
    · cases h
  · rintro ⟨p, q, rest, code, len, e, hp, hq, ht, hl⟩
    unfold IpldSig.decode
    rw [(Varint.decode_iff _ _ _).2 ⟨p, e, hp⟩]
    simp only
    rw [(Varint.decode_iff _ _ _).2 ⟨q, rfl, hq⟩]
    simp only
    obtain ⟨v, a, h3, h4, h5⟩ := (C57_code_name _ _).2 ht
    have : a = alg := by
      have := (C57_names _ a).2 h5
      rw [(C57_names _ alg).2 rfl] at this
      exact (Option.some.inj this).symm
    subst this
    rw [h3]
    simp only
    rw [h4]
    simp only [hl, List.length_append, if_pos (Nat.le_add_right _ _), List.take_left']

/-- C45 (violated): decoding panics exactly when a code of the table is followed by a length beyond the data. -/
theorem C45_panic (x : IpldSig) (e : Panic) : x.decode = .error (.panic e) ↔
    e = .sliceVarsig ∧ ∃ p q body code len s, x.bytes = p ++ (q ++ body) ∧ VarintOf p code ∧ VarintOf q len ∧ (s, code) ∈ algTable ∧
      body.length < len.toNat := by
  constructor
  · intro h
    unfold IpldSig.decode at h
    split at h
    · cases h
    rename_i pre buffer h1
    split at h
    · cases h
    rename_i len buffer' h2
    split at h
    · cases h
    rename_i v h3
    split at h
    · cases h
    rename_i a h4
    split at h
    · cases h
    · rename_i hlen
      cases h
      obtain ⟨p, e1, hp⟩ := (Varint.decode_iff _ _ _).1 h1
      obtain ⟨q, e2, hq⟩ := (Varint.decode_iff _ _ _).1 h2
      exact ⟨rfl, p, q, buffer', pre, len, _, by rw [← e2, ← e1], hp, hq, (C57_code_name _ _).1 ⟨v, a, h3, h4, rfl⟩, by omega⟩
  · rintro ⟨rfl, p, q, body, code, len, s, e, hp, hq, ht, hl⟩
    unfold IpldSig.decode
    rw [(Varint.decode_iff _ _ _).2 ⟨p, e, hp⟩]
    simp only
    rw [(Varint.decode_iff _ _ _).2 ⟨q, rfl, hq⟩]
    simp only
    obtain ⟨v, a, h3, h4, h5⟩ := (C57_code_name _ _).2 ht
    rw [h3]
    simp only
    rw [h4]
    simp only
    rw [if_neg (by omega)]

/-- C45: in all other cases decoding returns a value or an error. -/
theorem C45_total_partial (x : IpldSig) (h : ∀ p q body code len s, x.bytes = p ++ (q ++ body) → VarintOf p code → VarintOf q len →
    (s, code) ∈ algTable → len.toNat ≤ body.length) : (∃ r, x.decode = .ok r) ∨ ∃ e, x.decode = .error (.err e) := by
  cases hd : x.decode with
  | ok r => exact Or.inl ⟨r, rfl⟩
  | error f =>
    cases f with
    | err e => exact Or.inr ⟨e, rfl⟩
    | panic e =>
      obtain ⟨_, p, q, body, code, len, s, h1, h2, h3, h4, h5⟩ := (C45_panic x e).1 hd
      exact absurd (h p q body code len s h1 h2 h3 h4) (by omega)
    | diverge =>
      exfalso
      unfold IpldSig.decode at hd
      repeat' split at hd
      all_goals cases hd

/-- C45: a panicking input of four bytes, and one that decodes. -/
theorem C45_witness : IpldSig.decode ⟨[0xed, 0xa1, 0x03, 0x05]⟩ = .error (.panic .sliceVarsig) ∧
    IpldSig.decode ⟨[0xed, 0xa1, 0x03, 0x01, 0x07]⟩ = .ok (.EdDSA, [7]) := by decide

/-! ## C46 Principal round trip -/

theorem toDigits_length {b : Nat} (hb : 2 ≤ b) : ∀ (k n : Nat), n < b ^ k → (toDigits b n).length ≤ k
  | 0, n, h => by
    have : n = 0 := by simpa using h
    subst this
    exact Nat.le_refl 0
  | k + 1, n, h => by
    by_cases hn : n = 0
    · subst hn; exact Nat.zero_le _
    · rw [toDigits_pos hb hn, List.length_append]
      have := toDigits_length hb k (n / b) (by rw [Nat.pow_succ] at h; exact Nat.div_lt_of_lt_mul (by rwa [Nat.mul_comm] at h))
      simpa using this

theorem ofDigits_bound {b : Nat} : ∀ (n : Nat) (ds : List Nat), ds.length = n → (∀ d ∈ ds, d < b) → ofDigits b ds < b ^ n
  | 0, ds, hn, _ => by
    cases List.length_eq_zero_iff.1 hn
    exact Nat.one_pos
  | n + 1, ds, hn, h => by
    rcases list_reverse_cases ds with rfl | ⟨t, x, rfl⟩
    · cases hn
    · have hn : t.length = n := by simpa using hn
      have h1 := ofDigits_bound n t hn (fun d hd => h d (by simp [hd]))
      have h2 := h x (by simp)
      rw [ofDigits_append, Nat.pow_succ]
      calc _ < ofDigits b t * b + b := by omega
        _ = (ofDigits b t + 1) * b := by rw [Nat.add_mul]; omega
        _ ≤ b ^ n * b := Nat.mul_le_mul_right _ h1

/-- Base58 text is at least as long as the bytes. -/
theorem Base58.length_encode (b : Bytes) : b.length ≤ (encode b).length := by
  have hd := decode_encode b
  unfold decode at hd
  split at hd
  · rename_i ds hds
    injection hd with hd
    obtain ⟨h1, h2⟩ := charsDigits_some hds
    have hb := congrArg List.length hd
    simp only [List.length_append, List.length_replicate, List.length_map] at hb
    have hlen : (toDigits 256 (ofDigits 58 ds)).length ≤ ds.length := by
      apply toDigits_length (by omega)
      exact Nat.lt_of_lt_of_le (ofDigits_bound _ ds rfl h1) (Nat.pow_le_pow_left (by omega) _)
    have hs : (encode b).length = ((encode b).takeWhile (· == 49)).length + ((encode b).dropWhile (· == 49)).length := by
      conv => lhs; rw [← List.takeWhile_append_dropWhile (p := (· == 49)) (l := encode b)]
      rw [List.length_append]
    rw [← h2, List.length_map] at hs
    omega
  · cases hd

theorem didKey_split (t : String) (r : Bytes) (h : strBytes t = strBytes "did:key:z" ++ r) : Did.didKeyPrefix.isPrefixOf (strBytes t) = true := by
  rw [h]
  exact List.isPrefixOf_iff_prefix.2 (List.prefix_append _ _)

/-- C46: the principal of a string, or an error if it is not a DID. -/
theorem C46_of (s : String) (p : Principle) : Principle.ofStr s = .ok p ↔ Principal s p.bytes := by
  have hk : Did.didKeyPrefix = strBytes "did:key:z" := by decide
  have hd : Did.didPrefix = strBytes "did:" := by decide
  unfold Principle.ofStr
  constructor
  · intro h
    split at h
    · rename_i hp
      obtain ⟨r, hr⟩ := List.isPrefixOf_iff_prefix.1 hp
      rw [← hr, List.drop_left'] at h
      split at h
      · cases h
      · rename_i b hb
        cases h
        refine .key ?_
        rw [← hr, hk, Base58.encode_of_decode hb]
      · rfl
    · rename_i hp
      split at h
      · rename_i hp'
        obtain ⟨r, hr⟩ := List.isPrefixOf_iff_prefix.1 hp'
        cases h
        obtain ⟨t, rfl⟩ := strBytes_drop_ascii (p := Did.didPrefix) (by unfold IsAscii; decide) hr.symm
        have hs : s = "did:" ++ t := strBytes_inj (by rw [← hr, hd, strBytes_append])
        subst hs
        have : (strBytes ("did:" ++ t)).drop Did.didPrefix.length = strBytes t := by rw [← hr, List.drop_left']; rfl
        show Principal _ (_ ++ _)
        rw [this]
        refine .other ?_
        rintro ⟨r, hr⟩
        exact hp (didKey_split _ r hr)
      · cases h
  · intro h
    cases p with
    | mk bytes =>
      cases h with
      | key h =>
        rw [if_pos (didKey_split s _ h), h, ← hk, List.drop_left' rfl, Base58.decode_encode]
      | @other t h =>
        rw [if_neg, if_pos]
        · congr 3
        · rw [strBytes_append, ← hd]
          exact List.isPrefixOf_iff_prefix.2 (List.prefix_append _ _)
        · intro hp
          obtain ⟨r, hr⟩ := List.isPrefixOf_iff_prefix.1 hp
          exact h ⟨r, by rw [← hr, hk]⟩

theorem Principle.toStr_other (t : String) : toStr ⟨0x9d :: 0x1a :: strBytes t⟩ = .ok ("did:" ++ t) := by
  unfold toStr
  simp only [ipldPrefix, if_true, bytesStr?_strBytes]

/-- C46: the DID of a principal prints as itself exactly if it is not confusable. -/
theorem C46_round_trip_partial (s : String) (p : Principle) (h : Principle.ofStr s = .ok p) : p.toStr = .ok s ↔ ¬ Confusable s := by
  have h' := (C46_of s p).1 h
  cases p with
  | mk bytes =>
    cases h' with
    | key hs =>
      unfold Principle.toStr
      constructor
      · rintro hp ⟨b, hb, hc⟩
        have : b = bytes := by
          rw [hs] at hb
          have := congrArg Base58.decode (List.append_cancel_left hb)
          rw [Base58.decode_encode, Base58.decode_encode] at this
          exact (Option.some.inj this).symm
        subst this
        rcases hc with hc | ⟨r, rfl⟩
        · match b, hc with
          | [], _ => cases hp
          | [x], _ => cases hp
        · simp only [Principle.ipldPrefix, if_true] at hp
          split at hp
          · rename_i t ht
            injection hp with hp
            have e1 := bytesStr?_eq_some.1 ht
            have e2 : strBytes s = strBytes "did:" ++ r := by rw [← hp, strBytes_append, e1]
            rw [hs] at e2
            have := congrArg List.length e2
            have hl := Base58.length_encode (0x9d :: 0x1a :: r)
            have hk : (strBytes "did:key:z").length = 9 := by decide
            have hd : (strBytes "did:").length = 4 := by decide
            simp only [List.length_append, hk, hd, List.length_cons] at this hl
            omega
          · cases hp
      · intro hc
        match bytes, hs with
        | [], hs => exact absurd ⟨[], hs, Or.inl (by simp)⟩ hc
        | [x], hs => exact absurd ⟨[x], hs, Or.inl (by simp)⟩ hc
        | b0 :: b1 :: rest, hs =>
          simp only
          rw [if_neg]
          · congr 1
            apply strBytes_inj
            rw [strBytes_append, strBytes_asciiStr (Base58.encode_ascii _), hs]
          · intro e
            simp only [Principle.ipldPrefix, List.cons.injEq, and_true] at e
            exact hc ⟨_, hs, Or.inr ⟨rest, by rw [e.1, e.2]⟩⟩
    | @other t hn =>
      refine ⟨fun _ => ?_, fun _ => ?_⟩
      · rintro ⟨b, hb, _⟩
        exact hn ⟨_, hb⟩
      · exact Principle.toStr_other t

/-- C46: DIDs that are not confusable have different principals. -/
theorem C46_injective_partial (s t : String) (p : Principle) (hs : Principle.ofStr s = .ok p) (ht : Principle.ofStr t = .ok p) (h1 : ¬ Confusable s)
    (h2 : ¬ Confusable t) : s = t := by
  have e1 := (C46_round_trip_partial s p hs).2 h1
  have e2 := (C46_round_trip_partial t p ht).2 h2
  rw [e1] at e2
  injection e2

/-- C46: every DID that is not a `did:key` is safe, as are keys of the supported types. -/
theorem C46_safe (s : String) : (∀ r, strBytes s ≠ strBytes "did:key:z" ++ r) ∨
    (∃ b0 b1 rest, strBytes s = strBytes "did:key:z" ++ Base58.encode (b0 :: b1 :: rest) ∧ (b0 ≠ 0x9d ∨ b1 ≠ 0x1a)) → ¬ Confusable s := by
  rintro (h | ⟨b0, b1, rest, h, hne⟩) ⟨b, hb, hc⟩
  · exact h _ hb
  · have : b = b0 :: b1 :: rest := by
      rw [hb] at h
      have := congrArg Base58.decode (List.append_cancel_left h)
      rw [Base58.decode_encode, Base58.decode_encode] at this
      exact Option.some.inj this
    subst this
    rcases hc with hc | ⟨r, hr⟩
    · simp at hc; omega
    · injection hr with e1 e2
      injection e2 with e2 _
      rcases hne with h | h
      · exact h e1
      · exact h e2

/-- C46 (violated): a `did:key` prints as another DID, and the two have the same principal. -/
theorem C46_collision (t : String) (ht : ¬ ∃ r, strBytes ("did:" ++ t) = strBytes "did:key:z" ++ r) :
    ∃ s p, s ≠ "did:" ++ t ∧ Principle.ofStr s = .ok p ∧ Principle.ofStr ("did:" ++ t) = .ok p ∧ p.toStr = .ok ("did:" ++ t) := by
  let b : Bytes := [0x9d, 0x1a] ++ strBytes t
  have hs : strBytes ("did:key:z" ++ asciiStr (Base58.encode b)) = strBytes "did:key:z" ++ Base58.encode b := by
    rw [strBytes_append, strBytes_asciiStr (Base58.encode_ascii _)]
  have h2 : Principle.ofStr ("did:" ++ t) = .ok ⟨b⟩ := (C46_of _ ⟨b⟩).2 (.other ht)
  refine ⟨"did:key:z" ++ asciiStr (Base58.encode b), ⟨b⟩, ?_, (C46_of _ _).2 (.key hs), h2, ?_⟩
  · intro e
    exact ht ⟨_, by rw [← e, hs]⟩
  · refine (C46_round_trip_partial _ _ h2).2 (C46_safe _ (Or.inl (fun r hr => ht ⟨r, hr⟩)))

/-- C46 (violated): printing the principal of a `did:key` without bytes panics. -/
theorem C46_panic : ∃ s p, Principle.ofStr s = .ok p ∧ p.toStr = .error (.panic .slicePrinciple) :=
  ⟨"did:key:z", ⟨[]⟩, by decide, rfl⟩

example : ¬ ∃ r, strBytes ("did:" ++ "web:a") = strBytes "did:key:z" ++ r := by
  rintro ⟨r, hr⟩
  have : (strBytes ("did:" ++ "web:a")).take 9 = strBytes "did:key:z" := by rw [hr, List.take_left']; rfl
  revert this
  decide

/-! ## C47 JWT to IPLD and back -/

theorem UcanIpld.parseCids_ok {D : Deps} : ∀ {l : List String} {cs : List Cid}, parseCids D l = .ok cs →
    cs.length = l.length ∧ ∀ (i : Nat) (s : String) (c : Cid), l[i]? = some s → cs[i]? = some c → Cid.parse D s = some c
  | [], cs, h => by cases h; exact ⟨rfl, by simp⟩
  | s :: l, cs, h => by
    simp only [parseCids] at h
    split at h
    · cases h
    rename_i c hc
    split at h
    · rename_i cs' hcs
      cases h
      obtain ⟨h1, h2⟩ := parseCids_ok hcs
      refine ⟨by simp [h1], fun i s' c' hs hc' => ?_⟩
      cases i with
      | zero =>
        simp only [List.getElem?_cons_zero, Option.some.injEq] at hs hc'
        subst hs hc'
        exact hc
      | succ i => exact h2 i s' c' (by simpa using hs) (by simpa using hc')
    · cases h

theorem UcanIpld.parseCids_canonical {D : Deps} : ∀ (l : List String), (∀ s ∈ l, ∃ c, Cid.parse D s = some c ∧ c.toStr = s) →
    ∃ cs, parseCids D l = .ok cs ∧ cs.map Cid.toStr = l
  | [], _ => ⟨[], rfl, rfl⟩
  | s :: l, h => by
    obtain ⟨c, hc, hs⟩ := h s (by simp)
    obtain ⟨cs, hcs, hm⟩ := parseCids_canonical l (fun s hs => h s (by simp [hs]))
    exact ⟨c :: cs, by simp only [parseCids, hc, hcs], by rw [List.map_cons, hs, hm]⟩

theorem UcanIpld.prfOf_canonical {D : Deps} {prf : Option (List String)} (h0 : prf ≠ some [])
    (h : ∀ s ∈ prf.getD [], ∃ c, Cid.parse D s = some c ∧ c.toStr = s) :
    ∃ o, prfOf D prf = .ok o ∧ (o.map fun l => l.map Cid.toStr) = prf := by
  cases prf with
  | none => exact ⟨none, rfl, rfl⟩
  | some l =>
    obtain ⟨cs, h1, h2⟩ := parseCids_canonical l h
    simp only [prfOf, h1]
    cases cs with
    | nil => exact absurd (by rw [← h2]; rfl) h0
    | cons c cs => exact ⟨_, rfl, congrArg some h2⟩

/-- C47: a portable token converts to UCAN-IPLD and back with all claims and the signature unchanged. -/
theorem C47_round_trip (D : Deps) (u : Ucan) (h : Portable D u) (hl : u.signature.length < 2 ^ 64) :
    ∃ x, UcanIpld.ofUcan D u = .ok x ∧
      UcanIpld.toUcan D x = .ok ⟨u.header, u.payload, Ucan.signingInput D u.header u.payload, u.signature⟩ := by
  obtain ⟨prf, hp1, hp2⟩ := UcanIpld.prfOf_canonical h.proofs h.canonical
  obtain ⟨⟨iss, hi⟩, hi'⟩ := h.issuer
  obtain ⟨⟨aud, ha⟩, ha'⟩ := h.audience
  have hi1 := (C46_of u.payload.iss ⟨iss⟩).2 hi
  have ha1 := (C46_of u.payload.aud ⟨aud⟩).2 ha
  obtain ⟨n, hn⟩ := h.alg
  obtain ⟨v, hv, _⟩ := (C57_name_code _ _).2 hn
  unfold Varsig.ofStr at hv
  rw [Option.map_eq_some_iff] at hv
  obtain ⟨alg, hv, _⟩ := hv
  have hs := C44_round_trip alg u.signature [] hl
  rw [List.append_nil] at hs
  refine ⟨_, by unfold UcanIpld.ofUcan; simp only [hp1, hi1, ha1, hv]; rfl, ?_⟩
  unfold UcanIpld.toUcan
  have e1 := (C46_round_trip_partial _ _ hi1).2 hi'
  have e2 := (C46_round_trip_partial _ _ ha1).2 ha'
  simp only [hs, e1, e2, hp2]
  have hh : (⟨alg.toStr, "JWT"⟩ : Header) = u.header := by
    rw [(C57_names _ _).1 hv, ← h.typ]
  have hpay : (⟨ucanVersion, u.payload.iss, u.payload.aud, u.payload.exp, u.payload.nbf, u.payload.nnc, u.payload.cap, u.payload.fct,
      u.payload.prf⟩ : Payload) = u.payload := by
    have : ucanVersion = u.payload.ucv := h.version.symm
    rw [this]
  rw [hh, hpay]
  rfl

/-- C47: so the encoded token is unchanged. -/
theorem C47_encode (D : Deps) (u u' : Ucan) (x : UcanIpld) (h : Portable D u) (hl : u.signature.length < 2 ^ 64) (h1 : UcanIpld.ofUcan D u = .ok x)
    (h2 : UcanIpld.toUcan D x = .ok u') : u'.encode D = u.encode D := by
  obtain ⟨x', e1, e2⟩ := C47_round_trip D u h hl
  rw [h1] at e1
  cases e1
  rw [h2] at e2
  cases e2
  rfl

/-- C47: and a token whose signed bytes are its own encoding comes back as the same value, with the same validity. -/
theorem C47_same (D : Deps) (u : Ucan) (h : Portable D u) (hl : u.signature.length < 2 ^ 64)
    (hd : u.signedData = Ucan.signingInput D u.header u.payload) : ∃ x, UcanIpld.ofUcan D u = .ok x ∧ UcanIpld.toUcan D x = .ok u := by
  obtain ⟨x, h1, h2⟩ := C47_round_trip D u h hl
  exact ⟨x, h1, by rw [h2, ← hd]⟩

/-- C47: only portable tokens come back with the same header and payload. -/
theorem C47_only_portable (D : Deps) (u u' : Ucan) (x : UcanIpld) (h1 : UcanIpld.ofUcan D u = .ok x) (h2 : UcanIpld.toUcan D x = .ok u')
    (hh : u'.header = u.header) (hp : u'.payload = u.payload) : Portable D u := by
  unfold UcanIpld.ofUcan at h1
  split at h1
  · cases h1
  rename_i prf hprf
  split at h1
  · cases h1
  rename_i iss hiss
  split at h1
  · cases h1
  rename_i aud haud
  split at h1
  · cases h1
  rename_i alg halg
  cases h1
  unfold UcanIpld.toUcan at h2
  simp only at h2
  split at h2
  · cases h2
  split at h2
  · cases h2
  rename_i iss' hiss'
  split at h2
  · cases h2
  rename_i aud' haud'
  injection h2 with h2
  subst h2
  have hp : (⟨ucanVersion, iss', aud', u.payload.exp, u.payload.nbf, u.payload.nnc, u.payload.cap, u.payload.fct,
    prf.map fun l => l.map Cid.toStr⟩ : Payload) = u.payload := hp
  have e1 : iss' = u.payload.iss := congrArg Payload.iss hp
  have e2 : aud' = u.payload.aud := congrArg Payload.aud hp
  have e3 : (prf.map fun l => l.map Cid.toStr) = u.payload.prf := congrArg Payload.prf hp
  subst e1 e2
  refine ⟨(congrArg Payload.ucv hp).symm, (congrArg Header.typ hh).symm, ?_, ?_, ?_, ⟨⟨_, (C46_of _ _).1 hiss⟩, (C46_round_trip_partial _ _ hiss).1 hiss'⟩,
    ⟨⟨_, (C46_of _ _).1 haud⟩, (C46_round_trip_partial _ _ haud).1 haud'⟩⟩
  · exact ⟨_, (C57_name_code _ _).1 ⟨_, by unfold Varsig.ofStr; rw [halg]; rfl, rfl⟩⟩
  · intro h0
    rw [h0] at hprf
    simp only [UcanIpld.prfOf, UcanIpld.parseCids] at hprf
    cases hprf
    rw [h0] at e3
    cases e3
  · intro s hs
    cases hl : u.payload.prf with
    | none => rw [hl] at hs; cases hs
    | some l =>
      rw [hl] at hs hprf e3
      simp only [UcanIpld.prfOf] at hprf
      cases hc : UcanIpld.parseCids D l with
      | error e => rw [hc] at hprf; cases hprf
      | ok cs =>
        rw [hc] at hprf
        obtain ⟨g1, g2⟩ := UcanIpld.parseCids_ok hc
        have e3' : cs.map Cid.toStr = l := by
          cases cs with
          | nil => cases hprf; cases e3
          | cons c cs => cases hprf; exact Option.some.inj e3
        obtain ⟨i, hi⟩ := List.getElem?_of_mem (show s ∈ l from hs)
        have hlt : i < cs.length := by
          rw [g1]
          exact (List.getElem?_eq_some_iff.1 hi).1
        refine ⟨cs[i], g2 i s _ hi (List.getElem?_eq_getElem hlt), ?_⟩
        rw [← e3', List.getElem?_map, List.getElem?_eq_getElem hlt] at hi
        exact Option.some.inj hi

/-- C47: every token that the builder signs is portable, if the issuer's algorithm is known, both DIDs are representable, and the references in
the proof list came from the builder. -/
theorem C47_signed (D : Deps) (s : Signable) (rnd : Bytes) (u : Ucan) (h : s.sign D rnd = .ok u) (halg : ∃ n, (s.issuer.alg, n) ∈ algTable)
    (hprf : ∀ p ∈ s.proofs, ∃ c : Cid, p = c.toStr ∧ c.v1 = true ∧ c.digest.length ≤ 64)
    (hiss : (∃ p, Principal u.payload.iss p) ∧ ¬ Confusable u.payload.iss) (haud : (∃ p, Principal s.audience p) ∧ ¬ Confusable s.audience) :
    Portable D u := by
  obtain ⟨hp, hh, _⟩ := sign_ok h
  obtain ⟨_, _, h3, h4, _, _, _, _, h9⟩ := ucanPayload_ok hp
  refine ⟨h3, by rw [hh], by rw [hh]; exact halg, ?_, ?_, hiss, by rw [h4]; exact haud⟩
  · rw [h9]
    split
    · simp
    · rename_i hne
      intro e
      injection e with e
      rw [e] at hne
      exact absurd rfl hne
  · intro p hp
    rw [h9] at hp
    split at hp
    · cases hp
    · obtain ⟨c, rfl, hv, hl⟩ := hprf p hp
      exact ⟨c, Cid.parse_toStr D c hv hl, rfl⟩

/-- C47: a token of another version, or with another type in its header, never comes back with the bytes that were signed. -/
theorem C47_version (D : Deps) (u u' : Ucan) (x : UcanIpld) (h1 : UcanIpld.ofUcan D u = .ok x) (h2 : UcanIpld.toUcan D x = .ok u')
    (hne : u.payload.ucv ≠ "0.10.0-canary" ∨ u.header.typ ≠ "JWT") : ¬ (u'.header = u.header ∧ u'.payload = u.payload) := by
  rintro ⟨hh, hp⟩
  have := C47_only_portable D u u' x h1 h2 hh hp
  rcases hne with h | h
  · exact h this.version
  · exact h this.typ

theorem Ex.did_safe (k : UInt8) : (∃ p, Principal (Ex.did k) p) ∧ ¬ Confusable (Ex.did k) := by
  have h : strBytes (Ex.did k) = strBytes "did:key:z" ++ Base58.encode [0xed, 1, k] := by
    show strBytes ("did:key:z" ++ _) = _
    rw [strBytes_append, strBytes_asciiStr (Base58.encode_ascii _)]
  exact ⟨⟨_, .key h⟩, C46_safe _ (Or.inr ⟨_, _, _, h, Or.inl (by decide)⟩)⟩

/-- Beside C47: a token with a proof and a redelegation is portable. -/
theorem Ex.root_portable (D : Deps) : Portable D (Ex.root D) := by
  refine ⟨rfl, rfl, ⟨0xd0ed, by show ("EdDSA", _) ∈ algTable; decide⟩, fun h => ?_, fun s hs => ?_, Ex.did_safe 2, Ex.did_safe 3⟩
  · cases (show some [(Ex.cid 1).toStr] = some [] from h)
  · have hs : s = (Ex.cid 1).toStr := by simpa using (show s ∈ [(Ex.cid 1).toStr] from hs)
    exact ⟨Ex.cid 1, by rw [hs]; exact Ex.cid_parse D 1, hs.symm⟩

example (D : Deps) : ∃ x, UcanIpld.ofUcan D (Ex.root D) = .ok x ∧ UcanIpld.toUcan D x = .ok (Ex.root D) :=
  C47_same D _ (Ex.root_portable D) (by show 1 < 2 ^ 64; omega) rfl

/-! ## C64 IPLD to JWT and back -/

/-- C64: a UCAN-IPLD value with the current version, a signature as the library encodes it, canonical proofs and principals that print as DIDs
other than `did:key`s in disguise converts to a token and back unchanged. -/
theorem C64_round_trip (D : Deps) (x : UcanIpld) (alg : JwtAlg) (sig : Bytes) (iss aud : String) (hl : sig.length < 2 ^ 64)
    (hv : x.v = "0.10.0-canary") (hs : x.s = IpldSig.ofAlg alg sig) (hi : Principle.ofStr iss = .ok x.iss) (ha : Principle.ofStr aud = .ok x.aud)
    (hi' : ¬ Confusable iss) (ha' : ¬ Confusable aud) (h0 : x.prf ≠ some []) (hp : ∀ c ∈ x.prf.getD [], c.v1 = true ∧ c.digest.length ≤ 64) :
    ∃ u, UcanIpld.toUcan D x = .ok u ∧ UcanIpld.ofUcan D u = .ok x := by
  have hd := C44_round_trip alg sig [] hl
  rw [List.append_nil] at hd
  have e1 := (C46_round_trip_partial _ _ hi).2 hi'
  have e2 := (C46_round_trip_partial _ _ ha).2 ha'
  have hprf : UcanIpld.prfOf D (x.prf.map fun l => l.map Cid.toStr) = .ok x.prf := by
    cases hx : x.prf with
    | none => rfl
    | some l =>
      rw [hx] at h0 hp
      have : ∀ l : List Cid, (∀ c ∈ l, c.v1 = true ∧ c.digest.length ≤ 64) → UcanIpld.parseCids D (l.map Cid.toStr) = .ok l := by
        intro l
        induction l with
        | nil => intro _; rfl
        | cons c l ih =>
          intro h
          obtain ⟨h1, h2⟩ := h c (by simp)
          simp only [List.map_cons, UcanIpld.parseCids, Cid.parse_toStr D c h1 h2, ih (fun c hc => h c (by simp [hc]))]
      simp only [Option.map_some, UcanIpld.prfOf, this l hp]
      cases l with
      | nil => exact absurd rfl h0
      | cons c l => rfl
  cases x with
  | mk v xi xa xs cap prf exp fct nnc nbf =>
    simp only at hs hv hi ha e1 e2 hprf
    subst hs hv
    refine ⟨_, by unfold UcanIpld.toUcan; simp only [hd, e1, e2]; rfl, ?_⟩
    unfold UcanIpld.ofUcan Ucan.new
    simp only [hprf, hi, ha, (C57_names _ alg).2 rfl]
    rfl

/-- Beside C64: a value with a proof. -/
example (D : Deps) : ∃ u, UcanIpld.toUcan D ⟨"0.10.0-canary", ⟨[0xed, 1, 2]⟩, ⟨[0x9d, 0x1a] ++ strBytes "web:a"⟩, IpldSig.ofAlg .ES256 [1, 2, 3], [],
      some [Ex.cid 1], some 7, none, none, none⟩ = .ok u ∧
    UcanIpld.ofUcan D u = .ok ⟨"0.10.0-canary", ⟨[0xed, 1, 2]⟩, ⟨[0x9d, 0x1a] ++ strBytes "web:a"⟩, IpldSig.ofAlg .ES256 [1, 2, 3], [],
      some [Ex.cid 1], some 7, none, none, none⟩ := by
  have hweb : ¬ ∃ r, strBytes ("did:" ++ "web:a") = strBytes "did:key:z" ++ r := by
    rintro ⟨r, hr⟩
    have : (strBytes ("did:" ++ "web:a")).take 9 = strBytes "did:key:z" := by rw [hr, List.take_left']; rfl
    revert this
    decide
  have h : strBytes (Ex.did 2) = strBytes "did:key:z" ++ Base58.encode [0xed, 1, 2] := by
    show strBytes ("did:key:z" ++ _) = _
    rw [strBytes_append, strBytes_asciiStr (Base58.encode_ascii _)]
  refine C64_round_trip D _ .ES256 [1, 2, 3] (Ex.did 2) ("did:" ++ "web:a") (by simp) rfl rfl ((C46_of _ _).2 (.key h)) ((C46_of _ _).2 (.other hweb))
    (Ex.did_safe 2).2 (C46_safe _ (Or.inl fun r hr => hweb ⟨r, hr⟩)) (by simp) ?_
  intro c hc
  have : c = Ex.cid 1 := by simpa using hc
  subst this
  exact ⟨rfl, by decide⟩

end Verif
