import Verif.Props.CidText
import Verif.Props.IpldCbor
import Verif.Spec.IpldForm

/-! # C78: the UCAN-IPLD form of a token -/

namespace Verif
open Spec

/-! ## Minimal varints are unique -/

theorem leb_zero {t : Bytes} {v : Nat} (h : Leb t v) : v = 0 → t.getLast? = some 0 := by
  induction h with
  | last h =>
    rename_i b
    intro e
    have : b = 0 := UInt8.toNat_inj.1 (by simpa using e)
    subst this; rfl
  | more h ht ih =>
    intro e
    have := ih (by omega)
    rw [List.getLast?_cons, this]; rfl

theorem leb_short_unique {p q : Bytes} {n m : Nat} (hp : Leb p n) (hq : Leb q m) (e : n = m) (lp : p.length = 1 ∨ p.getLast? ≠ some 0)
    (lq : q.length = 1 ∨ q.getLast? ≠ some 0) : p = q := by
  have tail : ∀ {b : UInt8} {t : Bytes} {v : Nat}, Leb t v → (b :: t).length = 1 ∨ (b :: t).getLast? ≠ some 0 → t.getLast? ≠ some 0 := by
    intro b t v ht h
    have hne : t ≠ [] := by intro e; subst e; cases ht
    rcases h with h | h
    · simp at h; exact absurd h hne
    · rwa [List.getLast?_cons_of_ne_nil hne] at h
  induction hp generalizing q m with
  | last hb =>
    rename_i b
    cases hq with
    | last hb' => rename_i b'; rw [UInt8.toNat_inj.1 e]
    | more hb' ht =>
      rename_i b' t v
      exact absurd (leb_zero ht (by have := b.toNat_lt; omega)) (tail ht lq)
  | more hb ht ih =>
    rename_i b t v
    cases hq with
    | last hb' => rename_i b'; exact absurd (leb_zero ht (by omega)) (tail ht lp)
    | more hb' ht' =>
      rename_i b' t' v'
      have h1 := b.toNat_lt
      have h2 := b'.toNat_lt
      have e1 : b = b' := UInt8.toNat_inj.1 (by omega)
      rw [e1, ih ht' (by omega) (Or.inr (tail ht lp)) (Or.inr (tail ht' lq))]

theorem leb128_unique {p q : Bytes} {n : Nat} (hp : Leb128 p n) (hq : Leb128 q n) : p = q := leb_short_unique hp.1 hq.1 rfl hp.2 hq.2

theorem varint_leb128 {p : Bytes} {n : UInt64} : Leb128 p n.toNat ↔ p = Varint.encode n :=
  ⟨fun h => leb128_unique h (Varint.encode_leb128 n), fun h => h ▸ Varint.encode_leb128 n⟩

theorem varint_length {p : Bytes} {n : Nat} (hn : n < 2 ^ 64) : Leb128 p n ↔ p = Varint.encode (UInt64.ofNat n) := by
  rw [← varint_leb128, show (UInt64.ofNat n).toNat = n by simp; omega]

/-! ## From tokens -/

theorem jwtAlg_table (s : String) (n : UInt64) : (∃ a, JwtAlg.ofStr s = some a ∧ (Varsig.ofAlg a).code = n) ↔ (s, n) ∈ algTable := by
  rw [← C57_name_code]
  unfold Varsig.ofStr
  constructor
  · rintro ⟨a, h1, h2⟩
    exact ⟨_, by rw [h1]; rfl, h2⟩
  · rintro ⟨v, h1, h2⟩
    rw [Option.map_eq_some_iff] at h1
    obtain ⟨a, h1, rfl⟩ := h1
    exact ⟨a, h1, h2⟩

theorem signatureBytes_iff (alg : String) (sig : Bytes) (x : IpldSig) (hl : sig.length < 2 ^ 64) :
    SignatureBytes alg sig x.bytes ↔ ∃ a, JwtAlg.ofStr alg = some a ∧ x = IpldSig.ofAlg a sig := by
  constructor
  · rintro ⟨code, p, q, h1, h2, h3, h4⟩
    obtain ⟨a, ha, rfl⟩ := (jwtAlg_table _ _).2 h1
    refine ⟨a, ha, ?_⟩
    obtain ⟨b⟩ := x
    simp only at h4
    rw [h4, varint_leb128.1 h2, (varint_length hl).1 h3]
    rfl
  · rintro ⟨a, ha, rfl⟩
    exact ⟨_, _, _, (jwtAlg_table _ _).1 ⟨a, ha, rfl⟩, Varint.encode_leb128 _, (varint_length hl).2 rfl, rfl⟩

theorem parseCids_iff (D : Deps) : ∀ (l : List String) (cs : List Cid), UcanIpld.parseCids D l = .ok cs ↔
    l.length = cs.length ∧ ∀ (i : Nat) s c, l[i]? = some s → cs[i]? = some c → DenotesCid D s c
  | [], cs => by
    simp only [UcanIpld.parseCids]
    constructor
    · intro h; cases h; simp
    · rintro ⟨h, _⟩
      cases cs with
      | nil => rfl
      | cons _ _ => simp at h
  | s :: l, [] => by
    simp only [UcanIpld.parseCids]
    constructor
    · intro h
      split at h
      · cases h
      · split at h <;> cases h
    · rintro ⟨h, _⟩; simp at h
  | s :: l, c :: cs => by
    have ih := parseCids_iff D l cs
    simp only [UcanIpld.parseCids]
    constructor
    · intro h
      split at h
      · cases h
      rename_i c' hc
      split at h
      · rename_i cs' hcs
        cases h
        obtain ⟨h1, h2⟩ := ih.1 hcs
        refine ⟨by simp [h1], fun i s' c' hs hc' => ?_⟩
        cases i with
        | zero =>
          simp only [List.getElem?_cons_zero, Option.some.injEq] at hs hc'
          subst hs hc'
          exact (C70_reference ..).1 hc
        | succ i => exact h2 i s' c' (by simpa using hs) (by simpa using hc')
      · cases h
    · rintro ⟨h1, h2⟩
      rw [(C70_reference ..).2 (h2 0 s c rfl rfl)]
      simp only
      rw [ih.2 ⟨by simpa using h1, fun i s' c' hs hc => h2 (i + 1) s' c' (by simpa using hs) (by simpa using hc)⟩]

theorem prfOf_iff (D : Deps) (prf : Option (List String)) (o : Option (List Cid)) : UcanIpld.prfOf D prf = .ok o ↔ References D prf o := by
  have key : ∀ l : List String, (match UcanIpld.parseCids D l with
      | .error e => .error e
      | .ok [] => .ok none
      | .ok cs => .ok (some cs) : Res (Option (List Cid))) = .ok o ↔ References D (some l) o := by
    intro l
    have ih := parseCids_iff D l (o.getD [])
    unfold References
    simp only [Option.getD_some]
    constructor
    · intro h
      split at h
      · cases h
      · rename_i hcs
        cases h
        have := (parseCids_iff D l []).1 hcs
        exact ⟨this.1, by simp, this.2⟩
      · rename_i cs hne hcs
        cases h
        have := (parseCids_iff D l cs).1 hcs
        exact ⟨this.1, by intro e; cases e; exact hne rfl, this.2⟩
    · rintro ⟨h1, h2, h3⟩
      have h := ih.2 ⟨h1, h3⟩
      rw [h]
      cases o with
      | none => rfl
      | some cs =>
        cases cs with
        | nil => exact absurd rfl h2
        | cons c cs => rfl
  cases prf with
  | some l => exact key l
  | none => exact key []

/-- C78: the UCAN-IPLD value of a token, field by field, and exactly when there is one. -/
theorem C78_of (D : Deps) (u : Ucan) (x : UcanIpld) (hl : u.signature.length < 2 ^ 64) : UcanIpld.ofUcan D u = .ok x ↔ FormOf D u x := by
  unfold UcanIpld.ofUcan
  constructor
  · intro h
    split at h
    · cases h
    rename_i prf hprf
    split at h
    · cases h
    rename_i iss hiss
    split at h
    · cases h
    rename_i aud haud
    split at h
    · cases h
    rename_i alg halg
    cases h
    exact ⟨rfl, (C46_of _ _).1 hiss, (C46_of _ _).1 haud, (signatureBytes_iff _ _ _ hl).2 ⟨alg, halg, rfl⟩, rfl, (prfOf_iff ..).1 hprf, rfl, rfl, rfl, rfl⟩
  · intro h
    obtain ⟨alg, halg, hs⟩ := (signatureBytes_iff _ _ _ hl).1 h.s
    rw [(prfOf_iff ..).2 h.prf, (C46_of _ _).2 h.iss, (C46_of _ _).2 h.aud, halg]
    simp only
    obtain ⟨v, iss, aud, s, cap, prf, exp, fct, nnc, nbf⟩ := x
    cases h.v; cases h.cap; cases h.exp; cases h.fct; cases h.nnc; cases h.nbf; cases hs
    rfl

/-- C78: converting a token never panics. -/
theorem C78_of_total (D : Deps) (u : Ucan) : (∃ x, UcanIpld.ofUcan D u = .ok x) ∨ ∃ e, UcanIpld.ofUcan D u = .error (.err e) := by
  have hcids : ∀ l, (∃ cs, UcanIpld.parseCids D l = .ok cs) ∨ ∃ e, UcanIpld.parseCids D l = .error (.err e) := by
    intro l
    induction l with
    | nil => exact Or.inl ⟨_, rfl⟩
    | cons s l ih =>
      simp only [UcanIpld.parseCids]
      split
      · exact Or.inr ⟨_, rfl⟩
      · rcases ih with ⟨cs, h⟩ | ⟨e, h⟩
        · rw [h]; exact Or.inl ⟨_, rfl⟩
        · rw [h]; exact Or.inr ⟨_, rfl⟩
  have hprf : ∀ o, (∃ cs, UcanIpld.prfOf D o = .ok cs) ∨ ∃ e, UcanIpld.prfOf D o = .error (.err e) := by
    intro o
    cases o with
    | none => exact Or.inl ⟨_, rfl⟩
    | some l =>
      simp only [UcanIpld.prfOf]
      rcases hcids l with ⟨cs, h⟩ | ⟨e, h⟩
      · rw [h]
        cases cs <;> exact Or.inl ⟨_, rfl⟩
      · rw [h]; exact Or.inr ⟨_, rfl⟩
  have hdid : ∀ s, (∃ p, Principle.ofStr s = .ok p) ∨ ∃ e, Principle.ofStr s = .error (.err e) := by
    intro s
    unfold Principle.ofStr
    split
    · split
      · exact Or.inr ⟨_, rfl⟩
      · exact Or.inl ⟨_, rfl⟩
    · split
      · exact Or.inl ⟨_, rfl⟩
      · exact Or.inr ⟨_, rfl⟩
  unfold UcanIpld.ofUcan
  rcases hprf u.payload.prf with ⟨prf, h⟩ | ⟨e, h⟩
  · rw [h]
    rcases hdid u.payload.iss with ⟨iss, h⟩ | ⟨e, h⟩
    · rw [h]
      rcases hdid u.payload.aud with ⟨aud, h⟩ | ⟨e, h⟩
      · rw [h]
        cases JwtAlg.ofStr u.header.alg with
        | none => exact Or.inr ⟨_, rfl⟩
        | some a => exact Or.inl ⟨_, rfl⟩
      · rw [h]; exact Or.inr ⟨_, rfl⟩
    · rw [h]; exact Or.inr ⟨_, rfl⟩
  · rw [h]; exact Or.inr ⟨_, rfl⟩

/-! ## To tokens -/

theorem names_iff (p : Principle) (s : String) : p.toStr = .ok s ↔ Names p.bytes s := by
  obtain ⟨b⟩ := p
  unfold Principle.toStr
  simp only
  split
  · rename_i b0 b1 rest
    by_cases hpre : [b0, b1] = Principle.ipldPrefix
    · rw [if_pos hpre]
      unfold Principle.ipldPrefix at hpre
      injection hpre with e0 e1
      injection e1 with e1 _
      subst e0 e1
      constructor
      · intro h
        split at h
        · rename_i t ht
          cases h
          rw [← strBytes_of_bytesStr? ht]
          exact .other
        · cases h
      · intro h
        generalize hb : (0x9d :: 0x1a :: rest : Bytes) = b at h
        cases h with
        | other =>
          rename_i t
          injection hb with _ hb
          injection hb with _ hb
          subst hb
          rw [bytesStr?_strBytes]
        | key hne _ _ =>
          injection hb with e0 hb
          injection hb with e1 hb
          subst e0 e1
          rcases hne with h | h <;> exact absurd rfl h
    · rw [if_neg hpre]
      have hne : b0 ≠ 0x9d ∨ b1 ≠ 0x1a := by
        by_cases e0 : b0 = 0x9d
        · exact Or.inr fun e1 => hpre (by rw [e0, e1]; rfl)
        · exact Or.inl e0
      constructor
      · intro h
        cases h
        refine .key hne (base58_encode_text _) ?_
        rw [strBytes_append, strBytes_asciiStr (Base58.encode_ascii _)]
      · intro h
        generalize hb : (b0 :: b1 :: rest : Bytes) = b at h ⊢
        cases h with
        | other =>
          injection hb with e0 hb
          injection hb with e1 hb
          subst e0 e1
          rcases hne with h | h <;> exact absurd rfl h
        | key _ ht hs =>
          rw [(C69_base58_encode _ _).2 ht]
          refine congrArg Except.ok (strBytes_inj ?_)
          rw [hs, strBytes_append, strBytes_asciiStr]
          rw [← (C69_base58_encode _ _).2 ht]
          exact Base58.encode_ascii _
  · rename_i hn
    constructor
    · intro h; cases h
    · intro h
      cases h with
      | other => exact absurd rfl (hn _ _ _)
      | key _ _ _ => exact absurd rfl (hn _ _ _)

theorem nameless_iff (p : Principle) : (∃ e, p.toStr = .error (.panic e)) ↔ Nameless p.bytes := by
  obtain ⟨b⟩ := p
  unfold Principle.toStr Nameless
  simp only
  split
  · rename_i b0 b1 rest
    by_cases hpre : [b0, b1] = Principle.ipldPrefix
    · rw [if_pos hpre]
      unfold Principle.ipldPrefix at hpre
      injection hpre with e0 e1
      injection e1 with e1 _
      subst e0 e1
      constructor
      · rintro ⟨e, h⟩
        split at h
        · cases h
        · rename_i hn
          refine Or.inr ⟨rest, rfl, ?_⟩
          rintro ⟨t, rfl⟩
          rw [bytesStr?_strBytes] at hn
          cases hn
      · rintro (h | ⟨r, h, hn⟩)
        · simp at h; omega
        · injection h with _ h
          injection h with _ h
          subst h
          split
          · rename_i t ht
            exact absurd ⟨t, (strBytes_of_bytesStr? ht).symm⟩ hn
          · exact ⟨_, rfl⟩
    · rw [if_neg hpre]
      constructor
      · rintro ⟨e, h⟩; cases h
      · rintro (h | ⟨r, h, hn⟩)
        · simp at h; omega
        · injection h with e0 h
          injection h with e1 h
          exact absurd (by rw [e0, e1]; rfl) hpre
  · rename_i hn
    refine ⟨fun _ => Or.inl ?_, fun _ => ⟨_, rfl⟩⟩
    match b, hn with
    | [], _ => decide
    | [_], _ => simp
    | b0 :: b1 :: r, hn => exact absurd rfl (hn b0 b1 r)

theorem writtenCid_iff (c : Cid) (hl : c.digest.length ≤ 64) (s : String) : WrittenCid c s ↔ s = c.toStr := by
  have hlen : ∀ p, Leb128 p c.digest.length ↔ p = Varint.encode (UInt64.ofNat c.digest.length) := fun p => varint_length (by omega)
  constructor
  · intro h
    refine strBytes_inj ?_
    rw [Cid.strBytes_toStr]
    cases h with
    | v1 hv hb ht hs =>
      obtain ⟨pc, ph, pl, e, h1, h2, h3⟩ := hb
      rw [hs, ← (C69_base32_encode _ _).2 ht, e, varint_leb128.1 h1, varint_leb128.1 h2, (hlen _).1 h3]
      unfold Cid.toStrBytes Cid.toBytes
      rw [if_pos hv, if_pos hv]
      rfl
    | v0 hv h1 h2 ht hs =>
      rw [hs, ← (C69_base58_encode _ _).2 ht, varint_leb128.1 h1, (hlen _).1 h2]
      unfold Cid.toStrBytes Cid.toBytes
      rw [if_neg (by simp [hv]), if_neg (by simp [hv])]
      rfl
  · rintro rfl
    cases hv : c.v1 with
    | true =>
      obtain ⟨t, b, h1, h2, h3⟩ := C69_cid_text c hv hl
      exact .v1 hv h3 h2 h1
    | false =>
      refine .v0 hv (Varint.encode_leb128 _) ((hlen _).2 rfl) (base58_encode_text _) ?_
      rw [Cid.strBytes_toStr]
      unfold Cid.toStrBytes Cid.toBytes
      rw [if_neg (by simp [hv]), if_neg (by simp [hv])]
      rfl

theorem prfBack_iff (o : Option (List Cid)) (hv : ∀ c ∈ o.getD [], c.digest.length ≤ 64) (prf : Option (List String)) :
    (o.map fun l => l.map Cid.toStr) = prf ↔ prf.isSome = o.isSome ∧ (prf.getD []).length = (o.getD []).length ∧
      ∀ (i : Nat) s c, (prf.getD [])[i]? = some s → (o.getD [])[i]? = some c → WrittenCid c s := by
  constructor
  · rintro rfl
    cases o with
    | none => simp
    | some l =>
      refine ⟨rfl, by simp, fun i s c hs hc => ?_⟩
      simp only [Option.map_some, Option.getD_some, List.getElem?_map] at hs hc
      rw [hc] at hs
      injection hs with hs
      exact (writtenCid_iff c (hv c (by simpa using List.mem_of_getElem? hc)) s).2 hs.symm
  · rintro ⟨h1, h2, h3⟩
    cases o with
    | none =>
      cases prf with
      | none => rfl
      | some _ => cases h1
    | some l =>
      cases prf with
      | none => cases h1
      | some m =>
        simp only [Option.map_some, Option.getD_some] at h2 h3 hv ⊢
        congr 1
        refine List.ext_getElem? fun i => ?_
        rw [List.getElem?_map]
        cases hc : l[i]? with
        | none =>
          rw [List.getElem?_eq_none_iff] at hc
          rw [List.getElem?_eq_none (by omega)]; rfl
        | some c =>
          have hi := (List.getElem?_eq_some_iff.1 hc).1
          cases hs : m[i]? with
          | none => rw [List.getElem?_eq_none_iff] at hs; omega
          | some s =>
            have := (writtenCid_iff c (hv c (List.mem_of_getElem? hc)) s).1 (h3 i s c hs hc)
            rw [this]; rfl

/-- C78: the token of a UCAN-IPLD value, member by member, and exactly when there is one. -/
theorem C78_back (D : Deps) (x : UcanIpld) (hv : ∀ c ∈ x.prf.getD [], c.digest.length ≤ 64) (h : Header) (p : Payload) (sig : Bytes) :
    (∃ u, UcanIpld.toUcan D x = .ok u ∧ u.header = h ∧ u.payload = p ∧ u.signature = sig) ↔ TokenForm x h p sig := by
  unfold UcanIpld.toUcan
  constructor
  · rintro ⟨u, hu, rfl, rfl, rfl⟩
    split at hu
    · cases hu
    rename_i alg sig hs
    split at hu
    · cases hu
    rename_i iss hiss
    split at hu
    · cases hu
    rename_i aud haud
    cases hu
    exact ⟨(C45_success _ _ _).1 hs, rfl, rfl, (names_iff _ _).1 hiss, (names_iff _ _).1 haud, rfl, rfl, rfl, rfl, rfl, (prfBack_iff _ hv _).1 rfl⟩
  · intro hf
    obtain ⟨alg, typ⟩ := h
    obtain ⟨ucv, iss, aud, exp, nbf, nnc, cap, fct, prf⟩ := p
    have hs := hf.alg
    obtain ⟨_, _, _, code, _, _, _, _, hmem, _⟩ := id hs
    obtain ⟨a, ha, _⟩ := (jwtAlg_table _ _).2 hmem
    have ha := (C57_names _ _).1 ha
    simp only at ha
    have hs : x.s.decode = .ok (a, sig) := (C45_success _ _ _).2 (by rw [ha]; exact hs)
    rw [hs, (names_iff _ _).2 hf.iss, (names_iff _ _).2 hf.aud]
    refine ⟨_, rfl, ?_, ?_, rfl⟩
    · show (⟨a.toStr, "JWT"⟩ : Header) = ⟨alg, typ⟩
      rw [ha]
      have := hf.typ
      simp only at this
      rw [this]
    · have e := (prfBack_iff _ hv _).2 hf.prf
      have h1 := hf.ucv; have h2 := hf.exp; have h3 := hf.nbf; have h4 := hf.nnc; have h5 := hf.cap; have h6 := hf.fct
      simp only at h1 h2 h3 h4 h5 h6 e
      show (⟨ucanVersion, iss, aud, x.exp, x.nbf, x.nnc, x.cap, x.fct, x.prf.map fun l => l.map Cid.toStr⟩ : Payload) = _
      rw [e, h1, h2, h3, h4, h5, h6]
      rfl

/-- C78: what that token carries as its signed bytes is its own text, not what the issuer signed. -/
theorem C78_back_signed (D : Deps) (x : UcanIpld) (u : Ucan) (h : UcanIpld.toUcan D x = .ok u) (hn : Json.NumOk D (payloadDoc u.payload)) :
    SignedText D u.header u.payload u.signedData := by
  unfold UcanIpld.toUcan at h
  split at h
  · cases h
  split at h
  · cases h
  split at h
  · cases h
  cases h
  exact signedText_signingInput D _ _ hn

theorem toStr_no_err (p : Principle) (e : Err) : p.toStr ≠ .error (.err e) := by
  unfold Principle.toStr
  split
  · split
    · split
      · intro h; cases h
      · intro h; cases h
    · intro h; cases h
  · intro h; cases h

theorem toStr_cases (p : Principle) : (∃ s, p.toStr = .ok s) ∨ ∃ e, p.toStr = .error (.panic e) := by
  unfold Principle.toStr
  split
  · split
    · split
      · exact Or.inl ⟨_, rfl⟩
      · exact Or.inr ⟨_, rfl⟩
    · exact Or.inl ⟨_, rfl⟩
  · exact Or.inr ⟨_, rfl⟩

/-- C78: exactly when converting a UCAN-IPLD value panics: a signature that announces more bytes than there are, or a principal that is no DID
although the signature can be read. -/
theorem C78_back_panics (D : Deps) (x : UcanIpld) : (∃ e, UcanIpld.toUcan D x = .error (.panic e)) ↔
    CutSignature x.s.bytes ∨ ((∃ alg sig, ReadSignature x.s.bytes alg sig) ∧ (Nameless x.iss.bytes ∨ Nameless x.aud.bytes)) := by
  have hcut : (∃ e, x.s.decode = .error (.panic e)) ↔ CutSignature x.s.bytes := by
    constructor
    · rintro ⟨e, h⟩; exact ((C45_panic _ _).1 h).2
    · intro h; exact ⟨_, (C45_panic _ _).2 ⟨rfl, h⟩⟩
  have hread : (∃ r, x.s.decode = .ok r) ↔ ∃ alg sig, ReadSignature x.s.bytes alg sig := by
    constructor
    · rintro ⟨⟨a, sig⟩, h⟩; exact ⟨_, _, (C45_success _ _ _).1 h⟩
    · rintro ⟨alg, sig, h⟩
      obtain ⟨p, q, rest, code, len, h1, h2, h3, h4, h5⟩ := h
      obtain ⟨a, ha, _⟩ := (jwtAlg_table _ _).2 h4
      have ha := (C57_names _ _).1 ha
      exact ⟨(a, sig), (C45_success _ _ _).2 ⟨p, q, rest, code, len, h1, h2, h3, by rw [ha]; exact h4, h5⟩⟩
  rw [← hcut, ← hread, ← nameless_iff, ← nameless_iff]
  unfold UcanIpld.toUcan
  cases hd : x.s.decode with
  | error e => simp
  | ok r =>
    obtain ⟨alg, sig⟩ := r
    rcases toStr_cases x.iss with ⟨iss, hi⟩ | ⟨e, hi⟩
    · rw [hi]
      rcases toStr_cases x.aud with ⟨aud, ha⟩ | ⟨e, ha⟩
      · rw [ha]; simp
      · rw [ha]; simp
    · rw [hi]; simp

/-! ## The bytes -/

theorem Principal.size {s : String} {b : Bytes} (h : Principal s b) : b.length ≤ (strBytes s).length + 2 := by
  cases h with
  | key h =>
    rw [h, List.length_append]
    have := Base58.length_encode b
    omega
  | other _ =>
    rw [strBytes_append]
    simp only [List.length_append, List.length_cons, List.length_nil]
    omega

theorem StartsWithCid.valid {b : Bytes} {c : Cid} (h : StartsWithCid b c) : c.Valid := by
  cases h with
  | v0 _ _ hl => exact ⟨by simp only; omega, fun _ => ⟨rfl, rfl, hl⟩⟩
  | v1 _ _ _ _ _ hl => exact ⟨hl, fun h => by (cases h)⟩

theorem formOf_sound {D : Deps} {u : Ucan} {x : UcanIpld} (held : HeldToken u) (h : FormOf D u x) : SoundUcanIpld x where
  v := by rw [h.v]; exact held.ucv
  iss := Nat.lt_of_le_of_lt (Principal.size h.iss) held.iss
  aud := Nat.lt_of_le_of_lt (Principal.size h.aud) held.aud
  s := by
    obtain ⟨code, p, q, _, hp, hq, e⟩ := h.s
    have hf : u.signature.length + 20 < 2 ^ 64 := held.signature
    have h1 : p.length ≤ 10 := by
      rw [varint_leb128.1 hp]; obtain ⟨_, _, hl, _⟩ := C44_varint code; exact hl
    have h2 : q.length ≤ 10 := by
      rw [(varint_length (by omega)).1 hq]; obtain ⟨_, _, hl, _⟩ := C44_varint (UInt64.ofNat u.signature.length); exact hl
    rw [e]
    simp only [List.length_append]
    exact Nat.lt_of_le_of_lt (by omega) hf
  cap := by rw [h.cap]; exact held.cap
  prf := by
    intro l hl
    obtain ⟨h1, _, h3⟩ := h.prf
    rw [hl] at h1 h3
    simp only [Option.getD_some] at h1 h3
    refine ⟨by rw [← h1]; exact held.prf, fun c hc => ?_⟩
    obtain ⟨i, hi⟩ := List.getElem?_of_mem hc
    have hlt := (List.getElem?_eq_some_iff.1 hi).1
    obtain ⟨_, _, _, _, _, hst⟩ := h3 i _ c (List.getElem?_eq_getElem (by omega)) hi
    exact StartsWithCid.valid hst
  fct := by rw [h.fct]; exact held.fct
  nnc := by rw [h.nnc]; exact held.nnc

theorem nesting_items_leaf {l : List Ipld} (h : ∀ x ∈ l, nesting x = 0) : nesting (.list l) ≤ 1 := by
  simp only [nesting]
  induction l with
  | nil => simp [nestingItems]
  | cons x l ih =>
    have h1 := h x (by simp)
    have h2 := ih fun y hy => h y (by simp [hy])
    simp only [nestingItems]
    omega

theorem nesting_octets (b : Bytes) : nesting (octets b) ≤ 1 := by
  unfold octets
  refine nesting_items_leaf fun x hx => ?_
  rw [List.mem_map] at hx
  obtain ⟨_, _, rfl⟩ := hx
  rfl

theorem formOf_depth {D : Deps} {u : Ucan} {x : UcanIpld} {limit : Nat} (hd : FitsDepth u limit) (h : FormOf D u x) :
    nesting (ucanIpldDoc x) < limit := by
  obtain ⟨h1, h2, h3⟩ := hd
  have e1 := nesting_octets x.s.bytes
  have e2 := nesting_octets x.aud.bytes
  have e3 := nesting_octets x.iss.bytes
  have e4 : nesting (orNull (fun n : UInt64 => .int n.toNat) x.exp) = 0 := by cases x.exp <;> rfl
  have e5 : nesting (orNull (fun n : UInt64 => .int n.toNat) x.nbf) = 0 := by cases x.nbf <;> rfl
  have e6 : nesting (orNull .str x.nnc) = 0 := by cases x.nnc <;> rfl
  have e7 : nesting (orNull (fun l => .list (l.map .link)) x.prf) ≤ 1 := by
    cases x.prf with
    | none => exact Nat.zero_le _
    | some l =>
      refine nesting_items_leaf fun x hx => ?_
      rw [List.mem_map] at hx
      obtain ⟨_, _, rfl⟩ := hx
      rfl
  have e8 : nesting (orNull (fun f => treeOf (.obj f)) x.fct) + 1 < limit := by
    cases hf : x.fct with
    | none => simp only [orNull, nesting]; omega
    | some f => exact h3 f (by rw [← h.fct, hf])
  have e9 : nesting (treeOf (capDoc x.cap)) + 1 < limit := by rw [h.cap]; exact h2
  unfold ucanIpldDoc
  simp only [nesting, nestingEntries]
  omega

/-- C78: the DAG-CBOR bytes of a token's UCAN-IPLD form, stated for the token. -/
theorem C78_bytes (D : Deps) (u : Ucan) (x : UcanIpld) (held : HeldToken u) (h : UcanIpld.ofUcan D u = .ok x) (p : Bytes) :
    p = x.toCbor ↔ ∃ iss aud sig prf, Principal u.payload.iss iss ∧ Principal u.payload.aud aud ∧ SignatureBytes u.header.alg u.signature sig ∧
      References D u.payload.prf prf ∧ DagCbor p (tokenDoc u iss aud sig prf) := by
  have hl : u.signature.length < 2 ^ 64 := Nat.lt_of_le_of_lt (Nat.le_add_right _ 20) held.signature
  have hf := (C78_of D u x hl).1 h
  constructor
  · intro hp
    refine ⟨_, _, _, _, hf.iss, hf.aud, hf.s, hf.prf, ?_⟩
    have := (C73_document x (formOf_sound held hf) p).2 hp
    unfold ucanIpldDoc at this
    rw [hf.v, hf.cap, hf.exp, hf.fct, hf.nnc, hf.nbf] at this
    exact this
  · rintro ⟨iss, aud, sig, prf, h1, h2, h3, h4, h5⟩
    have hf' : FormOf D u ⟨u.payload.ucv, ⟨iss⟩, ⟨aud⟩, ⟨sig⟩, u.payload.cap, prf, u.payload.exp, u.payload.fct, u.payload.nnc, u.payload.nbf⟩ :=
      ⟨rfl, h1, h2, h3, rfl, h4, rfl, rfl, rfl, rfl⟩
    have e := (C78_of D u _ hl).2 hf'
    rw [h] at e
    cases e
    exact (C73_document _ (formOf_sound held hf') p).1 h5

/-- C78: a token that UCAN-IPLD can represent travels as DAG-CBOR and comes back with the same text. All conditions are on the token. -/
theorem C78_travels (D : Deps) (limit : Nat) (u : Ucan) (hp : Portable D u) (held : HeldToken u) (hd : FitsDepth u limit) :
    ∃ x u', UcanIpld.ofUcan D u = .ok x ∧ UcanIpld.ofCbor limit x.toCbor = some x ∧ UcanIpld.toUcan D x = .ok u' ∧ u'.encode D = u.encode D := by
  have hl : u.signature.length < 2 ^ 64 := Nat.lt_of_le_of_lt (Nat.le_add_right _ 20) held.signature
  obtain ⟨x, h1, h2⟩ := C47_round_trip D u hp hl
  have hf := (C78_of D u x hl).1 h1
  exact ⟨x, _, h1, C73_round_trip limit x (formOf_sound held hf) (formOf_depth hd hf), h2, C47_encode D u _ x hp hl h1 h2⟩

/-- C78: different tokens have different bytes, but for the type in the header, the way references are written, and `did:key`s in disguise. -/
theorem C78_injective (D : Deps) (u u' : Ucan) (x x' : UcanIpld) (held : HeldToken u) (held' : HeldToken u') (h : UcanIpld.ofUcan D u = .ok x)
    (h' : UcanIpld.ofUcan D u' = .ok x') (hi : ¬ Confusable u.payload.iss ∧ ¬ Confusable u.payload.aud)
    (hi' : ¬ Confusable u'.payload.iss ∧ ¬ Confusable u'.payload.aud) (he : x.toCbor = x'.toCbor) :
    u.header.alg = u'.header.alg ∧ u.signature = u'.signature ∧
      ({ u.payload with prf := none } : Payload) = { u'.payload with prf := none } ∧ (u.payload.prf.getD []).length = (u'.payload.prf.getD []).length ∧
      ∀ (i : Nat) s s', (u.payload.prf.getD [])[i]? = some s → (u'.payload.prf.getD [])[i]? = some s' → ∃ c, DenotesCid D s c ∧ DenotesCid D s' c := by
  have hl : u.signature.length < 2 ^ 64 := Nat.lt_of_le_of_lt (Nat.le_add_right _ 20) held.signature
  have hl' : u'.signature.length < 2 ^ 64 := Nat.lt_of_le_of_lt (Nat.le_add_right _ 20) held'.signature
  have hf := (C78_of D u x hl).1 h
  have hf' := (C78_of D u' x' hl').1 h'
  have e := C73_injective x x' (formOf_sound held hf) (formOf_sound held' hf') he
  subst e
  obtain ⟨a, ha, hs⟩ := (signatureBytes_iff _ _ _ hl).1 hf.s
  obtain ⟨a', ha', hs'⟩ := (signatureBytes_iff _ _ _ hl').1 hf'.s
  obtain ⟨e1, e2⟩ := C44_injective a a' _ _ hl hl' (hs.symm.trans hs')
  subst e1
  have e3 : u.payload.iss = u'.payload.iss := C46_injective_partial _ _ x.iss ((C46_of _ _).2 hf.iss) ((C46_of _ _).2 hf'.iss) hi.1 hi'.1
  have e4 : u.payload.aud = u'.payload.aud := C46_injective_partial _ _ x.aud ((C46_of _ _).2 hf.aud) ((C46_of _ _).2 hf'.aud) hi.2 hi'.2
  refine ⟨?_, e2, ?_, ?_, ?_⟩
  · rw [← (C57_names _ _).1 ha, ← (C57_names _ _).1 ha']
  · show (⟨u.payload.ucv, u.payload.iss, u.payload.aud, u.payload.exp, u.payload.nbf, u.payload.nnc, u.payload.cap, u.payload.fct, none⟩ : Payload) =
      ⟨u'.payload.ucv, u'.payload.iss, u'.payload.aud, u'.payload.exp, u'.payload.nbf, u'.payload.nnc, u'.payload.cap, u'.payload.fct, none⟩
    rw [e3, e4, ← hf.v, ← hf'.v, ← hf.cap, ← hf'.cap, ← hf.exp, ← hf'.exp, ← hf.fct, ← hf'.fct, ← hf.nnc, ← hf'.nnc, ← hf.nbf, ← hf'.nbf]
  · rw [hf.prf.1, hf'.prf.1]
  · intro i s s' hs hs'
    have hlt : i < (x.prf.getD []).length := by
      rw [← hf.prf.1]; exact (List.getElem?_eq_some_iff.1 hs).1
    exact ⟨_, hf.prf.2.2 i s _ hs (List.getElem?_eq_getElem hlt), hf'.prf.2.2 i s' _ hs' (List.getElem?_eq_getElem hlt)⟩

/-! ### Concrete cases -/

namespace Ex

theorem root_held (D : Deps) : HeldToken (root D) where
  ucv := by show Fits (strBytes "0.10.0-canary").length; decide +kernel
  iss := by show Fits ((strBytes (did 2)).length + 2); decide +kernel
  aud := by show Fits ((strBytes (did 3)).length + 2); decide +kernel
  signature := by show 1 + 20 < 2 ^ 64; omega
  cap := by
    show SoundValue (capDoc (caps ("prf:" ++ asciiStr (Json.decBytes 0)) "ucan/DELEGATE"))
    simp only [caps, capDoc, List.map, SoundValue, SoundMembers, SoundValues]
    exact ⟨by decide +kernel, by simp [BMap.Sorted], by decide +kernel, ⟨by decide +kernel, by simp [BMap.Sorted], by decide +kernel,
      ⟨by decide +kernel, ⟨by decide +kernel, by simp [BMap.Sorted], trivial⟩, trivial⟩, trivial⟩, trivial⟩
  prf := by show 1 < 2 ^ 64; omega
  fct := fun f h => by (cases (show (none : Option Facts) = some f from h))
  nnc := fun f h => by (cases (show (none : Option String) = some f from h))

theorem root_depth (D : Deps) : FitsDepth (root D) 128 := by
  refine ⟨by decide, ?_, fun f h => by (cases (show (none : Option Facts) = some f from h))⟩
  show nesting (treeOf (capDoc (caps ("prf:" ++ asciiStr (Json.decBytes 0)) "ucan/DELEGATE"))) + 1 < 128
  decide +kernel

/-- A token with a proof and a redelegation has a form, travels, and its bytes are those of the document. -/
example (D : Deps) : ∃ x, FormOf D (root D) x ∧ UcanIpld.ofCbor 128 x.toCbor = some x := by
  obtain ⟨x, _, h1, h2, _⟩ := C78_travels D 128 (root D) (root_portable D) (root_held D) (root_depth D)
  exact ⟨x, (C78_of D _ x (by show 1 < 2 ^ 64; omega)).1 h1, h2⟩

/-- A value whose token exists, and two that panic: a principal of one byte, and a signature that announces five bytes. -/
example (D : Deps) : (∃ u, UcanIpld.toUcan D ⟨"?", ⟨[0xed, 1, 7]⟩, ⟨0x9d :: 0x1a :: strBytes "web:x"⟩, IpldSig.ofAlg .EdDSA [9], [], some [], none, none, none, none⟩ = .ok u ∧
      u.payload.aud = "did:web:x" ∧ u.payload.ucv = "0.10.0-canary" ∧ u.payload.prf = some []) ∧
    (∃ e, UcanIpld.toUcan D ⟨"?", ⟨[7]⟩, ⟨[0xed, 1, 7]⟩, IpldSig.ofAlg .EdDSA [9], [], none, none, none, none, none⟩ = .error (.panic e)) ∧
    ∃ e, UcanIpld.toUcan D ⟨"?", ⟨[0xed, 1, 7]⟩, ⟨[0xed, 1, 7]⟩, ⟨[0xed, 0xa1, 0x03, 0x05]⟩, [], none, none, none, none, none⟩ = .error (.panic e) := by
  refine ⟨?_, ⟨.slicePrinciple, rfl⟩, ⟨.sliceVarsig, rfl⟩⟩
  have e1 : IpldSig.decode (IpldSig.ofAlg .EdDSA [9]) = .ok (.EdDSA, [9]) := by decide +kernel
  have e2 : Principle.toStr ⟨0x9d :: 0x1a :: strBytes "web:x"⟩ = .ok "did:web:x" := by decide +kernel
  have e3 : Principle.toStr ⟨[0xed, 1, 7]⟩ = .ok ("did:key:z" ++ asciiStr (Base58.encode [0xed, 1, 7])) := rfl
  unfold UcanIpld.toUcan
  simp only [e1, e2, e3]
  exact ⟨_, rfl, rfl, rfl, rfl⟩

end Ex

end Verif
