import Verif.Props.Encoding
import Verif.Props.Ipld
import Verif.Spec.Cid

/-! # C69, C70: the text of CIDs -/

namespace Verif
open Spec

/-! ## Encoding -/

theorem Varint.encodeAux_leb : ∀ (f n : Nat), n < 128 ^ (f + 1) → Leb (encodeAux f n) n
  | 0, n, h => by
    have h : n < 128 := by simpa using h
    have e : (UInt8.ofNat n).toNat = n := by simp; omega
    simp only [encodeAux]
    have := Leb.last (b := UInt8.ofNat n) (by omega)
    rwa [e] at this
  | f + 1, n, h => by
    simp only [encodeAux]
    split
    · rename_i hlt
      have e : (UInt8.ofNat n).toNat = n := by simp; omega
      have := Leb.last (b := UInt8.ofNat n) (by omega)
      rwa [e] at this
    · have e : (UInt8.ofNat (n % 128 + 128)).toNat = n % 128 + 128 := by simp; omega
      have := Leb.more (b := UInt8.ofNat (n % 128 + 128)) (by omega) (encodeAux_leb f (n / 128) (by
        rw [Nat.pow_succ] at h; exact Nat.div_lt_of_lt_mul (by omega)))
      rw [e] at this
      rwa [show n % 128 + 128 - 128 + 128 * (n / 128) = n by omega] at this

theorem Varint.encode_leb128 (n : UInt64) : Leb128 (encode n) n.toNat := by
  refine ⟨encodeAux_leb 9 n.toNat (Nat.lt_of_lt_of_le n.toNat_lt (by decide)), ?_⟩
  obtain ⟨_, _, _, h, _⟩ := C44_varint n
  exact h

/-- C69: the text of a version 1 CID is `b` and the base32 of: 1, codec, hash code and digest length as varints, and the digest. -/
theorem C69_cid_text (c : Cid) (hv : c.v1 = true) (hl : c.digest.length ≤ 64) :
    ∃ t b, strBytes c.toStr = strBytes "b" ++ t ∧ BitText 5 base32lower b t ∧ CidBytes c.codec c.hashCode c.digest b := by
  refine ⟨Base32.encode c.toBytes, c.toBytes, ?_, base32_encode_text _, ?_⟩
  · rw [Cid.strBytes_toStr]
    unfold Cid.toStrBytes
    rw [if_pos hv]
    rfl
  · refine ⟨Varint.encode c.codec, Varint.encode c.hashCode, Varint.encode (UInt64.ofNat c.digest.length), ?_, Varint.encode_leb128 _,
      Varint.encode_leb128 _, ?_⟩
    · unfold Cid.toBytes
      rw [if_pos hv]
      rfl
    · have := Varint.encode_leb128 (UInt64.ofNat c.digest.length)
      rwa [show (UInt64.ofNat c.digest.length).toNat = c.digest.length by simp; omega] at this

/-- C69 for tokens: the CID of a token is that of a raw block holding its text, under the given hash. -/
theorem C69_token_cid (D : Deps) (u : Ucan) (hasher : UInt64) (hl : (D.digest hasher (strBytes (u.encode D))).length ≤ 64) :
    ∃ t b, strBytes (u.toCid D hasher).toStr = strBytes "b" ++ t ∧ BitText 5 base32lower b t ∧
      CidBytes 0x55 hasher (D.digest hasher (strBytes (u.encode D))) b := by
  rw [C06_cid_of_text]
  exact C69_cid_text ⟨true, Cid.rawCodec, hasher, D.digest hasher (strBytes (u.encode D))⟩ rfl hl

/-! ## Tokens -/

/-- C07: every segment of an accepted token is the encoding of the bytes it stands for; nothing in it is ignored. -/
theorem C07_token (D : Deps) (t : String) (u : Ucan) (h : Ucan.fromStr D t = .ok u) :
    ∃ hb pb tail, strBytes t = Base64.encode hb ++ 46 :: Base64.encode pb ++ 46 :: Base64.encode u.signature ++ tail ∧ Tail tail ∧
      Codec.headerOfBytes D hb = some u.header ∧ Codec.payloadOfBytes D pb = some u.payload := by
  obtain ⟨hb, pb, tail, ⟨h1, _, _, _, h2⟩, h3, h4, _⟩ := ((C03_acceptance D t u).1 h).parts
  exact ⟨hb, pb, tail, h1, h2, h3, h4⟩

theorem bitText_noDot {b t : Bytes} (h : BitText 6 base64url b t) : NoDot t := by
  rw [← (C69_base64_encode b t).2 h]
  intro hx
  have := C07_alphabet _ b (C07_decode_encode b) 46 hx
  revert this
  decide

/-- C69: tokens are exactly three texts of RFC 4648's unpadded base64url, of a header, a payload and a signature, with dots between them, and
possibly more after a further dot. -/
theorem C69_token (D : Deps) (t : String) (u : Ucan) : Ucan.fromStr D t = .ok u ↔
    ∃ hb pb h p s tail, strBytes t = h ++ 46 :: p ++ 46 :: s ++ tail ∧ Tail tail ∧ BitText 6 base64url hb h ∧ BitText 6 base64url pb p ∧
      BitText 6 base64url u.signature s ∧ Codec.headerOfBytes D hb = some u.header ∧ Codec.payloadOfBytes D pb = some u.payload ∧
      u.signedData = h ++ 46 :: p := by
  rw [C03_acceptance]
  constructor
  · rintro ⟨hb, pb, tail, ⟨h1, _, _, _, h2⟩, h3, h4, h5⟩
    exact ⟨hb, pb, _, _, _, tail, h1, h2, base64_encode_text _, base64_encode_text _, base64_encode_text _, h3, h4, h5⟩
  · rintro ⟨hb, pb, h, p, s, tail, h1, h2, th, tp, ts, h3, h4, h5⟩
    have nh := bitText_noDot th
    have np := bitText_noDot tp
    have ns := bitText_noDot ts
    cases (C69_base64_encode _ _).2 th
    cases (C69_base64_encode _ _).2 tp
    cases (C69_base64_encode _ _).2 ts
    exact ⟨hb, pb, tail, ⟨h1, nh, np, ns, h2⟩, h3, h4, h5⟩

/-! ## Decoding -/

theorem readMh_iff (b : Bytes) (code : UInt64) (digest : Bytes) : Cid.readMh b = some (code, digest) ↔
    ∃ ph pl n tail, b = ph ++ (pl ++ (digest ++ tail)) ∧ VarintOf ph code ∧ VarintOf pl n ∧ n.toNat = digest.length ∧ digest.length ≤ 64 := by
  unfold Cid.readMh
  constructor
  · intro h
    split at h
    · cases h
    rename_i code' r h1
    split at h
    · cases h
    rename_i size r' h2
    split at h
    · cases h
    rename_i hs
    cases h
    obtain ⟨ph, rfl, hph⟩ := (Varint.decode_iff _ _ _).1 h1
    obtain ⟨pl, rfl, hpl⟩ := (Varint.decode_iff _ _ _).1 h2
    refine ⟨ph, pl, size, r'.drop size.toNat, by rw [List.take_append_drop], hph, hpl, ?_, ?_⟩
    · rw [List.length_take]; omega
    · rw [List.length_take]; omega
  · rintro ⟨ph, pl, n, tail, rfl, hph, hpl, hn, hl⟩
    rw [(Varint.decode_iff _ _ _).2 ⟨ph, rfl, hph⟩]
    simp only
    rw [(Varint.decode_iff _ _ _).2 ⟨pl, rfl, hpl⟩]
    simp only
    rw [if_neg (by rw [List.length_append]; omega), hn]
    simp

theorem ofBytes_iff (b : Bytes) (c : Cid) : Cid.ofBytes b = some c ↔ StartsWithCid b c := by
  unfold Cid.ofBytes
  constructor
  · intro h
    split at h
    · cases h
    rename_i version r h1
    split at h
    · cases h
    rename_i codec r' h2
    obtain ⟨pv, rfl, hpv⟩ := (Varint.decode_iff _ _ _).1 h1
    obtain ⟨pc, rfl, hpc⟩ := (Varint.decode_iff _ _ _).1 h2
    split at h
    · rename_i hz
      obtain ⟨rfl, rfl⟩ := hz
      split at h
      · cases h
      cases h
      have := StartsWithCid.v0 hpv hpc (digest := r'.take 32) (tail := r'.drop 32) (by rw [List.length_take]; omega)
      rwa [List.take_append_drop] at this
    · split at h
      · rename_i hv
        subst hv
        split at h
        · cases h
        rename_i code digest hm
        cases h
        obtain ⟨ph, pl, n, tail, rfl, hph, hpl, hn, hl⟩ := (readMh_iff _ _ _).1 hm
        exact .v1 hpv hpc hph hpl hn hl
      · cases h
  · intro h
    cases h with
    | @v0 pv pl digest tail hpv hpl hd =>
      rw [(Varint.decode_iff _ _ _).2 ⟨pv, rfl, hpv⟩]
      simp only
      rw [(Varint.decode_iff _ _ _).2 ⟨pl, rfl, hpl⟩]
      simp only
      rw [if_pos ⟨trivial, trivial⟩, if_neg (by rw [List.length_append]; omega), ← hd, List.take_left]
      rfl
    | @v1 pv pc ph pl digest tail codec hash n hpv hpc hph hpl hn hl =>
      rw [(Varint.decode_iff _ _ _).2 ⟨pv, rfl, hpv⟩]
      simp only
      rw [(Varint.decode_iff _ _ _).2 ⟨pc, rfl, hpc⟩]
      simp only
      rw [if_neg (by intro h; exact absurd h.1 (by decide)), if_pos trivial, (readMh_iff _ _ _).2 ⟨ph, pl, n, tail, rfl, hph, hpl, hn, hl⟩]

theorem ipfs_bytes : strBytes "/ipfs/" = [47, 105, 112, 102, 115, 47] := by decide +kernel

theorem cutIpfs_some : ∀ (s h : Bytes), Cid.cutIpfs s = some h ↔
    ∃ pre, s = pre ++ (strBytes "/ipfs/" ++ h) ∧ ∀ pre' h', s = pre' ++ (strBytes "/ipfs/" ++ h') → pre.length ≤ pre'.length
  | [], h => by
    rw [ipfs_bytes]
    constructor
    · intro h; cases h
    · rintro ⟨pre, e, _⟩
      cases pre <;> cases e
  | c :: cs, h => by
    rw [ipfs_bytes]
    simp only [Cid.cutIpfs]
    split
    · rename_i hp
      obtain ⟨t, ht⟩ := List.isPrefixOf_iff_prefix.1 hp
      rw [← ht]
      constructor
      · intro e
        cases e
        exact ⟨[], by simp, by simp⟩
      · rintro ⟨pre, e, hm⟩
        have := hm [] t rfl
        have : pre = [] := List.length_eq_zero_iff.1 (by simpa using this)
        subst this
        have := List.append_cancel_left e
        rw [← this]; rfl
    · rename_i hp
      rw [cutIpfs_some cs h, ipfs_bytes]
      constructor
      · rintro ⟨pre, e, hm⟩
        refine ⟨c :: pre, by rw [e]; rfl, ?_⟩
        intro pre' h' e'
        cases pre' with
        | nil =>
          exfalso; apply hp
          exact List.isPrefixOf_iff_prefix.2 ⟨h', e'.symm⟩
        | cons x pre' =>
          injection e' with _ e'
          exact Nat.succ_le_succ (hm pre' h' e')
      · rintro ⟨pre, e, hm⟩
        cases pre with
        | nil =>
          exfalso; apply hp
          exact List.isPrefixOf_iff_prefix.2 ⟨h, e.symm⟩
        | cons x pre =>
          injection e with e1 e
          subst e1
          refine ⟨pre, e, ?_⟩
          intro pre' h' e'
          exact Nat.le_of_succ_le_succ (hm (c :: pre') h' (by rw [e']; rfl))

theorem cutIpfs_none_iff : ∀ (s : Bytes), Cid.cutIpfs s = none ↔ ¬ ∃ pre h', s = pre ++ (strBytes "/ipfs/" ++ h')
  | [] => by
    rw [ipfs_bytes]
    refine ⟨fun _ => ?_, fun _ => rfl⟩
    rintro ⟨pre, h', e⟩
    cases pre <;> cases e
  | c :: cs => by
    rw [ipfs_bytes]
    simp only [Cid.cutIpfs]
    split
    · rename_i hp
      obtain ⟨t, ht⟩ := List.isPrefixOf_iff_prefix.1 hp
      exact ⟨(fun h => by cases h), fun h => absurd ⟨[], t, ht.symm⟩ h⟩
    · rename_i hp
      rw [cutIpfs_none_iff cs, ipfs_bytes]
      refine not_congr ⟨?_, ?_⟩
      · rintro ⟨pre, h', e⟩
        exact ⟨c :: pre, h', by rw [e]; rfl⟩
      · rintro ⟨pre, h', e⟩
        cases pre with
        | nil => exact absurd (List.isPrefixOf_iff_prefix.2 ⟨h', e.symm⟩) hp
        | cons x pre =>
          injection e with _ e
          exact ⟨pre, h', e⟩

theorem cut_iff (s h : Bytes) : (Cid.cutIpfs s).getD s = h ↔ AfterIpfs s h := by
  unfold AfterIpfs
  cases hc : Cid.cutIpfs s with
  | none =>
    have hn := (cutIpfs_none_iff s).1 hc
    refine ⟨fun e => Or.inr ⟨e.symm, hn⟩, ?_⟩
    rintro (⟨pre, e, _⟩ | ⟨e, _⟩)
    · exact absurd ⟨pre, h, e⟩ hn
    · exact e.symm
  | some h0 =>
    obtain ⟨pre0, e0, m0⟩ := (cutIpfs_some s h0).1 hc
    constructor
    · intro e
      cases e
      exact Or.inl ⟨pre0, e0, m0⟩
    · rintro (⟨pre, e, m⟩ | ⟨_, hn⟩)
      · have := (cutIpfs_some s h).2 ⟨pre, e, m⟩
        rw [hc] at this
        exact Option.some.inj this
      · exact absurd ⟨pre0, h0, e0⟩ hn

theorem looksV0_iff (h : Bytes) : (h.length = 46 ∧ List.isPrefixOf [81, 109] h = true) ↔ LooksV0 h := by
  have e : strBytes "Qm" = [81, 109] := by decide +kernel
  unfold LooksV0
  rw [e, List.isPrefixOf_iff_prefix]
  exact and_congr_right fun _ => ⟨fun ⟨t, e⟩ => ⟨t, e.symm⟩, fun ⟨t, e⟩ => ⟨t, e.symm⟩⟩

theorem textBytes_iff (D : Deps) (h b : Bytes) :
    (if h.length = 46 ∧ List.isPrefixOf [81, 109] h = true then Base58.decode h else Cid.multibase D h) = some b ↔ TextBytes D h b := by
  have eb : strBytes "b" = [98] := by decide +kernel
  have ez : strBytes "z" = [122] := by decide +kernel
  have nb : ∀ t, ¬ LooksV0 (98 :: t) := by
    rintro t ⟨_, r, e⟩
    rw [show strBytes "Qm" = [81, 109] by decide +kernel] at e
    exact absurd (List.cons.inj e).1 (by decide)
  have nz : ∀ t, ¬ LooksV0 (122 :: t) := by
    rintro t ⟨_, r, e⟩
    rw [show strBytes "Qm" = [81, 109] by decide +kernel] at e
    exact absurd (List.cons.inj e).1 (by decide)
  split
  · rename_i hv
    have hv := (looksV0_iff h).1 hv
    rw [C69_base58_decode]
    constructor
    · exact .v0 hv
    · intro ht
      cases ht with
      | v0 _ h => exact h
      | base32 _ => rw [eb] at hv; exact absurd hv (nb _)
      | base58 _ => rw [ez] at hv; exact absurd hv (nz _)
      | other h _ _ _ => exact absurd hv h
  · rename_i hv
    have hv := fun x => hv ((looksV0_iff h).2 x)
    constructor
    · intro hm
      cases h with
      | nil => cases hm
      | cons c cs =>
        simp only [Cid.multibase] at hm
        split at hm
        · rename_i hc; subst hc
          have := TextBytes.base32 (D := D) ((C69_base32_decode b cs).1 hm)
          rwa [eb] at this
        · split at hm
          · rename_i hc; subst hc
            have := TextBytes.base58 (D := D) ((C69_base58_decode b cs).1 hm)
            rwa [ez] at this
          · rename_i h1 h2
            exact .other hv (by rw [eb]; intro e; exact h1 (List.cons.inj e).1) (by rw [ez]; intro e; exact h2 (List.cons.inj e).1) hm
    · intro ht
      cases ht with
      | v0 h _ => exact absurd h hv
      | @base32 t b h => rw [eb]; exact (C69_base32_decode b t).2 h
      | @base58 t b h => rw [ez]; exact (C69_base58_decode b t).2 h
      | @other p t b _ h1 h2 h =>
        simp only [Cid.multibase]
        rw [if_neg (by intro e; subst e; exact h1 eb.symm), if_neg (by intro e; subst e; exact h2 ez.symm)]
        exact h

/-- C70: exactly which texts are understood as a reference, and to which CID. -/
theorem C70_reference (D : Deps) (s : String) (c : Cid) : Cid.parse D s = some c ↔ DenotesCid D s c := by
  unfold Cid.parse Cid.parseBytes DenotesCid
  simp only
  constructor
  · intro h
    split at h
    · cases h
    rename_i hl
    split at h
    · cases h
    rename_i b hb
    exact ⟨_, b, (cut_iff _ _).1 rfl, by omega, (textBytes_iff D _ _).1 hb, (ofBytes_iff _ _).1 h⟩
  · rintro ⟨h, b, h1, h2, h3, h4⟩
    have := (cut_iff _ _).2 h1
    rw [this, if_neg (by omega), (textBytes_iff D _ _).2 h3]
    exact (ofBytes_iff _ _).2 h4

/-- The bytes of a CID followed by anything, as base32 text, denote the CID. -/
theorem denotes_base32 (D : Deps) (c : Cid) (hv : c.v1 = true) (hl : c.digest.length ≤ 64) (junk : Bytes) :
    ∃ b, TextBytes D (98 :: Base32.encode (c.toBytes ++ junk)) b ∧ StartsWithCid b c ∧ 2 ≤ (98 :: Base32.encode (c.toBytes ++ junk)).length ∧
      AfterIpfs (98 :: Base32.encode (c.toBytes ++ junk)) (98 :: Base32.encode (c.toBytes ++ junk)) := by
  refine ⟨c.toBytes ++ junk, ?_, (ofBytes_iff _ _).1 (Cid.ofBytes_toBytes c hv hl junk), ?_, ?_⟩
  · have := TextBytes.base32 (D := D) (base32_encode_text (c.toBytes ++ junk))
    rwa [show strBytes "b" = [98] by decide +kernel] at this
  · have hne : c.toBytes ++ junk ≠ [] := by
      unfold Cid.toBytes
      rw [if_pos hv]
      intro e
      have := (List.append_eq_nil_iff.1 (List.append_eq_nil_iff.1 e).1).1
      exact absurd this (Varint.encodeAux_ne_nil _ _)
    have := Cid.encode_ne_nil hne
    cases hb : Base32.encode (c.toBytes ++ junk) with
    | nil => exact absurd hb this
    | cons x t => simp
  · apply (cut_iff _ _).1
    rw [Cid.cutIpfs_none]
    · rfl
    · intro hm
      rcases List.mem_cons.1 hm with e | hm
      · exact absurd e (by decide)
      · exact (Base32.encode_alphabet _ _ hm).2 rfl

theorem cons_base32_ascii (b : Bytes) : IsAscii (98 :: Base32.encode b) := by
  intro x hx
  rcases List.mem_cons.1 hx with rfl | hx
  · decide
  · exact (Base32.encode_alphabet _ x hx).1

/-- C70: the text of a CID is not unique. A path before it and bytes after it are ignored, so the same proof can be named in
infinitely many ways. -/
theorem C70_many_texts (D : Deps) (c : Cid) (hv : c.v1 = true) (hl : c.digest.length ≤ 64) :
    Cid.parse D c.toStr = some c ∧ (∀ junk, Cid.parse D (asciiStr (98 :: Base32.encode (c.toBytes ++ junk))) = some c) ∧
    Cid.parse D ("/ipfs/" ++ c.toStr) = some c := by
  refine ⟨Cid.parse_toStr D c hv hl, ?_, ?_⟩
  · intro junk
    obtain ⟨b, h1, h2, h3, h4⟩ := denotes_base32 D c hv hl junk
    refine (C70_reference D _ c).2 ⟨_, b, ?_, h3, h1, h2⟩
    rwa [strBytes_asciiStr (cons_base32_ascii _)]
  · obtain ⟨b, h1, h2, h3, h4⟩ := denotes_base32 D c hv hl []
    refine (C70_reference D _ c).2 ⟨_, b, ?_, h3, h1, h2⟩
    refine Or.inl ⟨[], ?_, fun _ _ _ => Nat.zero_le _⟩
    rw [strBytes_append, Cid.strBytes_toStr]
    unfold Cid.toStrBytes
    rw [if_pos hv, List.append_nil]
    rfl

/-- C70: the texts with appended bytes are indeed different. -/
theorem C70_texts_differ (c : Cid) (junk junk' : Bytes) (h : junk ≠ junk') :
    asciiStr (98 :: Base32.encode (c.toBytes ++ junk)) ≠ asciiStr (98 :: Base32.encode (c.toBytes ++ junk')) := by
  intro e
  have := congrArg strBytes e
  rw [strBytes_asciiStr (cons_base32_ascii _), strBytes_asciiStr (cons_base32_ascii _)] at this
  have := congrArg Base32.decode (List.cons.inj this).2
  rw [Base32.decode_encode, Base32.decode_encode] at this
  exact h (List.append_cancel_left (Option.some.inj this))

/-- C70: the text this library writes is among them: what it writes, it reads back as the same CID (and no other). -/
theorem C70_written (D : Deps) (c c' : Cid) (hv : c.v1 = true) (hl : c.digest.length ≤ 64) (h : DenotesCid D c.toStr c') : c' = c := by
  have h1 := (C70_reference D c.toStr c').2 h
  rw [Cid.parse_toStr D c hv hl] at h1
  exact (Option.some.inj h1).symm

/-- Beside C70: a blake3 CID of a raw block with digest `[7]`. -/
example (D : Deps) : DenotesCid D "bafkr4aih" ⟨true, 0x55, 0x1e, [7]⟩ := by
  have h := (C70_many_texts D ⟨true, 0x55, 0x1e, [7]⟩ rfl (by decide)).1
  rw [show Cid.toStr ⟨true, 0x55, 0x1e, [7]⟩ = "bafkr4aih" by decide +kernel] at h
  exact (C70_reference D _ _).1 h

end Verif
