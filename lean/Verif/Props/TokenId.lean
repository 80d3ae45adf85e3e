import Verif.Props.Crypto
import Verif.Props.Builder

/-! # Property C84: the text of a token and its identity; and the exact form of C04 -/

namespace Verif
open Spec

/-! ## C04 -/

/-- C04: of two texts of which one is a token, the other is a token of the same UCAN exactly if the first three segments are the same. -/
theorem C04_same_iff (D : Deps) (t t' : String) (u : Ucan) (h : Ucan.fromStr D t = .ok u) :
    Ucan.fromStr D t' = .ok u ↔ ∃ a b c tail tail', Segments (strBytes t) a b c tail ∧ Segments (strBytes t') a b c tail' := by
  constructor
  · intro h'
    rw [C03_acceptance] at h h'
    obtain ⟨hb, pb, tail, hs, _, _, h3⟩ := h
    obtain ⟨hb', pb', tail', hs', _, _, h3'⟩ := h'
    rw [h3] at h3'
    obtain ⟨e1, e2⟩ := append_sep_inj (Base64.encode_no_dot _) (Base64.encode_no_dot _) h3'
    rw [← e1, ← e2] at hs'
    exact ⟨_, _, _, _, _, hs, hs'⟩
  · rintro ⟨a, b, c, tail, tail', hs, hs'⟩
    rw [C03_acceptance] at h ⊢
    obtain ⟨hb, pb, tl, ⟨e, n1, n2, n3, htl⟩, h1, h2, h3⟩ := h
    obtain ⟨e', m1, m2, m3, htl'⟩ := hs
    have ee := e'.symm.trans e
    rw [List.append_assoc, List.append_assoc, List.append_assoc, List.append_assoc] at ee
    obtain ⟨e1, ee⟩ := append_sep_inj m1 n1 ee
    obtain ⟨e2, ee⟩ := append_sep_inj m2 n2 ee
    have ee : c ++ tail = Base64.encode u.signature ++ tl := ee
    have e3 : c = Base64.encode u.signature := by
      rcases htl' with rfl | ⟨r, rfl⟩ <;> rcases htl with rfl | ⟨q, rfl⟩
      · simpa using ee
      · rw [List.append_nil] at ee
        exact absurd (show (46 : UInt8) ∈ c by rw [ee]; simp) m3
      · rw [List.append_nil] at ee
        exact absurd (show (46 : UInt8) ∈ Base64.encode u.signature by rw [← ee]; simp) n3
      · exact (append_sep_inj m3 n3 ee).1
    subst e1 e2 e3
    exact ⟨hb, pb, tail', hs', h1, h2, h3⟩

/-- Beside C04: a signed token followed by anything. -/
example (D : Deps) : ∃ t u, Ucan.fromStr D t = .ok u ∧ Ucan.fromStr D (t ++ "." ++ "x.y") = .ok u := by
  obtain ⟨u, hu⟩ := demo_sign D []
  have h1 := C01_round_trip D _ [] u (demoSignable_ok D) hu
  exact ⟨_, u, h1, C04_extra_segments D _ u _ h1⟩

/-! ## C84 -/

/-- The characters of RFC 4648's URL-safe alphabet. -/
def Spec.UrlSafe (b : UInt8) : Prop :=
  (65 ≤ b.toNat ∧ b.toNat ≤ 90) ∨ (97 ≤ b.toNat ∧ b.toNat ≤ 122) ∨ (48 ≤ b.toNat ∧ b.toNat ≤ 57) ∨ b.toNat = 45 ∨ b.toNat = 95

theorem encode_urlSafe (b : Bytes) : ∀ x ∈ Base64.encode b, UrlSafe x := by
  intro x hx
  obtain ⟨n, hn, rfl⟩ := Base64.encode_alphabet b x hx
  have : ∀ m : Fin 64, UrlSafe (Base64.sextetChar m.val) := by unfold UrlSafe; decide +kernel
  exact this ⟨n, hn⟩

/-- C84: the text of every UCAN consists of URL-safe characters and exactly two dots, so it can be put into URLs and HTTP headers as it is. -/
theorem C84_text (D : Deps) (u : Ucan) : (∀ b ∈ strBytes (u.encode D), UrlSafe b ∨ b = 46) ∧ (strBytes (u.encode D)).count 46 = 2 := by
  rw [Ucan.strBytes_encode, Ucan.encodeBytes, Ucan.signingInput]
  refine ⟨?_, ?_⟩
  · intro b hb
    simp only [List.mem_append, List.mem_cons] at hb
    rcases hb with (hb | rfl | hb) | rfl | hb
    · exact Or.inl (encode_urlSafe _ _ hb)
    · exact Or.inr rfl
    · exact Or.inl (encode_urlSafe _ _ hb)
    · exact Or.inr rfl
    · exact Or.inl (encode_urlSafe _ _ hb)
  · have h := fun b => List.count_eq_zero.2 (Base64.encode_no_dot b)
    simp [List.count_append, h]

/-- C84: UCANs have the same text exactly if they have the same header, payload and signature. -/
theorem C84_same_text (D : Deps) (u u' : Ucan) (he : Codec.Encodable D u.payload) (he' : Codec.Encodable D u'.payload) :
    u.encode D = u'.encode D ↔ u.header = u'.header ∧ u.payload = u'.payload ∧ u.signature = u'.signature := by
  constructor
  · intro h
    have h1 := Ucan.fromStr_encode D u he
    have h2 := Ucan.fromStr_encode D u' he'
    rw [h, h2] at h1
    injection h1 with h1
    injection h1 with a b _ d
    exact ⟨a.symm, b.symm, d.symm⟩
  · rintro ⟨h1, h2, h3⟩
    unfold Ucan.encode Ucan.encodeBytes
    rw [h1, h2, h3]

/-- C84: so, as long as the hash does not collide on their texts, two UCANs have the same CID exactly if they have the same header, payload and signature. -/
theorem C84_same_cid (D : Deps) (u u' : Ucan) (he : Codec.Encodable D u.payload) (he' : Codec.Encodable D u'.payload) (hasher : UInt64)
    (hn : D.digest hasher (strBytes (u.encode D)) = D.digest hasher (strBytes (u'.encode D)) → u.encode D = u'.encode D) :
    u.toCid D hasher = u'.toCid D hasher ↔ u.header = u'.header ∧ u.payload = u'.payload ∧ u.signature = u'.signature := by
  rw [← C84_same_text D u u' he he']
  constructor
  · intro h
    refine hn ?_
    rw [Ucan.strBytes_encode, Ucan.strBytes_encode]
    exact congrArg Cid.digest h
  · intro h
    rw [Ucan.toCid, Ucan.toCid, ← Ucan.strBytes_encode, ← Ucan.strBytes_encode, h]

/-- C84: CIDs made with different hash functions are different, and so are their texts in a proof list. -/
theorem C84_hashers (D : Deps) (hD : ShortDigests D) (u u' : Ucan) (h h' : UInt64) (hh : h ≠ h') :
    reference D u h ≠ reference D u' h' := by
  intro e
  have := congrArg (Cid.parse D) e
  rw [reference_eq, reference_eq, C56_round_trip D _ rfl (hD _ _), C56_round_trip D _ rfl (hD _ _)] at this
  exact hh (congrArg Cid.hashCode (Option.some.inj this))

/-- C84: with a nonce, signing the same thing with different random bytes gives different signed bytes, texts and, without collision, CIDs. -/
theorem C84_nonce (D : Deps) (s : Signable) (hs : SignableOk D s) (hn : s.addNonce = true) (rnd rnd' : Bytes) (hr : rnd ≠ rnd') (u u' : Ucan)
    (h : s.sign D rnd = .ok u) (h' : s.sign D rnd' = .ok u') : u.signedData ≠ u'.signedData ∧ u.encode D ≠ u'.encode D := by
  have hne : u.payload ≠ u'.payload := by
    intro e
    have e := congrArg Payload.nnc e
    rw [(ucanPayload_ok (sign_ok h).1).2.2.2.2.2.2.1, (ucanPayload_ok (sign_ok h').1).2.2.2.2.2.2.1] at e
    simp only [Signable.nonce, hn, if_true, Option.some.injEq] at e
    have := congrArg strBytes e
    rw [Base64.strBytes_encodeStr, Base64.strBytes_encodeStr] at this
    exact hr (base64_injective this)
  refine ⟨fun e => hne (C59_unique D u u' (C59_signed D s rnd u hs h) (C59_signed D s rnd' u' hs h') e).2, fun e => ?_⟩
  exact hne ((C84_same_text D u u' (encodable_of_signable hs (sign_ok h).1) (encodable_of_signable hs (sign_ok h').1)).1 e).2.1

/-- C84: without a nonce the random bytes have no influence: the same thing signed twice by a deterministic key is the same token. -/
theorem C84_deterministic (D : Deps) (s : Signable) (hn : s.addNonce = false) (rnd rnd' : Bytes) : s.sign D rnd = s.sign D rnd' := by
  unfold Signable.sign Signable.ucanPayload Signable.nonce
  rw [hn]
  rfl

/-- C84: a token determines what was signed: if two requests lead to the same text then issuer, audience, bounds, facts, proofs and nonce agree, and the
capabilities up to order. -/
theorem C84_request (D : Deps) (s s' : Signable) (hs : SignableOk D s) (hs' : SignableOk D s') (rnd rnd' : Bytes) (u u' : Ucan)
    (h : s.sign D rnd = .ok u) (h' : s'.sign D rnd' = .ok u') (ht : u.encode D = u'.encode D) :
    s.issuer.did = s'.issuer.did ∧ s.issuer.alg = s'.issuer.alg ∧ s.audience = s'.audience ∧ s.expiration = s'.expiration ∧
    s.notBefore = s'.notBefore ∧ s.facts = s'.facts ∧ s.proofs = s'.proofs ∧ s.addNonce = s'.addNonce ∧ (s.addNonce = true → rnd = rnd') ∧
    s.capabilities.Perm s'.capabilities := by
  obtain ⟨e1, e2, _⟩ := (C84_same_text D u u' (encodable_of_signable hs (sign_ok h).1) (encodable_of_signable hs' (sign_ok h').1)).1 ht
  have hl := (sign_ok h).2.1
  have hl' := (sign_ok h').2.1
  obtain ⟨a1, a2, a3, a4, a5, a6, a7, a8, a9⟩ := ucanPayload_ok (sign_ok h).1
  obtain ⟨b1, b2, b3, b4, b5, b6, b7, b8, b9⟩ := ucanPayload_ok (sign_ok h').1
  rw [← e2] at b1 b2 b3 b4 b5 b6 b7 b8 b9
  rw [← e1, hl] at hl'
  have hopt : ∀ {α : Type} {l l' : List α}, (if l.isEmpty then none else some l) = (if l'.isEmpty then none else some l') → l = l' := by
    intro α l l' e
    cases l <;> cases l' <;> simp_all
  have hperm : s.capabilities.Perm s'.capabilities := by
    have p1 := (C54_payload D s rnd u h).2.2.2.2.2.1
    have p2 := (C54_payload D s' rnd' u' h').2.2.2.2.2.1
    rw [← e2] at p2
    exact p1.symm.trans p2
  have hnn : s.nonce rnd = s'.nonce rnd' := a7.symm.trans b7
  refine ⟨a1.trans b1.symm, congrArg Header.alg hl', a4.symm.trans b4, a5.symm.trans b5, a6.symm.trans b6, hopt (a8.symm.trans b8),
    hopt (a9.symm.trans b9), ?_, ?_, hperm⟩
  · cases x : s.addNonce <;> cases y : s'.addNonce <;> simp [Signable.nonce, x, y] at hnn ⊢
  · intro x
    cases y : s'.addNonce <;> simp only [Signable.nonce, x, y, if_true, if_false, Option.some.injEq, reduceCtorEq, Bool.false_eq_true] at hnn
    have := congrArg strBytes hnn
    rw [Base64.strBytes_encodeStr, Base64.strBytes_encodeStr] at this
    exact base64_injective this

/-- Beside C84: the demo request signed with two nonces. -/
example (D : Deps) : ∃ u u', demoSignable.sign D [1] = .ok u ∧ demoSignable.sign D [2] = .ok u' ∧ u.encode D ≠ u'.encode D ∧ u.signature = u'.signature := by
  obtain ⟨u, hu⟩ := demo_sign D [1]
  obtain ⟨u', hu'⟩ := demo_sign D [2]
  refine ⟨u, u', hu, hu', (C84_nonce D demoSignable (demoSignable_ok D) rfl [1] [2] (by decide) u u' hu hu').2, ?_⟩
  have h1 := (sign_ok hu).2.2.2
  have h2 := (sign_ok hu').2.2.2
  exact (Except.ok.inj (α := Bytes) (ε := Fail) (show Except.ok [1, 2, 3] = _ from h1)).symm.trans (Except.ok.inj (show Except.ok [1, 2, 3] = _ from h2))

end Verif
