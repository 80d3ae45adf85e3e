import Verif.Model.Builder
import Verif.Model.UcanLemmas
import Verif.Props.Capability

/-! # Properties C01-C09 and C18: tokens and their encoding -/

namespace Verif
open Spec

/-! ## Encodability of what the builder signs -/

namespace Codec

theorem depthMembers_le {n : Nat} (m : List (String × Json)) : Json.depthMembers m ≤ n ↔ ∀ e ∈ m, Json.depth e.2 ≤ n := by
  induction m with
  | nil => simp [Json.depthMembers]
  | cons e m ih =>
    obtain ⟨k, v⟩ := e
    simp only [Json.depthMembers, List.mem_cons, forall_eq_or_imp, ← ih]
    omega

theorem depthList_le {n : Nat} (m : List Json) : Json.depthList m ≤ n ↔ ∀ e ∈ m, Json.depth e ≤ n := by
  induction m with
  | nil => simp [Json.depthList]
  | cons e m ih =>
    simp only [Json.depthList, List.mem_cons, forall_eq_or_imp, ← ih]
    omega

theorem capsJson_depth {n : Nat} (c : Capabilities) (h : ∀ r ∈ c, ∀ a ∈ r.2, ∀ v ∈ a.2, Json.depth v ≤ n) :
    Json.depth (capsJson c) ≤ n + 3 := by
  unfold capsJson
  have : Json.depthMembers (c.map fun r => (r.1, Json.obj (r.2.map fun a => (a.1, Json.arr a.2)))) ≤ n + 2 := by
    rw [depthMembers_le]
    intro e he
    obtain ⟨r, hr, rfl⟩ := List.mem_map.1 he
    have : Json.depthMembers (r.2.map fun a => (a.1, Json.arr a.2)) ≤ n + 1 := by
      rw [depthMembers_le]
      intro e he
      obtain ⟨a, ha, rfl⟩ := List.mem_map.1 he
      have := (depthList_le (n := n) a.2).2 (h r hr a ha)
      simp only [Json.depth]; omega
    simp only [Json.depth]; omega
  simp only [Json.depth]; omega

theorem depth_payload {n : Nat} (p : Payload) (hc : ∀ r ∈ p.cap, ∀ a ∈ r.2, ∀ v ∈ a.2, Json.depth v + 3 ≤ n)
    (hc' : 3 ≤ n) (hf : ∀ f, p.fct = some f → Json.depth (.obj f) ≤ n) : (payloadJson p).depth ≤ n + 1 := by
  have key : Json.depthMembers (BMap.ofList (payloadFields p)) ≤ n := by
    rw [depthMembers_le]
    intro e he
    have he := mem_ofList_imp he
    have hopt : ∀ {α : Type} (k : String) (f : α → Json) (o : Option α), e ∈ optField k f o → ∃ a, o = some a ∧ e = (k, f a) := by
      intro α k f o ho
      cases o with
      | none => simp [optField] at ho
      | some a => simp [optField] at ho; exact ⟨a, rfl, ho⟩
    unfold payloadFields at he
    simp only [List.mem_append, List.mem_cons, List.not_mem_nil, or_false] at he
    rcases he with ((((he | he) | he) | he) | he) | he
    · rcases he with rfl | rfl | rfl | rfl
      · simp [Json.depth]
      · simp [Json.depth]
      · simp [Json.depth]
      · cases p.exp <;> simp [optU64Json, u64Json, Json.depth]
    · obtain ⟨a, _, rfl⟩ := hopt _ _ _ he
      simp [u64Json, Json.depth]
    · obtain ⟨a, _, rfl⟩ := hopt _ _ _ he
      simp [Json.depth]
    · rw [he]
      have := capsJson_depth (n := n - 3) p.cap (fun r hr a ha v hv => by have := hc r hr a ha v hv; omega)
      simp only
      omega
    · obtain ⟨a, ha, rfl⟩ := hopt _ _ _ he
      exact hf a ha
    · obtain ⟨a, ha, rfl⟩ := hopt _ _ _ he
      have : Json.depthList (a.map Json.str) ≤ 0 := by
        rw [depthList_le]
        intro x hx
        obtain ⟨y, _, rfl⟩ := List.mem_map.1 hx
        simp [Json.depth]
      simp only [Json.depth]
      omega
  unfold payloadJson
  simp only [Json.depth]
  omega

end Codec

/-- A signable whose facts and caveats survive DAG-JSON and are not nested beyond the parser's limit. -/
structure Spec.SignableOk (D : Deps) (s : Signable) : Prop where
  caveats : ∀ c ∈ s.capabilities, Codec.Good D c.caveat ∧ c.caveat.depth + 4 < Json.depthLimit
  facts : Codec.Good D (.obj s.facts) ∧ Json.depth (.obj s.facts) + 1 < Json.depthLimit

theorem mem_iter_caveat {m : Capabilities} {r : String × BMap String (List Json)} {a : String × List Json} {c : Json}
    (hr : r ∈ m) (ha : a ∈ r.2) (hc : c ∈ a.2) : (⟨r.1, a.1, c⟩ : Capability) ∈ Capabilities.iter m :=
  (C17_iter_mem m _ _ _).2 ⟨r.2, a.2, hr, ha, hc⟩

theorem ucanPayload_ok {s : Signable} {rnd : Bytes} {p : Payload} (h : s.ucanPayload rnd = .ok p) :
    s.issuer.did = .ok p.iss ∧ Capabilities.ofVec s.capabilities = .ok p.cap ∧ p.ucv = ucanVersion ∧ p.aud = s.audience ∧
    p.exp = s.expiration ∧ p.nbf = s.notBefore ∧ p.nnc = s.nonce rnd ∧
    p.fct = (if s.facts.isEmpty then none else some s.facts) ∧ p.prf = if s.proofs.isEmpty then none else some s.proofs := by
  unfold Signable.ucanPayload at h
  split at h
  · cases h
  · rename_i iss hiss
    split at h
    · cases h
    · rename_i cap hcap
      injection h with h
      subst h
      exact ⟨hiss, hcap, rfl, rfl, rfl, rfl, rfl, rfl, rfl⟩

theorem encodable_of_signable {D : Deps} {s : Signable} {rnd : Bytes} {p : Payload} (hs : SignableOk D s)
    (h : s.ucanPayload rnd = .ok p) : Codec.Encodable D p := by
  obtain ⟨_, hcap, _, _, _, _, _, hf, _⟩ := ucanPayload_ok h
  obtain ⟨h1, _, _, _⟩ := Capabilities.ofVec_ok hcap
  have hperm := C16_permutation hcap
  have hc : ∀ r ∈ p.cap, ∀ a ∈ r.2, ∀ c ∈ a.2, Codec.Good D c ∧ c.depth + 4 < Json.depthLimit := by
    intro r hr a ha c hc
    exact hs.caveats _ (hperm.mem_iff.1 (mem_iter_caveat hr ha hc))
  have hff : ∀ f, p.fct = some f → f = s.facts := by
    intro f hf'
    rw [hf] at hf'
    split at hf'
    · cases hf'
    · cases hf'; rfl
  refine ⟨h1.1, h1.2, fun r hr a ha c h => (hc r hr a ha c h).1, ?_, ?_⟩
  · intro f hf'; rw [hff f hf']; exact hs.facts.1
  · have := Codec.depth_payload (n := 126) p (fun r hr a ha v hv => by
        have := (hc r hr a ha v hv).2
        simp only [Json.depthLimit] at this
        omega) (by omega) (fun f hf' => by
        rw [hff f hf']
        have := hs.facts.2
        simp only [Json.depthLimit] at this
        omega)
    simp only [Json.depthLimit]
    omega

theorem sign_ok {D : Deps} {s : Signable} {rnd : Bytes} {u : Ucan} (h : s.sign D rnd = .ok u) :
    s.ucanPayload rnd = .ok u.payload ∧ u.header = ⟨s.issuer.alg, "JWT"⟩ ∧
    u.signedData = Ucan.signingInput D u.header u.payload ∧ s.issuer.sign u.signedData = .ok u.signature := by
  unfold Signable.sign at h
  split at h
  · cases h
  · cases h
  · rename_i p hp
    simp only at h
    split at h
    · cases h
    · rename_i sig hsig
      injection h with h
      subst h
      exact ⟨hp, rfl, rfl, hsig⟩

/-! ## C01 Round trip -/

/-- C01: what is signed, encoded and parsed is the original in every field. -/
theorem C01_round_trip (D : Deps) (s : Signable) (rnd : Bytes) (u : Ucan) (hs : SignableOk D s) (h : s.sign D rnd = .ok u) :
    Ucan.fromStr D (u.encode D) = .ok u := by
  obtain ⟨hp, hh, hd, _⟩ := sign_ok h
  rw [Ucan.fromStr_encode D u (encodable_of_signable hs hp), ← hd]

/-- C01 for any UCAN whose signed bytes belong to its header and payload. -/
theorem C01_round_trip_general (D : Deps) (u : Ucan) (he : Codec.Encodable D u.payload)
    (hd : u.signedData = Ucan.signingInput D u.header u.payload) : Ucan.fromStr D (u.encode D) = .ok u := by
  rw [Ucan.fromStr_encode D u he, ← hd]

/-- A key that signs with a constant, for examples. -/
def demoKey : Key := ⟨"EdDSA", .ok "did:key:zdemo", fun _ => .ok [1, 2, 3], fun _ s => if s = [1, 2, 3] then .ok () else err .badSignature⟩

/-- A signable with a capability, a nested fact, a proof and bounds, for examples. -/
def demoSignable : Signable where
  issuer := demoKey
  audience := "did:key:zother"
  capabilities := [⟨"prf:0", "ucan/DELEGATE", .obj []⟩, ⟨"mailto:a@b", "msg/send", .obj [("draft", .bool true)]⟩]
  expiration := some 100
  notBefore := some 5
  facts := [("k", .arr [.str "\"é\n", .null, .obj [("x", .bool false)]])]
  proofs := ["bafy"]
  addNonce := true

theorem demoSignable_ok (D : Deps) : SignableOk D demoSignable := by
  refine ⟨?_, ?_, ?_⟩
  · intro c hc
    simp only [demoSignable, List.mem_cons, List.not_mem_nil, or_false] at hc
    rcases hc with rfl | rfl
    · refine ⟨⟨trivial, ⟨by simp [BMap.Sorted], ?_, trivial⟩, trivial⟩, by decide⟩
      rintro (⟨s, hs⟩ | ⟨s, hs⟩) <;> simp at hs
    · refine ⟨⟨⟨trivial, trivial⟩, ⟨by simp [BMap.Sorted], ?_, trivial, trivial⟩, ⟨trivial, trivial⟩⟩, by decide⟩
      rintro (⟨s, hs⟩ | ⟨s, hs⟩) <;> simp at hs
  · refine ⟨⟨⟨trivial, trivial, ⟨trivial, trivial⟩, trivial⟩, trivial⟩,
      ⟨by simp [demoSignable, BMap.Sorted], ?_, ⟨trivial, trivial, ⟨by simp [BMap.Sorted], ?_, trivial, trivial⟩, trivial⟩, trivial⟩,
      ⟨⟨trivial, trivial, ⟨trivial, trivial⟩, trivial⟩, trivial⟩⟩
    · rintro (⟨s, hs⟩ | ⟨s, hs⟩) <;> simp [demoSignable] at hs
    · rintro (⟨s, hs⟩ | ⟨s, hs⟩) <;> simp at hs
  · decide

theorem demo_sign (D : Deps) (rnd : Bytes) : ∃ u, demoSignable.sign D rnd = .ok u := by
  obtain ⟨m, hm⟩ := Capabilities.ofVec_total (l := demoSignable.capabilities) (by
    intro c hc
    simp only [demoSignable, List.mem_cons, List.not_mem_nil, or_false] at hc
    rcases hc with rfl | rfl <;> exact ⟨_, rfl⟩)
  unfold Signable.sign Signable.ucanPayload
  rw [hm]
  exact ⟨_, rfl⟩

/-- Beside C01: the demo signable meets the hypotheses. -/
example (D : Deps) (rnd : Bytes) : SignableOk D demoSignable ∧ ∃ u, demoSignable.sign D rnd = .ok u :=
  ⟨demoSignable_ok D, demo_sign D rnd⟩

/-! ## C02 The signed bytes are the received bytes -/

/-- C02: the bytes whose signature is checked are the text before the second dot. -/
theorem C02_signed_bytes (D : Deps) (t : String) (u : Ucan) (h : Ucan.fromStr D t = .ok u) :
    ∃ a b r, strBytes t = a ++ 46 :: b ++ 46 :: r ∧ NoDot a ∧ NoDot b ∧ u.signedData = a ++ 46 :: b := by
  obtain ⟨hb, pb, tail, ⟨ht, ha, hb', _, _⟩, _, _, hd⟩ := (Ucan.ofBytes_ok_iff D _ u).1 h
  exact ⟨_, _, Base64.encode u.signature ++ tail, by rw [ht]; simp, ha, hb', hd⟩

/-! ## C03 Exact acceptance, no panic -/

/-- C03: acceptance is exact and the result is the content. -/
theorem C03_acceptance (D : Deps) (t : String) (u : Ucan) :
    Ucan.fromStr D t = .ok u ↔ IsToken D (strBytes t) u.header u.payload u.signedData u.signature :=
  Ucan.ofBytes_ok_iff D (strBytes t) u

/-- C03: every string gives a UCAN or an error value; never a panic or divergence. -/
theorem C03_no_panic (D : Deps) (t : String) : (∃ u, Ucan.fromStr D t = .ok u) ∨ ∃ e, Ucan.fromStr D t = .error (.err e) := by
  have hdp : ∀ {α : Type} (f : Bytes → Option α) (p : Bytes) (x : Fail), Ucan.decodePart f p = .error x → ∃ e, x = .err e := by
    intro α f p x h
    unfold Ucan.decodePart at h
    split at h
    · cases h; exact ⟨_, rfl⟩
    · rename_i b _
      cases hf : f b with
      | none => rw [hf] at h; cases h; exact ⟨_, rfl⟩
      | some a => rw [hf] at h; cases h
  unfold Ucan.fromStr Ucan.ofBytes
  simp only
  split
  · exact Or.inr ⟨_, rfl⟩
  · split
    · rename_i e he
      obtain ⟨e', rfl⟩ := hdp _ _ _ he
      exact Or.inr ⟨e', rfl⟩
    · split
      · exact Or.inr ⟨_, rfl⟩
      · split
        · rename_i e he
          obtain ⟨e', rfl⟩ := hdp _ _ _ he
          exact Or.inr ⟨e', rfl⟩
        · split
          · exact Or.inr ⟨_, rfl⟩
          · split
            · exact Or.inr ⟨_, rfl⟩
            · exact Or.inl ⟨_, rfl⟩

/-- Beside C02 and C03: some text is a token, and the empty text is not. -/
example (D : Deps) : (∃ t u, Ucan.fromStr D t = .ok u) ∧ ∀ u, Ucan.fromStr D "" ≠ .ok u := by
  obtain ⟨u, hu⟩ := demo_sign D []
  refine ⟨⟨_, _, C01_round_trip D _ [] u (demoSignable_ok D) hu⟩, ?_⟩
  intro u h
  obtain ⟨a, b, r, e, _⟩ := C02_signed_bytes D _ u h
  rw [strBytes_empty] at e
  simp at e

/-! ## C04 One text per UCAN -/

/-- C04 fails: whatever follows a third dot is ignored, so every token has other texts with the same meaning. -/
theorem C04_extra_segments (D : Deps) (t : String) (u : Ucan) (x : String) (h : Ucan.fromStr D t = .ok u) :
    Ucan.fromStr D (t ++ "." ++ x) = .ok u := by
  rw [C03_acceptance] at h ⊢
  obtain ⟨hb, pb, tail, ⟨ht, ha, hb', hc, htl⟩, h1, h2, h3⟩ := h
  refine ⟨hb, pb, tail ++ 46 :: strBytes x, ⟨?_, ha, hb', hc, ?_⟩, h1, h2, h3⟩
  · have hdot : strBytes "." = [46] := by decide +kernel
    rw [strBytes_append, strBytes_append, ht, hdot]
    simp
  · rcases htl with rfl | ⟨r, rfl⟩
    · exact Or.inr ⟨_, rfl⟩
    · exact Or.inr ⟨_, rfl⟩

/-- C04 fails: two different strings parse to the same UCAN. -/
theorem C04_not_injective (D : Deps) :
    ¬ ∀ (t t' : String) (u : Ucan), Ucan.fromStr D t = .ok u → Ucan.fromStr D t' = .ok u → t = t' := by
  intro H
  obtain ⟨u, hu⟩ := demo_sign D []
  have h1 := C01_round_trip D _ [] u (demoSignable_ok D) hu
  have := H _ _ u h1 (C04_extra_segments D _ u "" h1)
  have hb := congrArg strBytes this
  have hdot : strBytes "." = [46] := by decide +kernel
  rw [strBytes_append, strBytes_append, hdot] at hb
  have := congrArg List.length hb
  simp at this

/-- C04, the part that holds: among texts with exactly three segments (two dots) the text is unique.
Missing from the full statement: texts with more segments. -/
theorem C04_unique_three_segments_partial (D : Deps) (t t' : String) (u : Ucan) (ht : (strBytes t).count 46 = 2)
    (ht' : (strBytes t').count 46 = 2) (h : Ucan.fromStr D t = .ok u) (h' : Ucan.fromStr D t' = .ok u) : t = t' := by
  have key : ∀ t : String, (strBytes t).count 46 = 2 → Ucan.fromStr D t = .ok u →
      strBytes t = u.signedData ++ 46 :: Base64.encode u.signature := by
    intro t ht h
    rw [C03_acceptance] at h
    obtain ⟨hb, pb, tail, ⟨e, ha, hb', hc, htl⟩, _, _, h3⟩ := h
    rcases htl with rfl | ⟨r, rfl⟩
    · rw [e, h3]; simp
    · exfalso
      rw [e] at ht
      simp [List.count_append, List.count_eq_zero.2 ha, List.count_eq_zero.2 hb', List.count_eq_zero.2 hc] at ht
  exact strBytes_inj ((key t ht h).trans (key t' ht' h').symm)

/-- Beside C04: encodings have exactly two dots. -/
example (D : Deps) (u : Ucan) : (strBytes (u.encode D)).count 46 = 2 := by
  rw [Ucan.strBytes_encode]
  unfold Ucan.encodeBytes Ucan.signingInput
  simp [List.count_append, List.count_eq_zero.2 (Base64.encode_no_dot _)]

/-! ## C05 Content is determined by the signed bytes -/

theorem append_sep_inj {c : UInt8} {a b a' b' : Bytes} (ha : c ∉ a) (ha' : c ∉ a') (h : a ++ c :: b = a' ++ c :: b') :
    a = a' ∧ b = b' := by
  induction a generalizing a' with
  | nil =>
    cases a' with
    | nil => simpa using h
    | cons x xs =>
      simp only [List.nil_append, List.cons_append, List.cons.injEq] at h
      exact absurd (by rw [h.1]; simp) ha'
  | cons x xs ih =>
    cases a' with
    | nil =>
      simp only [List.nil_append, List.cons_append, List.cons.injEq] at h
      exact absurd (by rw [h.1]; simp) ha
    | cons y ys =>
      simp only [List.cons_append, List.cons.injEq] at h
      simp only [List.mem_cons, not_or] at ha ha'
      obtain ⟨h1, h2⟩ := ih ha.2 ha'.2 h.2
      exact ⟨by rw [h.1, h1], h2⟩

/-- C05: equal signed bytes, equal header and payload. -/
theorem C05_content (D : Deps) (t t' : String) (u u' : Ucan) (h : Ucan.fromStr D t = .ok u) (h' : Ucan.fromStr D t' = .ok u')
    (hd : u.signedData = u'.signedData) : u.header = u'.header ∧ u.payload = u'.payload := by
  rw [C03_acceptance] at h h'
  obtain ⟨hb, pb, tail, ⟨_, ha, _, _, _⟩, h1, h2, h3⟩ := h
  obtain ⟨hb', pb', tail', ⟨_, ha', _, _, _⟩, h1', h2', h3'⟩ := h'
  rw [h3, h3'] at hd
  obtain ⟨e1, e2⟩ := append_sep_inj ha ha' hd
  have e1 : hb = hb' := by
    have := congrArg Base64.decode e1
    rw [Base64.decode_encode, Base64.decode_encode] at this
    exact Option.some.inj this
  have e2 : pb = pb' := by
    have := congrArg Base64.decode e2
    rw [Base64.decode_encode, Base64.decode_encode] at this
    exact Option.some.inj this
  subst e1; subst e2
  rw [h1] at h1'; rw [h2] at h2'
  exact ⟨Option.some.inj h1', Option.some.inj h2'⟩

/-- Beside C05: two different tokens with the same signed bytes (only the signature differs). -/
example (D : Deps) : ∃ t t' u u', t ≠ t' ∧ Ucan.fromStr D t = .ok u ∧ Ucan.fromStr D t' = .ok u' ∧ u.signedData = u'.signedData := by
  obtain ⟨u, hu⟩ := demo_sign D []
  obtain ⟨hp, hh, hd, _⟩ := sign_ok hu
  have he := encodable_of_signable (demoSignable_ok D) hp
  have h1 := C01_round_trip D _ [] u (demoSignable_ok D) hu
  have h2 := C01_round_trip_general D { u with signature := [] } he hd
  have h3 := C01_round_trip_general D { u with signature := [7] } he hd
  refine ⟨_, _, _, _, ?_, h2, h3, rfl⟩
  intro e
  rw [e, h3] at h2
  injection h2 with h2
  injection h2 with _ _ _ h2
  cases h2

/-! ## C06 Re-encoding and CIDs -/

/-- C06: a token this library produced re-encodes to the identical string after parsing, and has the same CID. -/
theorem C06_reencode (D : Deps) (s : Signable) (rnd : Bytes) (u u' : Ucan) (hs : SignableOk D s) (h : s.sign D rnd = .ok u)
    (hp : Ucan.fromStr D (u.encode D) = .ok u') : u'.encode D = u.encode D ∧ ∀ hasher, u'.toCid D hasher = u.toCid D hasher := by
  rw [C01_round_trip D s rnd u hs h] at hp
  cases hp
  exact ⟨rfl, fun _ => rfl⟩

/-- C06: the CID of a token this library produced is that of the bytes of its text. -/
theorem C06_cid_of_text (D : Deps) (u : Ucan) (hasher : UInt64) :
    u.toCid D hasher = ⟨true, Cid.rawCodec, hasher, D.digest hasher (strBytes (u.encode D))⟩ := by
  rw [Ucan.strBytes_encode]; rfl

/-- Header text with its members in the other order. -/
def swappedHeader (D : Deps) (h : Header) : Bytes := Json.print D (.obj [("typ", .str h.typ), ("alg", .str h.alg)])

theorem swappedHeader_decodes (D : Deps) (h : Header) : Codec.headerOfBytes D (swappedHeader D h) = some h := by
  unfold Codec.headerOfBytes swappedHeader DagJson.decode
  rw [Json.parse_print D (.obj [("typ", .str h.typ), ("alg", .str h.alg)]) ⟨trivial, trivial, trivial⟩
      (by simp [Json.depth, Json.depthMembers, Json.depthLimit])]
  simp [DagJson.toIpld, DagJson.toIpldMembers, DagJson.mkMap, Codec.headerOfIpld, Codec.headerOf, BMap.ofList, BMap.get?_insert,
    Codec.reqVal, Codec.asStr]

theorem swappedHeader_ne (D : Deps) (h : Header) : swappedHeader D h ≠ Codec.headerBytes D h := by
  intro e
  have h1 : Json.parse D (swappedHeader D h) = some (.obj [("typ", .str h.typ), ("alg", .str h.alg)]) := by
    unfold swappedHeader
    rw [Json.parse_print D (.obj [("typ", .str h.typ), ("alg", .str h.alg)]) ⟨trivial, trivial, trivial⟩
      (by simp [Json.depth, Json.depthMembers, Json.depthLimit])]
  have hs := BMap.sorted_ofList [("alg", Json.str h.alg), ("typ", Json.str h.typ)]
  have h2 : Json.parse D (Codec.headerBytes D h) = some (Codec.headerJson h) := by
    unfold Codec.headerBytes
    rw [Json.parse_print]
    · simp only [Codec.headerJson, Json.NumOk, Codec.numOkMembers_iff]
      intro e he
      have := Codec.mem_ofList_imp he
      simp only [List.mem_cons, List.not_mem_nil, or_false] at this
      rcases this with rfl | rfl <;> trivial
    · have : Json.depthMembers (BMap.ofList [("alg", Json.str h.alg), ("typ", Json.str h.typ)]) ≤ 0 := by
        rw [Codec.depthMembers_le]
        intro e he
        have := Codec.mem_ofList_imp he
        simp only [List.mem_cons, List.not_mem_nil, or_false] at this
        rcases this with rfl | rfl <;> simp [Json.depth]
      simp only [Codec.headerJson, Json.depth, Json.depthLimit]
      omega
  rw [e, h2] at h1
  simp only [Codec.headerJson, Option.some.injEq, Json.obj.injEq] at h1
  rw [h1] at hs
  have := (List.pairwise_cons.1 hs).1 _ (List.mem_singleton.2 rfl)
  have : bytesLt (strBytes "typ") (strBytes "alg") = true := this
  revert this
  decide +kernel

/-- C06 fails for tokens serialised by other software: for every header, payload and signature there is a token with that content
whose re-encoding is a different string. -/
theorem C06_foreign_reencode (D : Deps) (h : Header) (p : Payload) (sig : Bytes) (he : Codec.Encodable D p) :
    ∃ t u, Ucan.fromStr D t = .ok u ∧ u.header = h ∧ u.payload = p ∧ u.signature = sig ∧ u.encode D ≠ t := by
  let a := Base64.encode (swappedHeader D h)
  let b := Base64.encode (Codec.payloadBytes D p)
  let c := Base64.encode sig
  let tb : Bytes := a ++ 46 :: b ++ 46 :: c
  have hasc : IsAscii tb := by
    intro x hx
    simp only [tb, List.mem_append, List.mem_cons] at hx
    rcases hx with (hx | rfl | hx) | rfl | hx
    · exact Base64.encode_ascii _ x hx
    · decide
    · exact Base64.encode_ascii _ x hx
    · decide
    · exact Base64.encode_ascii _ x hx
  refine ⟨asciiStr tb, ⟨h, p, a ++ 46 :: b, sig⟩, ?_, rfl, rfl, rfl, ?_⟩
  · rw [C03_acceptance, strBytes_asciiStr hasc]
    refine ⟨_, _, [], ⟨by simp [tb, a, b, c], Base64.encode_no_dot _, Base64.encode_no_dot _, Base64.encode_no_dot _, Or.inl rfl⟩,
      swappedHeader_decodes D h, Codec.payloadOfBytes_payloadBytes D p he, rfl⟩
  · intro e
    have := congrArg strBytes e
    rw [Ucan.strBytes_encode, strBytes_asciiStr hasc] at this
    simp only [Ucan.encodeBytes, Ucan.signingInput, tb, List.append_assoc, List.cons_append] at this
    have := (append_sep_inj (Base64.encode_no_dot _) (Base64.encode_no_dot _) this).1
    have := congrArg Base64.decode this
    rw [Base64.decode_encode, Base64.decode_encode] at this
    exact swappedHeader_ne D h (Option.some.inj this).symm

/-- Beside C06: the hypotheses are met. -/
example (D : Deps) : ∃ p, Codec.Encodable D p := by
  obtain ⟨u, hu⟩ := demo_sign D []
  exact ⟨_, encodable_of_signable (demoSignable_ok D) (sign_ok hu).1⟩

/-! ## C07 Canonical base64url -/

/-- C07: decoding inverts encoding. -/
theorem C07_decode_encode (b : Bytes) : Base64.decode (Base64.encode b) = some b := Base64.decode_encode b

/-- C07: every segment that decodes is the encoding of what it decodes to. -/
theorem C07_canonical (s b : Bytes) (h : Base64.decode s = some b) : s = Base64.encode b := (Base64.encode_of_decode h).symm

/-- C07: segments consist of letters, digits, `-` and `_` only. -/
theorem C07_alphabet (s b : Bytes) (h : Base64.decode s = some b) (x : UInt8) (hx : x ∈ s) :
    (65 ≤ x ∧ x ≤ 90) ∨ (97 ≤ x ∧ x ≤ 122) ∨ (48 ≤ x ∧ x ≤ 57) ∨ x = 45 ∨ x = 95 := by
  rw [C07_canonical s b h] at hx
  obtain ⟨n, hn, rfl⟩ := Base64.encode_alphabet b x hx
  have : ∀ m : Fin 64, let x := Base64.sextetChar m.val
      (65 ≤ x ∧ x ≤ 90) ∨ (97 ≤ x ∧ x ≤ 122) ∨ (48 ≤ x ∧ x ≤ 57) ∨ x = 45 ∨ x = 95 := by decide +kernel
  exact this ⟨n, hn⟩

/-- Beside C07: a segment that decodes, one with stray bits and a padded one that do not. -/
example : Base64.decode (strBytes "AQ") = some [1] ∧ Base64.decode (strBytes "AR") = none ∧
    Base64.decode (strBytes "AQ==") = none := by decide +kernel

/-! ## C08 Facts and caveats survive DAG-JSON -/

/-- C08: any value without reserved forms, within the depth limit, is read back unchanged. -/
theorem C08_survives (D : Deps) (v : Json) (h : Codec.Good D v) (hd : v.depth < Json.depthLimit) :
    (DagJson.decode D (Json.print D v)).bind (DagJson.toValue D) = some v := by
  rw [DagJson.decode_print D v h.1 h.2.1 hd]
  exact DagJson.toValue_embed D v h.2.2

/-- C08 fails for the reserved forms: they never come back. -/
theorem C08_reserved_lost (D : Deps) (m : List (String × Json)) (h : DagJson.Reserved m) :
    (DagJson.decode D (Json.print D (.obj m))).bind (DagJson.toValue D) = none := by
  unfold DagJson.decode
  rcases h with ⟨s, rfl⟩ | ⟨s, rfl⟩
  · rw [Json.parse_print D (.obj [("/", .str s)]) ⟨trivial, trivial⟩ (by simp [Json.depth, Json.depthMembers, Json.depthLimit])]
    simp only [Option.bind_some, DagJson.toIpld, DagJson.toIpldMembers, DagJson.mkMap, if_true]
    cases Cid.parse D s <;> simp [DagJson.toValue]
  · rw [Json.parse_print D (.obj [("/", .obj [("bytes", .str s)])]) ⟨⟨trivial, trivial⟩, trivial⟩ (by simp [Json.depth, Json.depthMembers, Json.depthLimit])]
    have hm : DagJson.mkMap D [("bytes", Ipld.str s)] = some (.map [("bytes", .str s)]) := by
      simp [DagJson.mkMap, BMap.ofList, BMap.insert]
    simp only [Option.bind_some, DagJson.toIpld, DagJson.toIpldMembers, hm]
    simp only [DagJson.mkMap, and_self, if_true]
    cases D.otherBase 109 (strBytes s) <;> simp [DagJson.toValue]

/-- Beside C08: a nested value with escapes meets the hypotheses. -/
example (D : Deps) : Codec.Good D (.obj demoSignable.facts) ∧ Json.depth (.obj demoSignable.facts) < Json.depthLimit :=
  ⟨(demoSignable_ok D).facts.1, by decide⟩

/-! ## C09 Canonical output -/

theorem withFact_comm (b : Builder) (hb : BMap.Sorted b.facts) {k1 k2 : String} (h : k1 ≠ k2) (f1 f2 : Option Json) :
    (b.withFact k1 f1).withFact k2 f2 = (b.withFact k2 f2).withFact k1 f1 := by
  cases f1 <;> cases f2 <;> simp only [Builder.withFact]
  rw [BMap.insert_comm hb h]

theorem sorted_withFact (b : Builder) (hb : BMap.Sorted b.facts) (k : String) (f : Option Json) :
    BMap.Sorted (b.withFact k f).facts := by
  cases f with
  | none => exact hb
  | some v => exact BMap.sorted_insert hb _ _

/-- Adding a list of facts. -/
def addFacts (b : Builder) (l : List (String × Option Json)) : Builder := l.foldl (fun b e => b.withFact e.1 e.2) b

/-- C09: facts with distinct keys may be added in any order, the builder ends in the same state and so yields the same token. -/
theorem C09_order_irrelevant (b : Builder) (hb : BMap.Sorted b.facts) (l l' : List (String × Option Json)) (hp : l.Perm l')
    (hd : l.Pairwise fun x y => x.1 ≠ y.1) : addFacts b l = addFacts b l' := by
  induction hp generalizing b with
  | nil => rfl
  | cons x _ ih =>
    have hd' := List.pairwise_cons.1 hd
    exact ih _ (sorted_withFact b hb _ _) hd'.2
  | swap x y l =>
    have hd' := List.pairwise_cons.1 hd
    have : y.1 ≠ x.1 := hd'.1 x (by simp)
    show addFacts ((b.withFact y.1 y.2).withFact x.1 x.2) l = addFacts ((b.withFact x.1 x.2).withFact y.1 y.2) l
    rw [withFact_comm b hb this]
  | trans h1 _ ih1 ih2 =>
    rw [ih1 b hb hd]
    refine ih2 b hb ?_
    exact (h1.pairwise_iff (fun h => Ne.symm h)).1 hd

/-- C09: the members of the payload object and of the facts are strictly sorted in the text. -/
theorem C09_payload_sorted (p : Payload) : ∃ m, Codec.payloadJson p = .obj m ∧ BMap.Sorted m :=
  ⟨_, rfl, BMap.sorted_ofList _⟩

theorem C09_facts_sorted (l : List (String × Option Json)) : BMap.Sorted (addFacts Builder.default l).facts := by
  have : ∀ (l : List (String × Option Json)) (b : Builder), BMap.Sorted b.facts → BMap.Sorted (addFacts b l).facts := by
    intro l
    induction l with
    | nil => intro b h; exact h
    | cons x xs ih => intro b h; exact ih _ (sorted_withFact b h _ _)
  exact this l _ (by simp [Builder.default, BMap.Sorted])

/-- Beside C09: two facts in two orders. -/
example : (addFacts Builder.default [("b", some .null), ("a", some (.bool true))]).facts = [("a", .bool true), ("b", .null)] ∧
    (addFacts Builder.default [("a", some (.bool true)), ("b", some .null)]).facts = [("a", .bool true), ("b", .null)] := by
  constructor <;> decide +kernel

/-! ## C18 Capabilities in tokens -/

/-- A payload with a resource without abilities, and one with a caveat that is not an object. -/
def malformedPayload : Payload :=
  ⟨ucanVersion, "did:key:za", "did:key:zb", none, none, none, [("a", []), ("b", [("w", [.null])])], none, none⟩

theorem malformedPayload_encodable (D : Deps) : Codec.Encodable D malformedPayload := by
  refine ⟨?_, ?_, ?_, by simp [malformedPayload], ?_⟩
  · simp only [malformedPayload, BMap.Sorted, List.pairwise_cons, List.mem_singleton, forall_eq, List.not_mem_nil, false_implies,
      implies_true, List.Pairwise.nil, and_true]
    show bytesLt (strBytes "a") (strBytes "b") = true
    decide +kernel
  · intro r hr
    simp only [malformedPayload, List.mem_cons, List.not_mem_nil, or_false] at hr
    rcases hr with rfl | rfl <;> simp [BMap.Sorted]
  · intro r hr a ha c hc
    simp only [malformedPayload, List.mem_cons, List.not_mem_nil, or_false] at hr
    rcases hr with rfl | rfl
    · cases ha
    · simp only [List.mem_cons, List.not_mem_nil, or_false] at ha
      subst ha
      simp only [List.mem_cons, List.not_mem_nil, or_false] at hc
      subst hc
      exact ⟨trivial, trivial, trivial⟩
  · have := Codec.depth_payload (n := 3) malformedPayload (by
      intro r hr a ha c hc
      simp only [malformedPayload, List.mem_cons, List.not_mem_nil, or_false] at hr
      rcases hr with rfl | rfl
      · cases ha
      · simp only [List.mem_cons, List.not_mem_nil, or_false] at ha
        subst ha
        simp only [List.mem_cons, List.not_mem_nil, or_false] at hc
        subst hc
        simp [Json.depth]) (by omega) (by simp [malformedPayload])
    simp only [Json.depthLimit]
    omega

/-- C18 fails: a token parses although the capability constructors refuse its capabilities. -/
theorem C18_tokens_bypass_validation (D : Deps) : ∃ t u, Ucan.fromStr D t = .ok u ∧
    Capabilities.ofMap u.capabilities = err .noAbilities ∧ (∃ c ∈ Capabilities.iter u.capabilities, ¬ IsObj c.caveat) := by
  refine ⟨_, _, C01_round_trip_general D ⟨⟨"a", "b"⟩, malformedPayload, Ucan.signingInput D ⟨"a", "b"⟩ malformedPayload, []⟩ (malformedPayload_encodable D) rfl, ?_, ?_⟩
  · show Capabilities.ofMap malformedPayload.cap = _
    decide +kernel
  · refine ⟨⟨"b", "w", .null⟩, ?_, ?_⟩
    · show _ ∈ Capabilities.iter malformedPayload.cap
      decide +kernel
    · rintro ⟨m, hm⟩; cases hm

/-- C18, the part that holds: whatever the builder signs has an ability per resource and object caveats, also after encoding and
parsing. Missing from the full statement: tokens made by other software. -/
theorem C18_builder_well_formed_partial (D : Deps) (s : Signable) (rnd : Bytes) (u : Ucan) (h : s.sign D rnd = .ok u) :
    (∀ r ∈ u.capabilities, r.2 ≠ [] ∧ ∀ a ∈ r.2, a.2 ≠ []) ∧ ∀ c ∈ Capabilities.iter u.capabilities, IsObj c.caveat := by
  obtain ⟨hp, _, _, _⟩ := sign_ok h
  obtain ⟨_, hcap, _⟩ := ucanPayload_ok hp
  obtain ⟨_, h2, _, h4⟩ := Capabilities.ofVec_ok hcap
  refine ⟨h4, ?_⟩
  intro c hc
  exact h2 c ((C16_permutation hcap).mem_iff.1 hc)

/-- Beside C18: the demo signable is signed. -/
example (D : Deps) : ∃ u, demoSignable.sign D [] = .ok u := demo_sign D []

end Verif
