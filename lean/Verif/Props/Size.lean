import Verif.Spec.Size
import Verif.Props.Wire

/-! # C125: citing proofs makes a token longer by a fixed amount each -/

namespace Verif
open Spec

namespace Size

theorem base64_length : ∀ b : Bytes, (Base64.encode b).length = base64Length b.length
  | [] => rfl
  | [_] => by simp [Base64.encode, base64Length]
  | [_, _] => by simp [Base64.encode, base64Length]
  | a :: b :: c :: t => by
    have := base64_length t
    simp only [Base64.encode, List.length_cons, this, base64Length]
    omega

theorem base32_length : ∀ b : Bytes, (Base32.encode b).length = (8 * b.length + 4) / 5
  | [] => rfl
  | [_] => by simp [Base32.encode]
  | [_, _] => by simp [Base32.encode]
  | [_, _, _] => by simp [Base32.encode]
  | [_, _, _, _] => by simp [Base32.encode]
  | a :: b :: c :: d :: e :: t => by
    have := base32_length t
    simp only [Base32.encode, List.length_cons, this]
    omega

theorem escAll_length {b : Bytes} (h : ∀ c ∈ b, (Json.escByte c).length = 1) : (Json.escAll b).length = b.length := by
  induction b with
  | nil => rfl
  | cons c b ih =>
    have h1 := h c (by simp)
    have h2 := ih fun x hx => h x (by simp [hx])
    simp only [Json.escAll, List.flatMap_cons, List.length_append, List.length_cons] at h2 ⊢
    omega

theorem quint_escape (b : Bytes) : ∀ x ∈ Base32.encode b, (Json.escByte x).length = 1 := by
  intro x hx
  rw [Base32.encode_eq_pack, List.mem_map] at hx
  obtain ⟨q, hq, rfl⟩ := hx
  have key : ∀ n : Fin 32, (Json.escByte (Base32.quintChar n.val)).length = 1 := by decide +kernel
  exact key ⟨q, Base32.pack_lt b q hq⟩

/-- The reference to a token, as it is written. -/
theorem reference_length (D : Deps) (hD : Digests32 D) (u : Ucan) : (Json.print D (.str (u.toCid D Builder.defaultHasher).toStr)).length = 61 := by
  have hb : (Cid.toBytes (u.toCid D Builder.defaultHasher)).length = 36 := by
    have h1 : (Varint.encode 1).length = 1 := by decide +kernel
    have h2 : (Varint.encode Cid.rawCodec).length = 1 := by decide +kernel
    have h3 : (Varint.encode Builder.defaultHasher).length = 1 := by decide +kernel
    have h4 : (Varint.encode (UInt64.ofNat 32)).length = 1 := by decide +kernel
    have h5 := hD (Ucan.encodeBytes D u)
    simp only [Cid.toBytes, Cid.mhBytes, Ucan.toCid, if_true, List.length_append, h1, h2, h3, h5, h4]
  have ht : strBytes (u.toCid D Builder.defaultHasher).toStr = 98 :: Base32.encode (Cid.toBytes (u.toCid D Builder.defaultHasher)) := by
    rw [Cid.strBytes_toStr]
    rfl
  have he : (Json.escAll (98 :: Base32.encode (Cid.toBytes (u.toCid D Builder.defaultHasher)))).length = 59 := by
    rw [escAll_length]
    · rw [List.length_cons, base32_length, hb]
    · intro c hc
      rcases List.mem_cons.1 hc with rfl | hc
      · decide +kernel
      · exact quint_escape _ c hc
  rw [Json.print, Json.printStr, ht]
  simp only [List.length_cons, List.length_append, List.length_nil, he]

/-! ## Objects and lists -/

def memberLength (D : Deps) (e : String × Json) : Nat := (Json.printStr e.1).length + 1 + (Json.print D e.2).length

theorem membersTail_length (D : Deps) (m : List (String × Json)) : (Json.printMembersTail D m).length = (m.map (memberLength D)).sum + m.length + 1 := by
  induction m with
  | nil => rfl
  | cons e m ih =>
    obtain ⟨k, x⟩ := e
    simp only [Json.printMembersTail, List.length_cons, List.length_append, ih, List.map_cons, List.sum_cons, memberLength]
    omega

theorem obj_length (D : Deps) {m : List (String × Json)} (h : m ≠ []) : (Json.print D (.obj m)).length = (m.map (memberLength D)).sum + m.length + 1 := by
  cases m with
  | nil => exact absurd rfl h
  | cons e m =>
    obtain ⟨k, x⟩ := e
    simp only [Json.print, Json.printMembers, List.length_cons, List.length_append, membersTail_length, List.map_cons, List.sum_cons, memberLength]
    omega

theorem elemsTail_length (D : Deps) (l : List Json) : (Json.printElemsTail D l).length = (l.map fun x => (Json.print D x).length).sum + l.length + 1 := by
  induction l with
  | nil => rfl
  | cons e m ih =>
    simp only [Json.printElemsTail, List.length_cons, List.length_append, ih, List.map_cons, List.sum_cons]
    omega

theorem arr_length (D : Deps) {l : List Json} (h : l ≠ []) : (Json.print D (.arr l)).length = (l.map fun x => (Json.print D x).length).sum + l.length + 1 := by
  cases l with
  | nil => exact absurd rfl h
  | cons e m =>
    simp only [Json.print, Json.printElems, List.length_cons, List.length_append, elemsTail_length, List.map_cons, List.sum_cons]
    omega

/-- Length of the strings of a list as they are written, with a comma or bracket each. -/
def textsLength (D : Deps) (l : List String) : Nat := (l.map fun t => (Json.print D (.str t)).length + 1).sum

theorem textsLength_append (D : Deps) (l l' : List String) : textsLength D (l ++ l') = textsLength D l + textsLength D l' := by
  simp [textsLength]

theorem textsLength_references (D : Deps) (hD : Digests32 D) (tokens : List Ucan) :
    textsLength D (tokens.map fun u => (u.toCid D Builder.defaultHasher).toStr) = 62 * tokens.length := by
  induction tokens with
  | nil => rfl
  | cons u l ih =>
    unfold textsLength at ih ⊢
    simp only [List.map_cons, List.sum_cons, reference_length D hD, ih, List.length_cons]
    omega

theorem strings_length (D : Deps) (l : List String) :
    ((l.map Json.str).map fun x => (Json.print D x).length).sum + l.length = textsLength D l := by
  induction l with
  | nil => rfl
  | cons t l ih =>
    simp only [textsLength, List.map_cons, List.sum_cons, List.length_cons] at ih ⊢
    omega

/-- What the proof list adds to a payload. -/
def listLength (D : Deps) (l : List String) : Nat := if l.isEmpty then 0 else 8 + textsLength D l

theorem payload_length (D : Deps) (p : Payload) (l : List String) :
    (Codec.payloadBytes D { p with prf := if l.isEmpty then none else some l }).length =
      (Codec.payloadBytes D { p with prf := none }).length + listLength D l := by
  have hp : (Json.printStr "prf").length = 5 := by decide +kernel
  cases hl : l.isEmpty with
  | true => simp [listLength, hl]
  | false =>
    have hne : l.map Json.str ≠ [] := by
      intro e
      rw [List.map_eq_nil_iff] at e
      rw [e] at hl
      cases hl
    unfold Codec.payloadBytes
    rw [C72_payload_document, C72_payload_document]
    unfold payloadDoc
    rw [obj_length D (by simp), obj_length D (by simp)]
    have hs := strings_length D l
    simp only [unlessNone, List.map_append, List.map_cons, List.sum_append, List.sum_cons, List.length_append, List.length_cons, List.length_nil,
      List.map_nil, List.sum_nil, memberLength, hp, arr_length D hne, List.length_map, listLength, hl, Bool.false_eq_true, if_false]
    omega

end Size

/-- C125: how long a token is, in terms of the documents that it carries. -/
theorem C125_text (D : Deps) (u : Ucan) :
    (strBytes (u.encode D)).length =
      base64Length (Codec.headerBytes D u.header).length + base64Length (Codec.payloadBytes D u.payload).length + base64Length u.signature.length + 2 := by
  rw [Ucan.strBytes_encode, Ucan.encodeBytes, Ucan.signingInput]
  simp only [List.length_append, List.length_cons, Size.base64_length]
  omega

/-- C125: what the builder holds after citing tokens. -/
theorem C125_cited (D : Deps) (b : Builder) (tokens : List Ucan) :
    citing D b tokens = { b with proofs := b.proofs ++ tokens.map fun u => (u.toCid D Builder.defaultHasher).toStr } := by
  unfold citing
  induction tokens generalizing b with
  | nil => simp
  | cons u l ih =>
    rw [List.foldl_cons, ih]
    simp [Builder.witnessedBy, List.append_assoc]

/-- Signatures of the key all have the same length, as those of Ed25519, P-256 and of any one RSA key do. -/
def Spec.FixedLength (k : Key) (n : Nat) : Prop := ∀ m sig, k.sign m = .ok sig → sig.length = n

namespace Size

theorem build_inv {E : Env} {checked : Bool} {b : Builder} {w w' : World} {s : Signable} (h : b.build E checked w = (.ok s, w')) :
    ∃ k a exp, b.issuer = some k ∧ b.audience = some a ∧ b.impliedExpiration E checked w = (.ok exp, w') ∧
      s = ⟨k, a, b.capabilities, exp, b.notBefore, b.facts, b.proofs, b.addNonce⟩ := by
  unfold Builder.build at h
  cases hk : b.issuer with
  | none => rw [hk] at h; cases h
  | some k =>
  cases ha : b.audience with
  | none => rw [hk, ha] at h; cases h
  | some a =>
  rw [hk, ha] at h
  obtain ⟨exp, w1, h1, h2⟩ := M.bind_ok.1 h
  cases h2
  exact ⟨k, a, exp, rfl, rfl, h1, rfl⟩

/-- Builds of the same builder with other proofs differ in the proofs alone. -/
theorem build_citing (D : Deps) (E : Env) (checked : Bool) (b : Builder) (tokens tokens' : List Ucan) (w w1 w2 : World) (s1 s2 : Signable)
    (h1 : (citing D b tokens).build E checked w = (.ok s1, w1)) (h2 : (citing D b tokens').build E checked w = (.ok s2, w2)) :
    s1.proofs = b.proofs ++ tokens.map (fun u => (u.toCid D Builder.defaultHasher).toStr) ∧
    s2 = { s1 with proofs := b.proofs ++ tokens'.map fun u => (u.toCid D Builder.defaultHasher).toStr } := by
  rw [C125_cited] at h1 h2
  obtain ⟨k, a, exp, hk, ha, he, rfl⟩ := build_inv h1
  obtain ⟨k', a', exp', hk', ha', he', rfl⟩ := build_inv h2
  cases hk.symm.trans hk'
  cases ha.symm.trans ha'
  have : Builder.impliedExpiration E checked b w = (.ok exp, w1) := he
  have h' : Builder.impliedExpiration E checked b w = (.ok exp', w2) := he'
  rw [this] at h'
  cases h'
  exact ⟨rfl, rfl⟩

theorem signed_length {D : Deps} {s : Signable} {rnd : Bytes} {u : Ucan} (h : s.sign D rnd = .ok u) {l : List String} {u' : Ucan}
    (h' : Signable.sign D { s with proofs := l } rnd = .ok u') :
    u'.header = u.header ∧ ∃ n, (Codec.payloadBytes D u.payload).length = n + listLength D s.proofs ∧
      (Codec.payloadBytes D u'.payload).length = n + listLength D l := by
  obtain ⟨h1, h2, _, _⟩ := sign_ok h
  obtain ⟨h1', h2', _, _⟩ := sign_ok h'
  obtain ⟨a1, a2, a3, a4, a5, a6, a7, a8, a9⟩ := ucanPayload_ok h1
  obtain ⟨b1, b2, b3, b4, b5, b6, b7, b8, b9⟩ := ucanPayload_ok h1'
  refine ⟨by rw [h2, h2'], (Codec.payloadBytes D { u.payload with prf := none }).length, ?_, ?_⟩
  · rw [← payload_length, ← a9]
  · have e : u'.payload = { u.payload with prf := if l.isEmpty then none else some l } := by
      generalize u.payload = p at *
      generalize u'.payload = p' at *
      cases p
      cases p'
      simp_all [Signable.nonce]
    rw [← payload_length, ← e]

end Size

/-- C125: each further proof adds 62 bytes to the payload, and at most 83 characters to the text; the first one adds eight bytes, or eleven characters, on top. This is so
whatever the proofs carry, and however many proofs they cite in turn. -/
theorem C125_growth (D : Deps) (hD : Digests32 D) (E : Env) (checked : Bool) (b : Builder) (tokens : List Ucan) (ht : tokens ≠ []) (w w1 w2 : World) (s s' : Signable)
    (h : b.build E checked w = (.ok s, w1)) (h' : (citing D b tokens).build E checked w = (.ok s', w2)) (n : Nat) (hk : FixedLength s.issuer n) (rnd : Bytes)
    (u u' : Ucan) (hu : s.sign D rnd = .ok u) (hu' : s'.sign D rnd = .ok u') :
    (Codec.payloadBytes D u'.payload).length = (Codec.payloadBytes D u.payload).length + 62 * tokens.length + (if b.proofs = [] then 8 else 0) ∧
    (strBytes (u'.encode D)).length ≤ (strBytes (u.encode D)).length + 83 * tokens.length + (if b.proofs = [] then 11 else 0) := by
  obtain ⟨hp, rfl⟩ := Size.build_citing D E checked b [] tokens w w1 w2 s s' h h'
  rw [List.map_nil, List.append_nil] at hp
  obtain ⟨e1, m, e2, e3⟩ := Size.signed_length hu hu'
  have hlist : Size.listLength D (b.proofs ++ tokens.map fun u => (u.toCid D Builder.defaultHasher).toStr) =
      Size.listLength D b.proofs + 62 * tokens.length + (if b.proofs = [] then 8 else 0) := by
    unfold Size.listLength
    rw [if_neg (by simp [ht]), Size.textsLength_append, Size.textsLength_references D hD]
    by_cases hb : b.proofs = []
    · simp [hb, Size.textsLength]; omega
    · simp [hb]; omega
  have hlen : (Codec.payloadBytes D u'.payload).length = (Codec.payloadBytes D u.payload).length + 62 * tokens.length + (if b.proofs = [] then 8 else 0) := by
    rw [e2, e3, hlist, hp]
    omega
  refine ⟨hlen, ?_⟩
  have hsig := hk _ _ (sign_ok hu).2.2.2
  have hsig' : u'.signature.length = n := hk _ _ (sign_ok hu').2.2.2
  rw [C125_text, C125_text, e1, hlen, hsig, hsig']
  simp only [base64Length]
  split <;> omega

/-- C125: how long a token is depends on how many proofs it cites, not on which. -/
theorem C125_independent (D : Deps) (hD : Digests32 D) (E : Env) (checked : Bool) (b : Builder) (tokens tokens' : List Ucan) (hl : tokens.length = tokens'.length)
    (w w1 w2 : World) (s s' : Signable) (h : (citing D b tokens).build E checked w = (.ok s, w1)) (h' : (citing D b tokens').build E checked w = (.ok s', w2))
    (n : Nat) (hk : FixedLength s.issuer n) (rnd : Bytes) (u u' : Ucan) (hu : s.sign D rnd = .ok u) (hu' : s'.sign D rnd = .ok u') :
    (strBytes (u.encode D)).length = (strBytes (u'.encode D)).length := by
  obtain ⟨hp, rfl⟩ := Size.build_citing D E checked b tokens tokens' w w1 w2 s s' h h'
  obtain ⟨e1, m, e2, e3⟩ := Size.signed_length hu hu'
  have hsig := hk _ _ (sign_ok hu).2.2.2
  have hsig' : u'.signature.length = n := hk _ _ (sign_ok hu').2.2.2
  have hempty : (tokens = []) = (tokens' = []) := by
    rw [← List.length_eq_zero_iff, ← List.length_eq_zero_iff, hl]
  have hlist : Size.listLength D s.proofs = Size.listLength D (b.proofs ++ tokens'.map fun u => (u.toCid D Builder.defaultHasher).toStr) := by
    unfold Size.listLength
    rw [hp, Size.textsLength_append, Size.textsLength_append, Size.textsLength_references D hD, Size.textsLength_references D hD, hl]
    simp [hempty]
  rw [C125_text, C125_text, e1, e2, e3, hsig, hsig', hlist]

/-- Beside C125: a builder, a key with signatures of fixed length, and tokens to cite. -/
example (D : Deps) (E : Env) (w : World) : ∃ b s u, Builder.build E false b w = (.ok s, w) ∧ FixedLength s.issuer 3 ∧ s.sign D [] = .ok u ∧
    ∃ s' u', (citing D b [u, u]).build E false w = (.ok s', w) ∧ s'.sign D [] = .ok u' ∧ u'.proofs ≠ u.proofs := by
  refine ⟨(Builder.default.issuedBy demoKey).forAudience "did:key:zother", _, _, rfl, ?_, rfl, _, _, rfl, rfl, ?_⟩
  · intro m sig h
    cases h
    rfl
  · intro h
    cases h

end Verif
