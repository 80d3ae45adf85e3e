import Verif.Props.EndToEnd
import Verif.Props.Store

/-! # Property C83: tokens of other software as proofs -/

namespace Verif
open Spec Chain Store KeySupport

namespace Foreign

/-- What the text written for a UCAN parses to: its content, but with the bytes that this library signs for that content. -/
theorem encode_parses (D : Deps) (u : Ucan) (he : Codec.Encodable D u.payload) :
    Ucan.fromStr D (u.encode D) = .ok ⟨u.header, u.payload, Ucan.signingInput D u.header u.payload, u.signature⟩ :=
  C01_round_trip_general D ⟨u.header, u.payload, Ucan.signingInput D u.header u.payload, u.signature⟩ he rfl

/-- For every header, payload and way to sign there is a token whose signed text is not the one this library would sign. -/
theorem exists_foreign (D : Deps) (h : Header) (p : Payload) (he : Codec.Encodable D p) :
    ∃ m : Bytes, m ≠ Ucan.signingInput D h p ∧ ∀ sig, ∃ t, Ucan.fromStr D t = .ok ⟨h, p, m, sig⟩ := by
  refine ⟨Base64.encode (swappedHeader D h) ++ 46 :: Base64.encode (Codec.payloadBytes D p), ?_, fun sig => ?_⟩
  · intro e
    have := (append_sep_inj (Base64.encode_no_dot _) (Base64.encode_no_dot _) e).1
    have := congrArg Base64.decode this
    rw [Base64.decode_encode, Base64.decode_encode] at this
    exact swappedHeader_ne D h (Option.some.inj this)
  · let a := Base64.encode (swappedHeader D h)
    let b := Base64.encode (Codec.payloadBytes D p)
    let c := Base64.encode sig
    let tb : Bytes := a ++ 46 :: b ++ 46 :: c
    have hasc : IsAscii tb := by
      intro x hx
      simp only [tb, List.mem_append, List.mem_cons] at hx
      rcases hx with (hx | rfl | hx) | rfl | hx
      · exact Base64.encode_ascii _ x hx
      · decide
      · exact Base64.encode_ascii _ x hx
      · decide
      · exact Base64.encode_ascii _ x hx
    refine ⟨asciiStr tb, ?_⟩
    rw [C03_acceptance, strBytes_asciiStr hasc]
    exact ⟨_, _, [], ⟨by simp [tb, a, b, c], Base64.encode_no_dot _, Base64.encode_no_dot _, Base64.encode_no_dot _, Or.inl rfl⟩,
      swappedHeader_decodes D h, Codec.payloadOfBytes_payloadBytes D p he, rfl⟩

end Foreign

open Foreign

/-- C83: in every chain built over a memory store, where the builder named `u` as an authority, the re-serialised text of `u` was written to the
store, and the proof used is not `u` as received but its content under the text that this library would have signed. -/
theorem C83_reference {D : Deps} (hD : ShortDigests D) {E : Env} {g : Nat} {l : Nat → List Op} (hE : Served D E g l) {nowTime : Option UInt64}
    {w w' : World} {c : Chain} (hc : Coherent w.parser) (h : Built D E nowTime w w' c) (d : Chain) (hd : Sub d c) (u : Ucan)
    (he : Codec.Encodable D u.payload)
    (hn : ∀ i b, Written g b (l i) → blockCid D b = blockCid D (strBytes (u.encode D)) → b = strBytes (u.encode D))
    (hs : reference D u 0x1e ∈ d.ucan.payload.prf.getD []) :
    (∃ i, Written g (strBytes (u.encode D)) (l i)) ∧
    ∃ e ∈ d.proofs, e.ucan = ⟨u.header, u.payload, Ucan.signingInput D u.header u.payload, u.signature⟩ := by
  obtain ⟨k, hk⟩ := List.mem_iff_getElem?.1 hs
  obtain ⟨hlen, _⟩ := C23_mirrors hc h d hd
  have hklt : k < d.proofs.length := by
    rw [hlen]
    exact (List.getElem?_eq_some_iff.1 hk).1
  obtain ⟨token, i, h1, h2, h3⟩ := C50_chain hE hc h d hd k _ d.proofs[k] hk (List.getElem?_eq_getElem hklt)
  have h1' : Cid.parse D (reference D u 0x1e) = some (blockCid D (strBytes (u.encode D))) := C56_round_trip D _ rfl (hD _ _)
  rw [h1'] at h1
  have ht := hn i _ h3 (Option.some.inj h1).symm
  rw [ht] at h3
  refine ⟨⟨i, h3⟩, d.proofs[k], List.getElem_mem hklt, ?_⟩
  rw [strBytes_inj ht, encode_parses D u he] at h2
  exact (Except.ok.inj h2).symm

/-- C83: so the issuer's key must accept the signature for a text that its owner never signed, unless they serialise as this library does. -/
theorem C83_must_verify {D : Deps} (hD : ShortDigests D) {E : Env} {g : Nat} {l : Nat → List Op} (hE : Served D E g l) {nowTime : Option UInt64}
    {w w' : World} {c : Chain} (hc : Coherent w.parser) (h : Built D E nowTime w w' c) (d : Chain) (hd : Sub d c) (u : Ucan)
    (he : Codec.Encodable D u.payload)
    (hn : ∀ i b, Written g b (l i) → blockCid D b = blockCid D (strBytes (u.encode D)) → b = strBytes (u.encode D))
    (hs : reference D u 0x1e ∈ d.ucan.payload.prf.getD []) :
    ∃ key, Denotes w.parser.ctors u.payload.iss key ∧ key.verify (Ucan.signingInput D u.header u.payload) u.signature = .ok () := by
  obtain ⟨_, e, hm, he'⟩ := C83_reference hD hE hc h d hd u he hn hs
  have hsub : Sub e c := by
    clear hs he' hn h
    induction hd with
    | self => exact .proof hm (.self e)
    | proof hx _ ih => exact .proof hx ih
  obtain ⟨key, h1, h2⟩ := (C21_all_valid hc h e hsub).authentic
  rw [he'] at h1 h2
  exact ⟨key, h1, h2⟩

/-- C83 (violated), for every signature scheme: a token whose signature is good only for the text received can be parsed and validated, but
no token that names it through the builder ever has a chain, at any depth, whatever is written to the store. -/
theorem C83_foreign_unusable {D : Deps} (hD : ShortDigests D) {E : Env} {g : Nat} {l : Nat → List Op} (hE : Served D E g l) {nowTime : Option UInt64}
    {w w' : World} {c : Chain} (hc : Coherent w.parser) (u : Ucan) (he : Codec.Encodable D u.payload)
    (hn : ∀ i b, Written g b (l i) → blockCid D b = blockCid D (strBytes (u.encode D)) → b = strBytes (u.encode D))
    (hv : ∀ key, Denotes w.parser.ctors u.payload.iss key → ∀ m, key.verify m u.signature = .ok () → m = u.signedData)
    (hf : u.signedData ≠ Ucan.signingInput D u.header u.payload) (d : Chain) (hd : Sub d c) (hs : reference D u 0x1e ∈ d.ucan.payload.prf.getD []) :
    ¬ Built D E nowTime w w' c := by
  intro h
  obtain ⟨key, h1, h2⟩ := C83_must_verify hD hE hc h d hd u he hn hs
  exact hf (hv key h1 _ h2).symm

/-- C83: hence a token made with the builder has no chain if a call named such a `u` as witness or as what to delegate from, without choosing another hash. -/
theorem C83_through_builder {D : Deps} (hD : ShortDigests D) {E : Env} {g : Nat} {l : Nat → List Op} (hE : Served D E g l) {nowTime : Option UInt64}
    {w w' : World} {c : Chain} (hc : Coherent w.parser) (u : Ucan) (he : Codec.Encodable D u.payload)
    (hn : ∀ i b, Written g b (l i) → blockCid D b = blockCid D (strBytes (u.encode D)) → b = strBytes (u.encode D))
    (hv : ∀ key, Denotes w.parser.ctors u.payload.iss key → ∀ m, key.verify m u.signature = .ok () → m = u.signedData)
    (hf : u.signedData ≠ Ucan.signingInput D u.header u.payload) (ctors : BMap Bytes KeyCtor) (calls : List Builder.Op) (hlen : calls.length < 2 ^ 64)
    (v : Ucan) (hs : SignedBy D ctors calls v) (hu : .witnessedBy u none ∈ calls ∨ .delegatingFrom u none ∈ calls) (hr : c.ucan = v) :
    ¬ Built D E nowTime w w' c := by
  refine C83_foreign_unusable hD hE hc u he hn hv hf c (.self c) ?_
  rw [hr, (EndToEnd.signed_payload hlen hs).1]
  rcases hu with h | h
  · exact List.mem_map.2 ⟨(u, 0x1e), List.mem_filterMap.2 ⟨_, h, rfl⟩, rfl⟩
  · exact List.mem_map.2 ⟨(u, 0x1e), List.mem_filterMap.2 ⟨_, h, rfl⟩, rfl⟩

/-- C83: the full claim is refuted. There is a token that parses and validates, and whose issuer's key accepts its signature for no other text, such
that every token that names it through the builder is without a chain, whatever memory store is used, if the hash does not
collide with the text written for it. -/
theorem C83_violated (D : Deps) (hD : ShortDigests D) : ∃ (w : World) (t : String) (u : Ucan), Coherent w.parser ∧ Ucan.fromStr D t = .ok u ∧
    (∀ t, (u.validate (stopped t) none w).1 = .ok ()) ∧ Codec.Encodable D u.payload ∧
    ∀ (E : Env) (g : Nat) (l : Nat → List Op), Served D E g l →
      (∀ i b, Written g b (l i) → blockCid D b = blockCid D (strBytes (u.encode D)) → b = strBytes (u.encode D)) →
      ∀ (nowTime : Option UInt64) (w' : World) (c : Chain), reference D u 0x1e ∈ c.ucan.payload.prf.getD [] → ¬ Built D E nowTime w w' c := by
  have hd : Denotes toyCtors (didOf [0xed, 1, 7]) (ed25519Key toyScheme (7 : UInt8) none) := denotes_didOf rfl rfl
  obtain ⟨m, hm, hsig⟩ := exists_foreign D ⟨"EdDSA", "JWT"⟩ foreignPayload (foreignPayload_encodable D)
  obtain ⟨t, ht⟩ := hsig (7 :: m)
  have hc : Coherent (⟨0, ⟨toyCtors, []⟩⟩ : World).parser := DidParser.coherent_fresh _
  refine ⟨⟨0, ⟨toyCtors, []⟩⟩, t, _, hc, ht, fun s => ?_, foreignPayload_encodable D, ?_⟩
  · rw [C12_validate_iff _ _ _ _ hc]
    refine ⟨?_, ?_, _, hd, toy_verifies 7 m⟩
    · intro e h; cases h
    · intro e h; cases h
  · intro E g l hE hn nowTime w' c hs
    refine C83_foreign_unusable hD hE hc _ (foreignPayload_encodable D) hn ?_ hm c (.self c) hs
    intro key hk x hx
    cases C40_denotes_unique _ _ _ _ hk hd
    have hx : (if decide ((7 : UInt8) :: m = 7 :: x) = true then _ else _) = _ := hx
    split at hx
    · rename_i e
      exact ((List.cons.inj (of_decide_eq_true e)).2).symm
    · cases hx

/-- C83 (partial): a UCAN whose signed text is the one this library writes for it is found, unchanged, under the reference that the builder makes, once
it has been written to a memory store. Missing: tokens serialised otherwise, see `C83_violated`. -/
theorem C83_own_partial (D : Deps) (hD : ShortDigests D) (m : Dags) (u : Ucan) (he : Codec.Encodable D u.payload)
    (hs : u.signedData = Ucan.signingInput D u.header u.payload) :
    Resolves D (fun c b => (writeToken D m (u.encode D)).2 c = some b) (reference D u 0x1e) u := by
  have := C63_default_resolves D hD m u (C01_round_trip_general D u he hs)
  unfold reference
  rw [Ucan.strBytes_encode]
  exact this

/-- C83: a foreign token can still be used if it is written as received and its proof list entry, instead of being made by the builder, is the CID that
writing returned. -/
theorem C83_received_partial (D : Deps) (hD : ShortDigests D) (m : Dags) (t : String) (u : Ucan) (ht : Ucan.fromStr D t = .ok u) (cid : Cid)
    (hw : (writeToken D m t).1 = .ok cid) : Resolves D (fun c b => (writeToken D m t).2 c = some b) cid.toStr u := by
  have e : cid = blockCid D (strBytes t) := (Except.ok.inj hw).symm
  subst e
  refine ⟨_, t, C56_round_trip D _ rfl (hD _ _), rfl, ?_, ht⟩
  show (if _ = _ then _ else _) = _
  rw [if_pos rfl]

/-- C83: that CID is the builder's reference only if the hash collides or the text is this library's own. -/
theorem C83_other_name (D : Deps) (m : Dags) (t : String) (u : Ucan) (cid : Cid) (hw : (writeToken D m t).1 = .ok cid) :
    cid = u.toCid D 0x1e ↔ D.digest 0x1e (strBytes t) = D.digest 0x1e (strBytes (u.encode D)) := by
  have e : cid = blockCid D (strBytes t) := (Except.ok.inj hw).symm
  subst e
  rw [Ucan.strBytes_encode]
  exact ⟨fun h => congrArg Cid.digest h, fun h => by
    show (⟨true, Cid.rawCodec, 0x1e, D.digest 0x1e (strBytes t)⟩ : Cid) = ⟨true, Cid.rawCodec, 0x1e, D.digest 0x1e (u.encodeBytes D)⟩
    rw [h]⟩

namespace Ex

/-- Beside C83: the fixture `handOn` names `leaf`, which this library serialised, and has a chain (`built2`); it meets the hypotheses of `C83_reference`. -/
example (D : Deps) (hD : ShortDigests D) (hn : blockCid D (strBytes ((handOn D).encode D)) ≠ blockCid D (strBytes ((leaf D).encode D))) :
    ∃ w', Built D (env2 D) none world w' (.mk (handOn D) [leafChain D] []) ∧
      reference D (leaf D) 0x1e ∈ (handOn D).payload.prf.getD [] ∧
      ∀ (i : Nat) b, Written 0 b ((fun _ => stored2 D) i) → blockCid D b = blockCid D (strBytes ((leaf D).encode D)) → b = strBytes ((leaf D).encode D) := by
  obtain ⟨w', h⟩ := built2 D hD hn
  refine ⟨w', h, ?_, ?_⟩
  · rw [reference_eq]
    exact List.mem_singleton_self _
  · intro i b hb e
    have hb : Written 0 b (stored2 D) := hb
    unfold stored2 at hb
    rcases written_two hb with h | h
    · rw [h] at e
      exact absurd e hn
    · exact h

end Ex
end Verif
