import Verif.Spec.Addressee
import Verif.Props.Issue

/-! # C122: whoever a token is issued to can use it -/

namespace Verif
open Spec Chain
open Builder (Op)

namespace Addressee

/-- The digits of base58 are letters and figures. -/
theorem no_hash (b : Bytes) : (35 : UInt8) ∉ Base58.encode b := by
  intro h
  unfold Base58.encode at h
  rcases List.mem_append.1 h with h | h
  · exact absurd (List.eq_of_mem_replicate h) (by decide)
  · obtain ⟨n, _, hn⟩ := List.mem_map.1 h
    unfold Base58.digitChar at hn
    rw [List.getD_eq_getElem?_getD] at hn
    cases hg : Base58.alphabet[n]? with
    | none => rw [hg] at hn; exact absurd hn (by decide)
    | some x =>
      rw [hg] at hn
      have hx := List.mem_of_getElem? hg
      rw [show x = 35 from hn] at hx
      exact absurd hx (by decide)

end Addressee
open Addressee

/-- C122 is violated: any text will do as the audience; with an issuer, the calls build a UCAN addressed to it. -/
theorem C122_builds (D : Deps) (E : Env) (checked : Bool) (ops : List Op) (hl : ops.length + 1 < 2 ^ 64) (w : World) (k : Key)
    (hk : lastCall issuerCall ops = some k)
    (ht : ∀ s, lastCall expirationCall ops = none → lastCall lifetimeCall ops = some s → (E.clock w.tick).toNat + s.toNat < 2 ^ 64) (a : String) :
    ∃ s w', (Builder.run D (ops ++ [.forAudience a])).build E checked w = (.ok s, w') ∧ s.issuer = k ∧ s.audience = a := by
  have hl' : (ops ++ [Op.forAudience a]).length < 2 ^ 64 := by simpa using hl
  have e1 : lastCall issuerCall (ops ++ [.forAudience a]) = some k := by rw [lastCall_append, hk]; rfl
  have e2 : lastCall audienceCall (ops ++ [.forAudience a]) = some a := by rw [lastCall_append]; rfl
  have e3 : lastCall expirationCall (ops ++ [.forAudience a]) = lastCall expirationCall ops := by rw [lastCall_append]; rfl
  have e4 : lastCall lifetimeCall (ops ++ [.forAudience a]) = lastCall lifetimeCall ops := by rw [lastCall_append]; rfl
  obtain ⟨s, hs⟩ := (C51_build_iff D E checked _ hl' w (by rw [e3, e4]; exact ht)).2 ⟨by rw [e1]; rfl, by rw [e2]; rfl⟩
  obtain ⟨h1, h2, _⟩ := C51_built D E checked _ hl' w _ s (Prod.ext hs rfl)
  rw [e1] at h1
  rw [e2] at h2
  exact ⟨s, _, Prod.ext hs rfl, (Option.some.inj h1).symm, (Option.some.inj h2).symm⟩

/-- C122 is violated: and where the issuer's key signs whatever it is given, it is signed if it would be for another audience. -/
theorem C122_signs (D : Deps) (s : Signable) (hk : ∀ b, ∃ sig, s.issuer.sign b = .ok sig) (rnd : Bytes) (u : Ucan) (h : s.sign D rnd = .ok u) (a : String) :
    ∃ v, ({ s with audience := a } : Signable).sign D rnd = .ok v ∧ v.payload = { u.payload with aud := a } := by
  unfold Signable.sign Signable.ucanPayload at h ⊢
  dsimp only at h ⊢
  cases hd : s.issuer.did with
  | error e => rw [hd] at h; cases e <;> cases h
  | ok iss =>
    cases hc : Capabilities.ofVec s.capabilities with
    | error e => rw [hd] at h; simp only [hc] at h; cases e <;> cases h
    | ok cap =>
      rw [hd] at h
      simp only [hc] at h ⊢
      obtain ⟨sig, hs⟩ := hk (Ucan.signingInput D ({ s with audience := a } : Signable).ucanHeader
        ⟨ucanVersion, iss, a, s.expiration, s.notBefore, s.nonce rnd, cap, if s.facts.isEmpty then none else some s.facts,
          if s.proofs.isEmpty then none else some s.proofs⟩)
      split at h
      · cases h
      · rename_i sig' hs'
        cases h
        exact ⟨_, by erw [hs], rfl⟩

/-- C122 is violated: nothing can be delegated with it; no accepted chain has a proof whose audience names no party. -/
theorem C122_useless {D : Deps} {E : Env} {nowTime : Option UInt64} {w w' : World} {c : Chain} (hc : Coherent w.parser) (h : Built D E nowTime w w' c)
    (u : Ucan) (hu : ¬ NamesParty w.parser.ctors u.payload.aud) (d e : Chain) (hd : Sub d c) (he : e ∈ d.proofs) : e.ucan ≠ u := by
  rintro rfl
  obtain ⟨key, hk, _⟩ := (C21_all_valid hc h d hd).authentic
  rw [← (C22_links hc h d e hd he).1] at hk
  exact hu ⟨key, hk⟩

/-- C122: DIDs of other methods, and texts that go on after a DID as DID URLs do, name no party. -/
theorem C122_nobody (ctors : BMap Bytes KeyCtor) (a : String) :
    (¬ strBytes "did:key:z" <+: strBytes a → ¬ NamesParty ctors a) ∧ ∀ f, ¬ NamesParty ctors (a ++ "#" ++ f) := by
  refine ⟨fun hp => ?_, fun f => ?_⟩
  · rintro ⟨key, b0, b1, rest, ctor, hs, _⟩
    exact hp (hs ▸ List.prefix_append _ _)
  · rintro ⟨key, b0, b1, rest, ctor, hs, _⟩
    have hm : (35 : UInt8) ∈ strBytes (a ++ "#" ++ f) := by
      rw [strBytes_append, strBytes_append]
      exact List.mem_append_left _ (List.mem_append_right _ (by decide +kernel))
    rw [hs] at hm
    rcases List.mem_append.1 hm with h | h
    · exact absurd h (by decide +kernel)
    · exact no_hash _ h

/-- C122 (partial), what holds: the audience of every proof in an accepted chain names a party, which signed the UCAN that is proved. -/
theorem C122_usable_partial {D : Deps} {E : Env} {nowTime : Option UInt64} {w w' : World} {c : Chain} (hc : Coherent w.parser)
    (h : Built D E nowTime w w' c) (d e : Chain) (hd : Sub d c) (he : e ∈ d.proofs) :
    ∃ key, Denotes w.parser.ctors e.ucan.payload.aud key ∧ key.verify d.ucan.signedData d.ucan.signature = .ok () := by
  obtain ⟨key, hk, hv⟩ := (C21_all_valid hc h d hd).authentic
  rw [← (C22_links hc h d e hd he).1] at hk
  exact ⟨key, hk, hv⟩

/-- C122 is violated: whatever the text, there is a token addressed to it that is signed, and accepted when presented, at any time. -/
theorem C122_violated (D : Deps) (a : String) : ∃ u, u.payload.aud = a ∧
    SignedBy D toyCtors (Ex.endlessCalls (Ex.toyKey 1) a ⟨"mailto:a@b", "msg/send", .obj []⟩) u ∧
    ∀ t : UInt64, ∃ fuel, (ofToken D (still (fun _ => none) t) none fuel (u.encode D) ⟨0, ⟨toyCtors, []⟩⟩).1 = .ok (.mk u [] []) := by
  have hne : ¬ SaysEnd (Ex.endlessCalls (Ex.toyKey 1) a ⟨"mailto:a@b", "msg/send", .obj []⟩) := by
    rintro (⟨t, h⟩ | ⟨t, h⟩) <;> simp [Ex.endlessCalls] at h
  have hA : SignedBy D toyCtors (Ex.endlessCalls (Ex.toyKey 1) a ⟨"mailto:a@b", "msg/send", .obj []⟩) _ :=
    Ex.toy_signed D 1 _ _ _ ⟨fun _ => 0, fun _ _ => .ok none⟩ ⟨0, ⟨[], []⟩⟩ ⟨0, ⟨[], []⟩⟩ rfl rfl rfl
      (Ex.plain_ok D _ rfl (by intro c hc; cases List.mem_singleton.1 hc; rfl))
  refine ⟨_, rfl, hA, fun t => ?_⟩
  refine (C113_forever D _ (by simp [Ex.endlessCalls]) _ ⟨0, ⟨toyCtors, []⟩⟩ (DidParser.coherent_fresh _) hA hne ?_ _ none).2 ?_ ?_
  · rintro ⟨t, h⟩; simp [Ex.endlessCalls] at h
  · rintro p h ⟨x, _, h | h⟩ <;> simp [Ex.endlessCalls] at h
  · rintro c i (h | ⟨l, h, _⟩) hr
    · simp [Ex.endlessCalls] at h
      subst h
      exact Ex.mail_not_redelegating D i hr
    · simp [Ex.endlessCalls] at h

/-- Beside C122: texts that name no party, whatever is supported, so that `C122_useless` applies to the tokens of `C122_violated` for them. -/
example (ctors : BMap Bytes KeyCtor) : ¬ NamesParty ctors "did:web:example.com" ∧ ¬ NamesParty ctors "" ∧
    ¬ NamesParty ctors ("did:key:z6MkszRWe" ++ "#" ++ "z6MkszRWe") :=
  ⟨(C122_nobody ctors _).1 (by rw [← List.isPrefixOf_iff_prefix]; decide +kernel),
    (C122_nobody ctors _).1 (by rw [← List.isPrefixOf_iff_prefix]; decide +kernel), (C122_nobody ctors "did:key:z6MkszRWe").2 _⟩

/-- Beside C122: a text that does, and calls with an issuer (hypothesis of `C122_builds`). -/
example : (∃ did, NamesParty toyCtors did) ∧ lastCall issuerCall [.issuedBy (Ex.toyKey 1), .withNonce] = some (Ex.toyKey 1) := by
  obtain ⟨did, key, _, h, _⟩ := Ex.toy_denotes 1
  exact ⟨⟨did, key, h⟩, rfl⟩

end Verif
