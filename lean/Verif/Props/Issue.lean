import Verif.Spec.Issue
import Verif.Props.EndToEnd
import Verif.Props.ChainExamples

/-! # C113 Tokens without an end; C114 Tokens that their authorities do not support -/

namespace Verif
open Spec Chain
open Builder (Op)

namespace Issue

theorem lastCall_none {α : Type} {f : Op → Option α} {ops : List Op} : lastCall f ops = none ↔ ∀ op ∈ ops, f op = none := by
  unfold lastCall
  rw [List.getLast?_eq_none_iff, List.filterMap_eq_nil_iff]

theorem no_end {ops : List Op} : ¬ SaysEnd ops ↔ lastCall expirationCall ops = none ∧ lastCall lifetimeCall ops = none := by
  rw [lastCall_none, lastCall_none]
  constructor
  · intro h
    refine ⟨fun op ho => ?_, fun op ho => ?_⟩
    · cases op <;> first | rfl | exact absurd (Or.inl ⟨_, ho⟩) h
    · cases op <;> first | rfl | exact absurd (Or.inr ⟨_, ho⟩) h
  · rintro ⟨h1, h2⟩ (⟨t, ht⟩ | ⟨s, hs⟩)
    · cases h1 _ ht
    · cases h2 _ hs

theorem no_begin {ops : List Op} (h : ¬ SaysBegin ops) : lastCall notBeforeCall ops = none := by
  rw [lastCall_none]
  intro op ho
  cases op <;> first | rfl | exact absurd ⟨_, ho⟩ h

theorem names_iff {ops : List Op} {p : Ucan} {hasher : UInt64} : CitedFor ops p hasher ↔ (p, hasher) ∈ ops.filterMap proofCall := by
  rw [List.mem_filterMap]
  constructor
  · rintro ⟨h, rfl, ho | ho⟩
    · exact ⟨_, ho, rfl⟩
    · exact ⟨_, ho, rfl⟩
  · rintro ⟨op, ho, e⟩
    cases op <;> cases e
    · exact ⟨_, rfl, .inl ho⟩
    · exact ⟨_, rfl, .inr ho⟩

/-- What the bounds of a signed token come from. -/
theorem signed_bounds {D : Deps} {ctors : BMap Bytes KeyCtor} {ops : List Op} {u : Ucan} (hl : ops.length < 2 ^ 64) (h : SignedBy D ctors ops u) :
    (u.payload.exp = none ↔ ¬ SaysEnd ops) ∧ u.payload.nbf = lastCall notBeforeCall ops := by
  obtain ⟨E, checked, w, w', s, rnd, key, hb, hs, _⟩ := h
  obtain ⟨_, _, _, h4, _, _, _, h8⟩ := C51_built D E checked ops hl w w' s hb
  obtain ⟨_, _, _, p4, p5, _⟩ := C54_payload D s rnd u hs
  rw [p5, h4, no_end, p4, h8]
  refine ⟨?_, rfl⟩
  cases lastCall expirationCall ops <;> cases lastCall lifetimeCall ops <;> simp

end Issue
open Issue

/-! ## C113 -/

/-- C113 is violated: calls that do not say when the UCAN is to end are as good as calls that do; `build` returns a UCAN without expiry. -/
theorem C113_builds (D : Deps) (E : Env) (checked : Bool) (ops : List Op) (hl : ops.length < 2 ^ 64) (w : World) (k : Key) (a : String)
    (hk : lastCall issuerCall ops = some k) (ha : lastCall audienceCall ops = some a) (he : ¬ SaysEnd ops) :
    ∃ s, (Builder.run D ops).build E checked w = (.ok s, w) ∧ s.issuer = k ∧ s.audience = a ∧ s.expiration = none := by
  have hst := C51_state D ops hl
  obtain ⟨h1, h2⟩ := no_end.1 he
  rw [Builder.build_eq (hst.issuer.trans hk) (hst.audience.trans ha),
    M.bind_of_ok (Builder.impliedExpiration_none (hst.expiration.trans h1) (hst.lifetime.trans h2) w)]
  exact ⟨_, rfl, rfl, rfl, rfl⟩

/-- C113 is violated: signed, it is accepted at every time, by itself and, if it has no authorities and redelegates none, as a chain. -/
theorem C113_forever (D : Deps) (ops : List Op) (hl : ops.length < 2 ^ 64) (u : Ucan) (w : World) (hc : Coherent w.parser)
    (h : SignedBy D w.parser.ctors ops u) (he : ¬ SaysEnd ops) (hb : ¬ SaysBegin ops) (E : Env) (nowTime : Option UInt64) :
    (u.validate E nowTime w).1 = .ok () ∧
    ((∀ p h, ¬ CitedFor ops p h) → (∀ c i, OwnClaim c ops → ¬ Redelegates D c i) →
      ∃ fuel, (ofToken D E nowTime fuel (u.encode D) w).1 = .ok (.mk u [] [])) := by
  obtain ⟨h1, h2⟩ := signed_bounds hl h
  have h1 := h1.2 he
  rw [no_begin hb] at h2
  obtain ⟨hprf, hcap, hparse, hauth⟩ := EndToEnd.signed_payload hl h
  have hv : ∀ v : World, Coherent v.parser → v.parser.ctors = w.parser.ctors → (u.validate E nowTime v).1 = .ok () := by
    intro v hv hk
    rw [C12_validate_iff E u nowTime v hv]
    refine ⟨?_, ?_, hk ▸ hauth⟩
    · intro e he; rw [h1] at he; cases he
    · intro n hn; rw [h2] at hn; cases hn
  refine ⟨hv w hc rfl, fun hno hre => ?_⟩
  have hps : ops.filterMap proofCall = [] := by
    rw [List.eq_nil_iff_forall_not_mem]
    rintro ⟨p, x⟩ hp
    exact hno p x (names_iff.2 hp)
  have hsound : Sound D (fun x => x = u) (fun _ _ => False) (.mk u [] []) := by
    simp only [Sound, SoundAll]
    refine ⟨trivial, ?_, by simp [BSet.Sorted], fun i => ⟨fun h => (by cases h), ?_⟩, by simp⟩
    · rw [hprf]; unfold references; rw [hps]; rfl
    · rintro ⟨c, hc, hr⟩
      have hst := (C51_state D ops hl).capabilities
      have := C53_claims D ops hl c (by rw [hst]; exact hcap.mem_iff.1 hc)
      rcases this with ⟨j, _, hj⟩ | ho
      · rw [(C51_state D ops hl).proofs] at hj
        unfold references at hj
        rw [hps] at hj
        cases hj
      · exact absurd hr (hre c i ho)
  obtain ⟨w', hw⟩ := ofToken_complete (E := E) (nowTime := nowTime) (ctors := w.parser.ctors) (lo := 0)
    ⟨fun x v hv' hk _ hx => by subst hx; exact ⟨_, Prod.ext (hv v hv' hk) rfl⟩, fun _ _ _ _ hf => hf.elim⟩ 1 (u.encode D) w (.mk u [] []) hc rfl
    (Nat.zero_le _) (Nat.le_refl _) hparse hsound
  exact ⟨1, congrArg Prod.fst hw⟩

/-- C113 (partial), what holds: a UCAN has an expiry exactly if the calls say when it is to end, and then no chain with it is built from a clock
that is past the expiry, nor for a time that is. -/
theorem C113_ends_partial (D : Deps) (ctors : BMap Bytes KeyCtor) (ops : List Op) (hl : ops.length < 2 ^ 64) (u : Ucan) (h : SignedBy D ctors ops u) :
    (SaysEnd ops ↔ ∃ e, u.payload.exp = some e) ∧
    ∀ e, u.payload.exp = some e → ∀ E nowTime w w' c d, Coherent w.parser → Built D E nowTime w w' c → Sub d c → d.ucan = u →
      (∀ t, nowTime = some t → t ≤ e) ∧ (nowTime = none → ∃ i, E.clock i ≤ e) := by
  have h1 := (signed_bounds hl h).1
  constructor
  · constructor
    · intro hs
      cases hx : u.payload.exp with
      | none => exact absurd hs (h1.1 hx)
      | some e => exact ⟨e, rfl⟩
    · rintro ⟨e, he⟩
      refine Classical.byContradiction fun hn => ?_
      rw [h1.2 hn] at he
      cases he
  · intro e he E nowTime w w' c d hc hb hd hu
    have hv := (C21_all_valid hc hb d hd).unexpired e (by rw [hu]; exact he)
    cases nowTime with
    | none => obtain ⟨i, _, _, hi⟩ := hv; exact ⟨by simp, fun _ => ⟨i, hi⟩⟩
    | some t => exact ⟨fun t' ht => (by cases ht; exact hv), by simp⟩

/-! ## C114 -/

/-- C114 is violated: whether `build` succeeds does not depend on the authorities that were named, so nothing about them is checked. -/
theorem C114_unchecked (D : Deps) (E : Env) (checked : Bool) (pre post : List Op) (p : Ucan) (h : Option UInt64) (op : Op)
    (hop : op = .witnessedBy p h ∨ op = .delegatingFrom p h) (hl : (pre ++ op :: post).length < 2 ^ 64) (w w' : World) (s : Signable)
    (hb : (Builder.run D (pre ++ post)).build E checked w = (.ok s, w')) :
    ∃ s', (Builder.run D (pre ++ op :: post)).build E checked w = (.ok s', w') ∧ s'.issuer = s.issuer ∧ s'.audience = s.audience ∧
      s'.expiration = s.expiration ∧ s'.notBefore = s.notBefore := by
  have hl' : (pre ++ post).length < 2 ^ 64 := by simp only [List.length_append, List.length_cons] at hl ⊢; omega
  have hst := C51_state D _ hl
  have hst' := C51_state D _ hl'
  have hlast : ∀ {α : Type} (f : Op → Option α), f op = none → lastCall f (pre ++ op :: post) = lastCall f (pre ++ post) := by
    intro α f hf
    unfold lastCall
    rw [List.filterMap_append, List.filterMap_append, List.filterMap_cons_none hf]
  obtain ⟨k, a, e, hk, ha, he, rfl⟩ := Builder.build_ok hb
  have hx : ∀ {α : Type} (f : Op → Option α), f (.witnessedBy p h) = none → f (.delegatingFrom p h) = none → f op = none := by
    intro α f h1 h2
    rcases hop with rfl | rfl
    · exact h1
    · exact h2
  have he' : (Builder.run D (pre ++ op :: post)).impliedExpiration E checked w = (.ok e, w') := by
    unfold Builder.impliedExpiration at he ⊢
    rw [hst.expiration, hst.lifetime, hlast expirationCall (hx _ rfl rfl), hlast lifetimeCall (hx _ rfl rfl), ← hst'.expiration, ← hst'.lifetime]
    exact he
  rw [Builder.build_eq (k := k) (a := a) (hst.issuer.trans ((hlast issuerCall (hx _ rfl rfl)).trans (hst'.issuer.symm.trans hk)))
    (hst.audience.trans ((hlast audienceCall (hx _ rfl rfl)).trans (hst'.audience.symm.trans ha))), M.bind_of_ok he']
  exact ⟨_, rfl, rfl, rfl, rfl, hst.notBefore.trans ((hlast notBeforeCall (hx _ rfl rfl)).trans hst'.notBefore.symm)⟩

/-- C114 (partial), what holds: a chain is built of a token only if every authority that was named for it delegates to it, unless the store answers
something else for the authority. So the tokens that should not have been issued are refused, always and everywhere. -/
theorem C114_refused_partial (D : Deps) (hD : ShortDigests D) (ctors : BMap Bytes KeyCtor) (ops : List Op) (hl : ops.length < 2 ^ 64) (u : Ucan)
    (h : SignedBy D ctors ops u) (p : Ucan) (hasher : UInt64) (hp : CitedFor ops p hasher) (hr : Ucan.fromStr D (p.encode D) = .ok p) (E : Env)
    (hE : AnswersTruly D E p hasher) (nowTime : Option UInt64) (w w' : World) (hc : Coherent w.parser) (c d : Chain) (hb : Built D E nowTime w w' c)
    (hd : Sub d c) (hu : d.ucan = u) : Delegates p u := by
  have hs := Sound.sub hd (built_sound hc hb)
  obtain ⟨_, hall, _⟩ := Sound.all hs
  obtain ⟨hlen, hent⟩ := SoundAll.entry hall
  have hprf := (EndToEnd.signed_payload hl h).1
  rw [hu, hprf] at hlen hent
  obtain ⟨k, hk⟩ := List.mem_iff_getElem?.1 (names_iff.1 hp)
  have hk' : (references D ops)[k]? = some (reference D p hasher) := by
    unfold references
    rw [List.getElem?_map, hk]
    rfl
  have hlt : k < d.proofs.length := by
    rw [hlen]
    exact (List.getElem?_eq_some_iff.1 hk').1
  have hres := hent k _ _ hk' (List.getElem?_eq_getElem hlt)
  have hdel := (SoundAll.mem hall _ (List.getElem_mem hlt)).1
  obtain ⟨cid, token, h1, _, ⟨i, _, _, h3⟩, h4⟩ := hres
  have h1' : Cid.parse D (reference D p hasher) = _ := C56_round_trip D _ rfl (hD _ _)
  rw [h1'] at h1
  cases h1
  have := strBytes_inj (hE i _ h3)
  subst this
  rw [hr] at h4
  cases h4
  rw [← hu]
  exact hdel

/-- C114 (partial): in particular, a token that was given no end is never accepted if one of its authorities has one. -/
theorem C114_endless_partial (D : Deps) (hD : ShortDigests D) (ctors : BMap Bytes KeyCtor) (ops : List Op) (hl : ops.length < 2 ^ 64) (u : Ucan)
    (h : SignedBy D ctors ops u) (he : ¬ SaysEnd ops) (p : Ucan) (hasher : UInt64) (hp : CitedFor ops p hasher)
    (hr : Ucan.fromStr D (p.encode D) = .ok p) (e : UInt64) (hpe : p.payload.exp = some e) (E : Env) (hE : AnswersTruly D E p hasher)
    (nowTime : Option UInt64) (w w' : World) (hc : Coherent w.parser) (c d : Chain) (hb : Built D E nowTime w w' c) (hd : Sub d c) : d.ucan ≠ u := by
  intro hu
  obtain ⟨f, hf, _⟩ := (C114_refused_partial D hD ctors ops hl u h p hasher hp hr E hE nowTime w w' hc c d hb hd hu).ends e hpe
  rw [((signed_bounds hl h).1).2 he] at hf
  cases hf

namespace Ex

/-- A grant for which no end was asked. -/
def endlessCalls (k : Key) (b : String) (c : Capability) : List Op := [.issuedBy k, .forAudience b, .claimingCapability c]

/-- Handing on without asking for an end. -/
def carelessCalls (k : Key) (z : String) (p : Ucan) : List Op := [.issuedBy k, .forAudience z, .delegatingFrom p none]

/-- Beside C113: such a grant is signed, and accepted in the year 1970 as at the end of time. -/
theorem endless (D : Deps) : ∃ u, SignedBy D toyCtors (endlessCalls (toyKey 1) "did:key:zB" ⟨"mailto:a@b", "msg/send", .obj []⟩) u ∧
    ∀ t : UInt64, ∃ fuel, (ofToken D (still (fun _ => none) t) none fuel (u.encode D) ⟨0, ⟨toyCtors, []⟩⟩).1 = .ok (.mk u [] []) := by
  have hne : ¬ SaysEnd (endlessCalls (toyKey 1) "did:key:zB" ⟨"mailto:a@b", "msg/send", .obj []⟩) := by
    rintro (⟨t, h⟩ | ⟨t, h⟩) <;> simp [endlessCalls] at h
  have hA : SignedBy D toyCtors (endlessCalls (toyKey 1) "did:key:zB" ⟨"mailto:a@b", "msg/send", .obj []⟩) _ :=
    toy_signed D 1 _ _ _ ⟨fun _ => 0, fun _ _ => .ok none⟩ ⟨0, ⟨[], []⟩⟩ ⟨0, ⟨[], []⟩⟩ rfl rfl rfl
      (plain_ok D _ rfl (by intro c hc; cases List.mem_singleton.1 hc; rfl))
  refine ⟨_, hA, fun t => ?_⟩
  refine (C113_forever D _ (by simp [endlessCalls]) _ ⟨0, ⟨toyCtors, []⟩⟩ (DidParser.coherent_fresh _) hA hne ?_ _ none).2 ?_ ?_
  · rintro ⟨t, h⟩; simp [endlessCalls] at h
  · rintro p h ⟨x, _, h | h⟩ <;> simp [endlessCalls] at h
  · rintro c i (h | ⟨l, h, _⟩) hr
    · simp [endlessCalls] at h
      subst h
      exact mail_not_redelegating D i hr
    · simp [endlessCalls] at h

end Ex

/-- C114 is violated: there is a token with an end, and one that is built and signed with it as its authority, and is accepted at no time whatever, by
no service whose store answers truly. -/
theorem C114_violated (D : Deps) (hD : ShortDigests D) : ∃ uA uB, (∃ a opsA, SignedBy D toyCtors opsA uA ∧ uA.payload.aud = a ∧ uB.payload.iss = a) ∧
    (∃ opsB, SignedBy D toyCtors opsB uB ∧ CitedFor opsB uA 0x1e) ∧
    ∀ E nowTime w w' c, AnswersTruly D E uA 0x1e → Coherent w.parser → Built D E nowTime w w' c → c.ucan ≠ uB := by
  obtain ⟨dB, _, hdB, _⟩ := Ex.toy_denotes 2
  have hA : ∃ u, SignedBy D toyCtors (grantCalls (Ex.toyKey 1) dB 20 ⟨"mailto:a@b", "msg/send", .obj []⟩) u :=
    ⟨_, Ex.toy_signed D 1 _ _ _ ⟨fun _ => 0, fun _ _ => .ok none⟩ ⟨0, ⟨[], []⟩⟩ ⟨0, ⟨[], []⟩⟩ rfl rfl rfl
      (Ex.plain_ok D _ rfl (by intro c hc; cases List.mem_singleton.1 hc; rfl))⟩
  obtain ⟨uA, hA⟩ := hA
  have hlA : (grantCalls (Ex.toyKey 1) dB 20 ⟨"mailto:a@b", "msg/send", .obj []⟩).length < 2 ^ 64 := by simp [grantCalls]
  obtain ⟨_, f2, f3, _⟩ := EndToEnd.signed_fields hlA hA (k := Ex.toyKey 1) rfl (a := dB) rfl (e := 20) rfl
  have hlB : (Ex.carelessCalls (Ex.toyKey 2) "did:key:z3" uA).length < 2 ^ 64 := by simp [Ex.carelessCalls]
  have hne : ¬ SaysEnd (Ex.carelessCalls (Ex.toyKey 2) "did:key:z3" uA) := by
    rintro (⟨t, h⟩ | ⟨t, h⟩) <;> simp [Ex.carelessCalls] at h
  have hB : ∃ u, SignedBy D toyCtors (Ex.carelessCalls (Ex.toyKey 2) "did:key:z3" uA) u ∧ u.payload.iss = dB := by
    have hst := C51_state D (Ex.carelessCalls (Ex.toyKey 2) "did:key:z3" uA) hlB
    have hcap : (Builder.run D (Ex.carelessCalls (Ex.toyKey 2) "did:key:z3" uA)).capabilities = [delegation 0] := hst.capabilities
    have hb : (Builder.run D (Ex.carelessCalls (Ex.toyKey 2) "did:key:z3" uA)).build ⟨fun _ => 0, fun _ _ => .ok none⟩ true ⟨0, ⟨[], []⟩⟩ =
        (.ok ⟨Ex.toyKey 2, "did:key:z3", [delegation 0], none, none, [], references D (Ex.carelessCalls (Ex.toyKey 2) "did:key:z3" uA), false⟩, ⟨0, ⟨[], []⟩⟩) := by
      rw [Builder.build_eq (k := Ex.toyKey 2) (a := "did:key:z3") hst.issuer hst.audience,
        M.bind_of_ok (Builder.impliedExpiration_none hst.expiration hst.lifetime _), hcap, hst.notBefore, hst.facts, hst.proofs, hst.addNonce]
      rfl
    have hs := Ex.toy_signed D 2 _ _ _ _ _ _ hb rfl rfl (Ex.plain_ok D _ rfl (by intro c hc; cases List.mem_singleton.1 hc; rfl))
    refine ⟨_, hs, ?_⟩
    have : (Ex.toyKey 2).did = .ok _ := hdB
    cases hdB
    rfl
  obtain ⟨uB, hB, hiss⟩ := hB
  have hn : CitedFor (Ex.carelessCalls (Ex.toyKey 2) "did:key:z3" uA) uA 0x1e := ⟨none, rfl, .inr (by simp [Ex.carelessCalls])⟩
  refine ⟨uA, uB, ⟨dB, _, hA, f2, hiss⟩, ⟨_, hB, hn⟩, fun E nowTime w w' c hE hc hb => ?_⟩
  exact C114_endless_partial D hD toyCtors _ hlB uB hB hne uA 0x1e hn (EndToEnd.signed_payload hlA hA).2.2.1 20 f3 E hE nowTime w w' hc c c hb (.self c)

end Verif
