import Verif.Spec.Crash
import Verif.Props.Failure
import Verif.Props.Verify
import Verif.Props.Reduce
import Verif.Props.Clock

/-! # C109: what makes validation panic -/

namespace Verif
open Spec Failure

namespace Crash

theorem readSince_mono {E : Env} {lo lo' : Nat} (h : lo' ≤ lo) (c : Cid) (b : Bytes) : ReadSince E lo c b → ReadSince E lo' c b := by
  rintro ⟨i, hi, hr⟩; exact ⟨i, Nat.le_trans h hi, hr⟩

theorem reaches_mono {D : Deps} {F F' : Cid → Bytes → Prop} (h : ∀ c b, F c b → F' c b) {u v : Ucan} (hr : Reaches D F u v) : Reaches D F' u v := by
  induction hr with
  | self u => exact .self u
  | step hs hres _ ih => exact .step hs (Chain.Resolves.mono h hres) ih

theorem timely_mono {E : Env} {nowTime : Option UInt64} {lo lo' : Nat} (h : lo' ≤ lo) {u : Ucan} (ht : TimelySince E nowTime lo u) :
    TimelySince E nowTime lo' u := by
  obtain ⟨⟨i, hi, h1⟩, ⟨j, hj, h2⟩⟩ := ht
  exact ⟨⟨i, Nat.le_trans h hi, h1⟩, ⟨j, Nat.le_trans h hj, h2⟩⟩

/-- The culprit of a crash. -/
def Culprit (D : Deps) (E : Env) (nowTime : Option UInt64) (lo : Nat) (u : Ucan) : Prop :=
  ∃ v, Reaches D (ReadSince E lo) u v ∧ Stub v.payload.iss ∧ TimelySince E nowTime lo v

theorem culprit_mono {D : Deps} {E : Env} {nowTime : Option UInt64} {lo lo' : Nat} (h : lo' ≤ lo) {u : Ucan} :
    Culprit D E nowTime lo u → Culprit D E nowTime lo' u := by
  rintro ⟨v, h1, h2, h3⟩
  exact ⟨v, reaches_mono (readSince_mono h) h1, h2, timely_mono h h3⟩

theorem did_panics {ctors : BMap Bytes KeyCtor} (hk : Careful ctors) {did : String} {q : Panic} :
    DidFault ctors did (.panic q) ↔ q = .sliceDid ∧ Stub did := by
  constructor
  · intro h
    cases h with
    | short b h1 h2 => exact ⟨rfl, b, h2, h1⟩
    | refused b0 b1 r c f h1 h2 h3 => exact absurd h3 (hk.construct _ _ h2 _ _)
  · rintro ⟨rfl, b, h2, h1⟩
    exact .short b h1 h2

end Crash
open Crash

/-- C109: a UCAN makes validation panic exactly if its lifetime passes and its issuer is a stub, whatever it is signed with. -/
theorem C109_validate (E : Env) (u : Ucan) (nowTime : Option UInt64) (w : World) (hc : Coherent w.parser) (hk : Careful w.parser.ctors) (q : Panic) :
    (u.validate E nowTime w).1 = .error (.panic q) ↔ q = .sliceDid ∧ Stub u.payload.iss ∧
      Unexpired u (nowTime.getD (E.clock w.tick)) ∧ Active u (E.clock (w.tick + expiryReads u nowTime)) := by
  obtain ⟨b, hb⟩ := (C10_total E u nowTime w).1
  have hb' : u.isExpired E nowTime w = (.ok b, (u.isExpired E nowTime w).2) := by rw [← hb]
  obtain ⟨hp1, ht1, he⟩ := isExpired_false hb'
  unfold Ucan.validate
  rw [M.bind_of_ok hb', ← he]
  change _ = w.tick + expiryReads u nowTime at ht1
  cases b with
  | true => simp [err]
  | false =>
    obtain ⟨c, hcc⟩ := (C10_total E u nowTime (u.isExpired E nowTime w).2).2
    have hc' : u.isTooEarly E (u.isExpired E nowTime w).2 = (.ok c, (u.isTooEarly E (u.isExpired E nowTime w).2).2) := by rw [← hcc]
    obtain ⟨hp2, ht2, hcl⟩ := isTooEarly_false hc'
    simp only [Bool.false_eq_true, if_false]
    rw [M.bind_of_ok hc', ← ht1, ← hcl]
    cases c with
    | true => simp [err]
    | false =>
      simp only [Bool.false_eq_true, if_false, and_true]
      have hpp : (u.isTooEarly E (u.isExpired E nowTime w).2).2.parser = w.parser := hp2.trans hp1
      rw [checkSignature_error u _ (by rw [hpp]; exact hc), hpp, did_panics hk]
      constructor
      · rintro (h | ⟨key, ⟨b0, b1, r, ctor, _, h2, h3⟩, hv⟩)
        · exact h
        · exact absurd hv (hk.verify _ _ h2 _ _ h3 _ _ _)
      · exact Or.inl

namespace Crash

theorem redelLoop_no_panic (n : Nat) (q : Panic) (vs : List (View ProofSelection ProofAction)) :
    ∀ acc, Chain.redelLoop n acc vs ≠ .error (.panic q) := by
  induction vs with
  | nil => intro acc h; cases h
  | cons v vs ih =>
    intro acc h
    rw [Chain.redelLoop] at h
    cases hs : Chain.redelStep n acc v with
    | ok a => rw [hs] at h; exact ih a h
    | error e =>
      rw [hs] at h
      cases h
      unfold Chain.redelStep at hs
      split at hs
      · cases hs
      · split at hs <;> cases hs
      · cases hs

theorem link_no_panic (u v : Ucan) (q : Panic) : Chain.validateLink u v ≠ .error (.panic q) := by
  intro h
  unfold Chain.validateLink at h
  split at h
  · split at h <;> cases h
  · cases h

theorem requireToken_no_panic {E : Env} (hE : CarefulStore E) (c : Cid) (w : World) (q : Panic) : (Store.requireToken E c w).1 ≠ .error (.panic q) := by
  rw [Chain.requireToken_eq]
  split
  · intro h; cases h
  · intro h
    cases hr : E.read w.tick c with
    | error e =>
      rw [hr] at h
      cases h
      exact hE _ _ _ hr
    | ok r =>
      rw [hr] at h
      simp only at h
      unfold Store.tokenOf at h
      split at h
      · rename_i b
        cases hb : bytesStr? b with
        | none => rw [hb] at h; cases h
        | some s => rw [hb] at h; cases h
      · cases h

theorem orErr_no_panic {α : Type} (e : Err) (x : Option α) (q : Panic) : orErr e x ≠ .error (.panic q) := by
  intro h; cases x <;> cases h

theorem loop_panics {D : Deps} {E : Env} {nowTime : Option UInt64} (hE : CarefulStore E) {rec : String → M Chain} {ctors : BMap Bytes KeyCtor}
    (hkeep : ∀ t w r w', Coherent w.parser → rec t w = (r, w') → Chain.Keeps w w')
    (hrec : ∀ t w q, Coherent w.parser → w.parser.ctors = ctors → (rec t w).1 = .error (.panic q) →
      q = .sliceDid ∧ ∃ v, Ucan.fromStr D t = .ok v ∧ Culprit D E nowTime w.tick v) (u : Ucan) (ss : List String) :
    ∀ (w : World) (q : Panic), Coherent w.parser → w.parser.ctors = ctors → (Chain.proofsLoop D E rec u ss w).1 = .error (.panic q) →
      q = .sliceDid ∧ ∃ s v, s ∈ ss ∧ Resolves D (ReadSince E w.tick) s v ∧ Culprit D E nowTime w.tick v := by
  induction ss with
  | nil => intro w q _ _ h; cases h
  | cons s ss ih =>
    intro w q hc hct h
    unfold Chain.proofsLoop at h
    rcases bind_error_iff.1 h with h | ⟨cid, w1, h1, h⟩
    · exact absurd h (orErr_no_panic _ _ _)
    simp only [M.lift_apply, Prod.mk.injEq] at h1
    obtain ⟨hcid, rfl⟩ := h1
    rcases bind_error_iff.1 h with h | ⟨tok, w2, h2, h⟩
    · exact absurd h (requireToken_no_panic hE _ _ _)
    have k2 := Chain.requireToken_keeps hc h2
    obtain ⟨hcd, hr, _⟩ := Chain.requireToken_ok h2
    rcases bind_error_iff.1 h with h | ⟨c, w3, h3, h⟩
    · obtain ⟨hq, v, hv, hcul⟩ := hrec tok w2 q k2.coherent (k2.ctors.trans hct) h
      exact ⟨hq, s, v, by simp, ⟨cid, tok, orErr_eq_ok.1 hcid, hcd, ⟨w.tick, Nat.le_refl _, hr⟩, hv⟩, culprit_mono k2.tick hcul⟩
    have k3 := hkeep _ _ _ _ k2.coherent h3
    rcases bind_error_iff.1 h with h | ⟨_, w4, h4, h⟩
    · exact absurd h (link_no_panic _ _ _)
    simp only [M.lift_apply, Prod.mk.injEq] at h4
    obtain ⟨_, rfl⟩ := h4
    rcases bind_error_iff.1 h with h | ⟨cs, w5, h5, h⟩
    · obtain ⟨hq, s', v, hs', hres, hcul⟩ := ih w3 q k3.coherent (k3.ctors.trans (k2.ctors.trans hct)) h
      have ht : w.tick ≤ w3.tick := Nat.le_trans k2.tick k3.tick
      exact ⟨hq, s', v, List.mem_cons_of_mem _ hs', Chain.Resolves.mono (readSince_mono ht) hres, culprit_mono ht hcul⟩
    · cases h

theorem with_panics {D : Deps} {E : Env} {nowTime : Option UInt64} (hE : CarefulStore E) {rec : String → M Chain} {ctors : BMap Bytes KeyCtor}
    (hk : Careful ctors) (hkeep : ∀ t w r w', Coherent w.parser → rec t w = (r, w') → Chain.Keeps w w')
    (hrec : ∀ t w q, Coherent w.parser → w.parser.ctors = ctors → (rec t w).1 = .error (.panic q) →
      q = .sliceDid ∧ ∃ v, Ucan.fromStr D t = .ok v ∧ Culprit D E nowTime w.tick v) (u : Ucan) (w : World) (q : Panic) (hc : Coherent w.parser)
    (hct : w.parser.ctors = ctors) (h : (Chain.fromUcanWith D E nowTime rec u w).1 = .error (.panic q)) :
    q = .sliceDid ∧ Culprit D E nowTime w.tick u := by
  unfold Chain.fromUcanWith at h
  rcases bind_error_iff.1 h with h | ⟨_, w1, h1, h⟩
  · obtain ⟨hq, hs, hu, ha⟩ := (C109_validate E u nowTime w hc (hct ▸ hk) q).1 h
    exact ⟨hq, u, .self u, hs, ⟨w.tick, Nat.le_refl _, hu⟩, ⟨_, Nat.le_add_right _ _, ha⟩⟩
  obtain ⟨k1, k1', k1''⟩ := validate_world hc h1
  rcases bind_error_iff.1 h with h | ⟨cs, w2, h2, h⟩
  · obtain ⟨hq, s, v, hs, hres, x, hx, hst, htm⟩ := loop_panics hE hkeep hrec u _ w1 q k1 (k1'.trans hct) h
    refine ⟨hq, x, .step hs (Chain.Resolves.mono (readSince_mono k1'') hres) (reaches_mono (readSince_mono k1'') hx), hst, timely_mono k1'' htm⟩
  rcases bind_error_iff.1 h with h | ⟨r, w3, h3, h⟩
  · exact absurd h (redelLoop_no_panic _ _ _ _)
  · cases h

theorem token_panics {D : Deps} {E : Env} {nowTime : Option UInt64} (hE : CarefulStore E) {ctors : BMap Bytes KeyCtor} (hk : Careful ctors) (fuel : Nat) :
    ∀ t w q, Coherent w.parser → w.parser.ctors = ctors → (Chain.ofToken D E nowTime fuel t w).1 = .error (.panic q) →
      q = .sliceDid ∧ ∃ v, Ucan.fromStr D t = .ok v ∧ Culprit D E nowTime w.tick v := by
  induction fuel with
  | zero => intro t w q _ _ h; cases h
  | succ fuel ih =>
    intro t w q hc hct h
    unfold Chain.ofToken at h
    rcases bind_error_iff.1 h with h | ⟨u, w1, h1, h⟩
    · obtain ⟨e, he, _⟩ := (text_iff D t _).1 h
      cases he
    simp only [M.lift_apply, Prod.mk.injEq] at h1
    obtain ⟨hu, rfl⟩ := h1
    obtain ⟨hq, hcul⟩ := with_panics hE hk (Chain.ofToken_keeps D E nowTime fuel) ih u w q hc hct h
    exact ⟨hq, u, hu, hcul⟩

end Crash

/-- C109: whatever the clock and the store do, if neither the store nor a key panics, then building a chain panics only on a stub issuer:
the issuer of the token or of one that was fetched below it. -/
theorem C109_cause (D : Deps) (E : Env) (nowTime : Option UInt64) (fuel : Nat) (w : World) (hc : Coherent w.parser) (hk : Careful w.parser.ctors)
    (hE : CarefulStore E) (q : Panic) :
    (∀ t, (Chain.ofToken D E nowTime fuel t w).1 = .error (.panic q) → q = .sliceDid ∧ ∃ u v, Ucan.fromStr D t = .ok u ∧
      Reaches D (ReadSince E w.tick) u v ∧ Stub v.payload.iss ∧ TimelySince E nowTime w.tick v) ∧
    (∀ u, (Chain.fromUcan D E nowTime fuel u w).1 = .error (.panic q) → q = .sliceDid ∧ ∃ v,
      Reaches D (ReadSince E w.tick) u v ∧ Stub v.payload.iss ∧ TimelySince E nowTime w.tick v) ∧
    (∀ cid, (Chain.fromCid D E nowTime fuel cid w).1 = .error (.panic q) → q = .sliceDid ∧ ∃ t u v, ReadSince E w.tick cid (strBytes t) ∧
      Ucan.fromStr D t = .ok u ∧ Reaches D (ReadSince E w.tick) u v ∧ Stub v.payload.iss ∧ TimelySince E nowTime w.tick v) := by
  refine ⟨fun t h => ?_, fun u h => ?_, fun cid h => ?_⟩
  · obtain ⟨hq, u, hu, v, hv⟩ := token_panics hE hk fuel t w q hc rfl h
    exact ⟨hq, u, v, hu, hv⟩
  · exact with_panics hE hk (Chain.ofToken_keeps D E nowTime fuel) (token_panics hE hk fuel) u w q hc rfl h
  · unfold Chain.fromCid at h
    rcases bind_error_iff.1 h with h | ⟨tok, w1, h1, h⟩
    · exact absurd h (requireToken_no_panic hE _ _ _)
    have k1 := Chain.requireToken_keeps hc h1
    obtain ⟨_, hr, _⟩ := Chain.requireToken_ok h1
    obtain ⟨hq, u, hu, hcul⟩ := token_panics hE hk fuel tok w1 q k1.coherent k1.ctors h
    obtain ⟨v, hv⟩ := culprit_mono k1.tick hcul
    exact ⟨hq, tok, u, v, ⟨w.tick, Nat.le_refl _, hr⟩, hu, hv⟩

/-- C109: with a clock that can fail there is one more panic, on reading it. -/
theorem C109_clock (D : Deps) (clk : Clock) (E E' : Env) (hcl : Completes clk E E') (nowTime : Option UInt64) (fuel : Nat) (w : World)
    (hc : Coherent w.parser) (hk : Careful w.parser.ctors) (hE : CarefulStore E') (t : String) (q : Panic)
    (h : (Chain.ofTokenBy clk D E nowTime fuel t w).1 = .error (.panic q)) : q = .unwrapNow ∨ q = .sliceDid ∧ ∃ u v, Ucan.fromStr D t = .ok u ∧
      Reaches D (ReadSince E' w.tick) u v ∧ Stub v.payload.iss ∧ TimelySince E' nowTime w.tick v := by
  rcases (C101_chain D clk E E' hcl nowTime fuel w).2.1 t with h' | h'
  · rw [h'] at h; cases h; exact Or.inl rfl
  · rw [h'] at h
    exact Or.inr ((C109_cause D E' nowTime fuel w hc hk hE q).1 t h)

/-- C109, the part that holds: a service with keys of the three kinds and a store that does not panic survives every token below which there
is no stub issuer, in building the chain and in reporting its capabilities. Missing: tokens with a stub issuer (`C109_crash`). -/
theorem C109_survives_partial {S A : Type} (D : Deps) (E : Env) (nowTime : Option UInt64) (fuel : Nat) (w : World) (hc : Coherent w.parser)
    (ed p256 rsa : SigScheme) (hstd : Standard ed p256 rsa w.parser.ctors) (hE : CarefulStore E) (t : String)
    (hstub : ∀ u v, Ucan.fromStr D t = .ok u → Reaches D (ReadSince E w.tick) u v → ¬ Stub v.payload.iss) (q : Panic) :
    (Chain.ofToken D E nowTime fuel t w).1 ≠ .error (.panic q) ∧
    ∀ c w', Chain.ofToken D E nowTime fuel t w = (.ok c, w') → ∀ sem : Semantics S A, Reduce.reduce D sem c ≠ .error (.panic q) := by
  have hk : Careful w.parser.ctors := by
    constructor
    · intro m c hm b q
      rcases hstd.only m c hm with rfl | rfl | rfl
      · rw [hstd.ed25519] at hm; cases hm; unfold KeySupport.ed25519Ctor; split <;> simp [err]
      · rw [hstd.p256] at hm; cases hm; unfold KeySupport.p256Ctor; split <;> simp [err]
      · rw [hstd.rsa] at hm; cases hm; unfold KeySupport.rsaCtor; split <;> simp [err]
    · intro m c hm b key hb x s q
      rcases hstd.only m c hm with rfl | rfl | rfl
      · rw [hstd.ed25519] at hm; cases hm
        unfold KeySupport.ed25519Ctor at hb
        split at hb
        · cases hb; exact (C86_no_panic ed _ none x s q _ (.inl rfl)).1
        · cases hb
      · rw [hstd.p256] at hm; cases hm
        unfold KeySupport.p256Ctor at hb
        split at hb
        · cases hb; exact (C86_no_panic p256 _ none x s q _ (.inr (.inl rfl))).1
        · cases hb
      · rw [hstd.rsa] at hm; cases hm
        unfold KeySupport.rsaCtor at hb
        split at hb
        · cases hb; exact (C86_no_panic rsa _ none x s q _ (.inr (.inr rfl))).1
        · cases hb
  constructor
  · intro h
    obtain ⟨_, u, v, hu, hr, hs, _⟩ := (C109_cause D E nowTime fuel w hc hk hE q).1 t h
    exact hstub u v hu hr hs
  · intro c w' h sem hp
    obtain ⟨out, ho⟩ := C27_no_panic D E nowTime w w' c hc (.ofToken fuel t h) sem
    rw [ho] at hp; cases hp

namespace Ex

/-- A UCAN of the shortest `did:key` there is, unsigned, without lifetime, claims or proofs. -/
def stub (D : Deps) : Ucan :=
  ⟨⟨"", ""⟩, ⟨"", "did:key:z", "", none, none, none, [], none, none⟩,
    Ucan.signingInput D ⟨"", ""⟩ ⟨"", "did:key:z", "", none, none, none, [], none, none⟩, []⟩

theorem stub_parses (D : Deps) : Ucan.fromStr D ((stub D).encode D) = .ok (stub D) := by
  refine C01_round_trip_general D _ ⟨by simp [stub, BMap.Sorted], by simp [stub], by simp [stub], by simp [stub], ?_⟩ rfl
  have := Codec.depth_payload (n := 10) (stub D).payload (by simp [stub]) (by omega) (by simp [stub])
  simp only [Json.depthLimit]
  omega

theorem stub_stub (D : Deps) : Stub (stub D).payload.iss := ⟨[], by simp, show strBytes "did:key:z" = strBytes "did:key:z" ++ Base58.encode [] by decide +kernel⟩

end Ex

theorem Ex.stub_crashes (D : Deps) (E : Env) (nowTime : Option UInt64) (fuel : Nat) (w : World) (hc : Coherent w.parser) :
    (Chain.ofToken D E nowTime (fuel + 1) ((Ex.stub D).encode D) w).1 = .error (.panic .sliceDid) := by
  rw [Chain.ofToken]
  refine bind_error_iff.2 (Or.inr ⟨Ex.stub D, w, by rw [M.lift_apply, Ex.stub_parses], ?_⟩)
  refine bind_error_iff.2 (Or.inl ?_)
  have he : (Ex.stub D).isExpired E nowTime w = (.ok false, w) := rfl
  have hn : (Ex.stub D).isTooEarly E w = (.ok false, w) := rfl
  unfold Ucan.validate
  rw [M.bind_of_ok he]
  simp only [Bool.false_eq_true, if_false]
  rw [M.bind_of_ok hn]
  simp only [Bool.false_eq_true, if_false]
  obtain ⟨b, hb, e⟩ := Ex.stub_stub D
  exact (checkSignature_error _ _ hc _).2 (Or.inl (.short b e hb))

/-- C109 fails: there is one text, signed by nobody, that crashes every service it is presented to, whatever the clock, the store, the keys
and the tokens seen before, and every service that meets it as the first proof of a valid token. -/
theorem C109_crash (D : Deps) : ∃ t : String, ∀ (E : Env) (nowTime : Option UInt64) (fuel : Nat) (w : World), Coherent w.parser →
    (Chain.ofToken D E nowTime (fuel + 1) t w).1 = .error (.panic .sliceDid) ∧
    ∀ (u : Ucan) (w1 : World) (s : String) (ss : List String) (cid : Cid), u.validate E nowTime w = (.ok (), w1) → u.payload.prf = some (s :: ss) →
      Cid.parse D s = some cid → cid.codec = 0x55 → E.read w1.tick cid = .ok (some (.bytes (strBytes t))) →
      (Chain.fromUcan D E nowTime (fuel + 1) u w).1 = .error (.panic .sliceDid) := by
  refine ⟨(Ex.stub D).encode D, fun E nowTime fuel w hc => ⟨Ex.stub_crashes D E nowTime fuel w hc, ?_⟩⟩
  intro u w1 s ss cid hv hp hs hcd hr
  refine bind_error_iff.2 (Or.inr ⟨(), w1, hv, bind_error_iff.2 (Or.inl ?_)⟩)
  have hc1 := (validate_world hc hv).1
  show (Chain.proofsLoop D E _ u (u.payload.prf.getD []) w1).1 = _
  rw [hp]
  show (Chain.proofsLoop D E _ u (s :: ss) w1).1 = _
  rw [Chain.proofsLoop]
  refine bind_error_iff.2 (Or.inr ⟨cid, w1, by rw [M.lift_apply, hs]; rfl, ?_⟩)
  refine bind_error_iff.2 (Or.inr ⟨_, _, Chain.requireToken_of_read hcd hr, ?_⟩)
  exact bind_error_iff.2 (Or.inl (Ex.stub_crashes D E nowTime fuel _ hc1))

/-- The hypotheses of C109 can be met: the keys of the examples are careful. -/
example : Careful exCtors := by
  constructor
  · intro m c hm b q h
    simp only [exCtors, BMap.get?] at hm
    split at hm
    · cases hm; cases h
    · cases hm
  · intro m c hm b key hb x s q h
    simp only [exCtors, BMap.get?] at hm
    split at hm
    · cases hm; cases hb
      simp only [exKey] at h
      split at h <;> cases h
    · cases hm

/-- A genuine token without proofs has no stub below it. -/
example (D : Deps) (E : Env) : ∀ v, Reaches D (ReadSince E 0) (Ex.ucan D 1 "x" none none none []) v → ¬ Stub v.payload.iss := by
  intro v hr hst
  cases hr with
  | self =>
    obtain ⟨b, hb, e⟩ := hst
    have : Base58.encode [0xed, 1, 1] = Base58.encode b := by
      have h2 : strBytes (Ex.ucan D 1 "x" none none none []).payload.iss = strBytes "did:key:z" ++ Base58.encode [0xed, 1, 1] := by
        show strBytes ("did:key:z" ++ _) = _
        rw [strBytes_append, strBytes_asciiStr (Base58.encode_ascii _)]
      rw [h2] at e
      exact List.append_cancel_left e
    have := congrArg Base58.decode this
    rw [Base58.decode_encode, Base58.decode_encode] at this
    cases this
    simp at hb
  | step hs => simp [Ex.ucan, Ex.payload] at hs

end Verif
