import Verif.Spec.Empty
import Verif.Props.Issue

/-! # C118 Tokens that end before they begin -/

namespace Verif
open Spec Chain
open Builder (Op)
open Issue

/-- C118 is violated: the builder builds UCANs that end before they begin, whatever the calls besides. -/
theorem C118_builds (D : Deps) (E : Env) (checked : Bool) (ops : List Op) (hl : ops.length < 2 ^ 64) (w : World) (k : Key) (a : String) (e n : UInt64)
    (hk : lastCall issuerCall ops = some k) (ha : lastCall audienceCall ops = some a) (he : AsksEmpty ops e n) :
    (∃ s, (Builder.run D ops).build E checked w = (.ok s, w) ∧ s.issuer = k ∧ s.audience = a ∧ s.expiration = some e ∧ s.notBefore = some n) ∧
    ∀ ctors u, SignedBy D ctors ops u → EmptyLifetime u := by
  have hst := C51_state D ops hl
  constructor
  · rw [Builder.build_eq (hst.issuer.trans hk) (hst.audience.trans ha), M.bind_of_ok (Builder.impliedExpiration_explicit (hst.expiration.trans he.1) w)]
    exact ⟨_, rfl, rfl, rfl, rfl, hst.notBefore.trans he.2.1⟩
  · rintro ctors u ⟨E', checked', w1, w2, s, rnd, key, hb, hs, _⟩
    obtain ⟨_, _, _, h4, _, _, _, h8⟩ := C51_built D E' checked' ops hl w1 w2 s hb
    obtain ⟨_, _, _, p4, p5, _⟩ := C54_payload D s rnd u hs
    refine ⟨e, n, ?_, ?_, he.2.2⟩
    · rw [p4, h8, he.1]; rfl
    · rw [p5, h4, he.2.1]

/-- C118 is violated: signed, such a token is accepted for any supplied time up to its end, from the moment of its beginning on, for ever; by itself and, if it
has no authorities and redelegates none, as a chain. -/
theorem C118_accepted (D : Deps) (ops : List Op) (hl : ops.length < 2 ^ 64) (u : Ucan) (w : World) (hc : Coherent w.parser)
    (h : SignedBy D w.parser.ctors ops u) (e n t : UInt64) (he : u.payload.exp = some e) (hn : u.payload.nbf = some n) (ht : t ≤ e) (E : Env)
    (hE : ∀ i, n ≤ E.clock i) :
    (u.validate E (some t) w).1 = .ok () ∧
    ((∀ p h, ¬ CitedFor ops p h) → (∀ c i, OwnClaim c ops → ¬ Redelegates D c i) →
      ∃ fuel, (ofToken D E (some t) fuel (u.encode D) w).1 = .ok (.mk u [] [])) := by
  obtain ⟨hprf, hcap, hparse, hauth⟩ := EndToEnd.signed_payload hl h
  have hv : ∀ v : World, Coherent v.parser → v.parser.ctors = w.parser.ctors → (u.validate E (some t) v).1 = .ok () := by
    intro v hv hk
    rw [C12_validate_iff E u (some t) v hv]
    refine ⟨?_, ?_, hk ▸ hauth⟩
    · intro e' he'; rw [he] at he'; cases he'; exact ht
    · intro n' hn'; rw [hn] at hn'; cases hn'; exact hE _
  refine ⟨hv w hc rfl, fun hno hre => ?_⟩
  have hps : ops.filterMap proofCall = [] := by
    rw [List.eq_nil_iff_forall_not_mem]
    rintro ⟨p, x⟩ hp
    exact hno p x (names_iff.2 hp)
  have hsound : Sound D (fun x => x = u) (fun _ _ => False) (.mk u [] []) := by
    simp only [Sound, SoundAll]
    refine ⟨trivial, ?_, by simp [BSet.Sorted], fun i => ⟨fun h => (by cases h), ?_⟩, by simp⟩
    · rw [hprf]; unfold references; rw [hps]; rfl
    · rintro ⟨c, hc, hr⟩
      have hst := (C51_state D ops hl).capabilities
      have := C53_claims D ops hl c (by rw [hst]; exact hcap.mem_iff.1 hc)
      rcases this with ⟨j, _, hj⟩ | ho
      · rw [(C51_state D ops hl).proofs] at hj
        unfold references at hj
        rw [hps] at hj
        cases hj
      · exact absurd hr (hre c i ho)
  obtain ⟨w', hw⟩ := ofToken_complete (E := E) (nowTime := some t) (ctors := w.parser.ctors) (lo := 0)
    ⟨fun x v hv' hk _ hx => by subst hx; exact ⟨_, Prod.ext (hv v hv' hk) rfl⟩, fun _ _ _ _ hf => hf.elim⟩ 1 (u.encode D) w (.mk u [] []) hc rfl
    (Nat.zero_le _) (Nat.le_refl _) hparse hsound
  exact ⟨1, congrArg Prod.fst hw⟩

/-- C118 (partial), what holds: where no time is supplied, a token that ends before it begins is in no accepted chain, unless the clock advances during the
validation from its end or before to its beginning or after. Missing from the full statement: supplied times, such clocks, and the builder. -/
theorem C118_refused_partial {D : Deps} {E : Env} {w w' : World} {c : Chain} (hc : Coherent w.parser) (hb : Built D E none w w' c) (d : Chain) (hd : Sub d c)
    (e n : UInt64) (he : d.ucan.payload.exp = some e) (hn : d.ucan.payload.nbf = some n) (hlt : e < n) :
    ∃ i j, w.tick ≤ i ∧ i < w'.tick ∧ w.tick ≤ j ∧ j < w'.tick ∧ E.clock i ≤ e ∧ n ≤ E.clock j ∧ E.clock i < E.clock j := by
  have hv := C21_all_valid hc hb d hd
  obtain ⟨i, hi1, hi2, hi⟩ := hv.unexpired e he
  obtain ⟨j, hj1, hj2, hj⟩ := hv.active n hn
  exact ⟨i, j, hi1, hi2, hj1, hj2, hi, hj, UInt64.lt_of_le_of_lt hi (UInt64.lt_of_lt_of_le hlt hj)⟩

/-- C118 (partial): so never by a clock that stands still. -/
theorem C118_still_partial {D : Deps} {E : Env} {w w' : World} {c : Chain} (hc : Coherent w.parser) (t : UInt64) (ht : ClockFixed E t) (hb : Built D E none w w' c)
    (d : Chain) (hd : Sub d c) : ¬ EmptyLifetime d.ucan := by
  rintro ⟨e, n, he, hn, hlt⟩
  obtain ⟨i, j, _, _, _, _, _, _, h⟩ := C118_refused_partial hc hb d hd e n he hn hlt
  rw [ht, ht] at h
  exact absurd h (UInt64.lt_irrefl _)

/-- Beside C118: a grant from 30 to 20, accepted in the year 2100 (and ever after) for the time 15. -/
def Ex.backwardCalls (k : Key) (b : String) (c : Capability) : List Op := [.issuedBy k, .forAudience b, .withExpiration 20, .notBefore 30, .claimingCapability c]

theorem C118_violated (D : Deps) : ∃ (ops : List Op) (u : Ucan), SignedBy D toyCtors ops u ∧ EmptyLifetime u ∧
    ∀ t : UInt64, 30 ≤ t → ∃ fuel, (ofToken D (still (fun _ => none) t) (some 15) fuel (u.encode D) ⟨0, ⟨toyCtors, []⟩⟩).1 = .ok (.mk u [] []) := by
  have hl : (Ex.backwardCalls (Ex.toyKey 1) "did:key:zB" ⟨"mailto:a@b", "msg/send", .obj []⟩).length < 2 ^ 64 := by simp [Ex.backwardCalls]
  have hA : SignedBy D toyCtors (Ex.backwardCalls (Ex.toyKey 1) "did:key:zB" ⟨"mailto:a@b", "msg/send", .obj []⟩) _ :=
    Ex.toy_signed D 1 _ _ _ ⟨fun _ => 0, fun _ _ => .ok none⟩ ⟨0, ⟨[], []⟩⟩ ⟨0, ⟨[], []⟩⟩ rfl rfl rfl
      (Ex.plain_ok D _ rfl (by intro c hc; cases List.mem_singleton.1 hc; rfl))
  have hem := (C118_builds D ⟨fun _ => 0, fun _ _ => .ok none⟩ true _ hl ⟨0, ⟨[], []⟩⟩ (Ex.toyKey 1) "did:key:zB" 20 30 rfl rfl ⟨rfl, rfl, by decide⟩).2 _ _ hA
  refine ⟨_, _, hA, hem, fun t ht => ?_⟩
  refine (C118_accepted D _ hl _ ⟨0, ⟨toyCtors, []⟩⟩ (DidParser.coherent_fresh _) hA 20 30 15 rfl rfl (by decide) _ (fun _ => ht)).2 ?_ ?_
  · rintro p h ⟨x, _, h | h⟩ <;> simp [Ex.backwardCalls] at h
  · rintro c i (h | ⟨l, h, _⟩) hr
    · simp [Ex.backwardCalls] at h
      subst h
      exact Ex.mail_not_redelegating D i hr
    · simp [Ex.backwardCalls] at h

end Verif
