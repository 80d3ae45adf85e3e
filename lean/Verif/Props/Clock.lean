import Verif.Model.Clock
import Verif.Props.Chain
import Verif.Props.ChainExamples

/-! # Property C101: clocks that cannot be read -/

namespace Verif
open Spec Chain

/-- The steady clock shows what the other one shows whenever that one can be read, and the stores are the same. -/
def Spec.Completes (clk : Clock) (E E' : Env) : Prop := (∀ i t, clk i = some t → E'.clock i = t) ∧ E'.read = E.read

/-- No reading is possible. -/
def Spec.Dead (clk : Clock) : Prop := ∀ i, clk i = none

namespace ClockProps

/-- Either the clock could not be read, or both do the same. -/
def Sim {α : Type} (x y : M α) : Prop := ∀ w, (x w).1 = panicked .unwrapNow ∨ x w = y w

theorem Sim.refl {α : Type} (x : M α) : Sim x x := fun _ => Or.inr rfl

theorem Sim.bind {α β : Type} {x y : M α} {f g : α → M β} (h : Sim x y) (hf : ∀ a, Sim (f a) (g a)) : Sim (x >>= f) (y >>= g) := by
  intro w
  show (M.bind x f w).1 = _ ∨ M.bind x f w = M.bind y g w
  unfold M.bind
  rcases h w with h | h
  · left
    rcases hx : x w with ⟨r, w1⟩
    rw [hx] at h
    simp only at h
    subst h
    rfl
  · rw [← h]
    rcases x w with ⟨r, w1⟩
    cases r with
    | error e => exact Or.inr rfl
    | ok a => exact hf a w1

theorem sim_now {clk : Clock} {E E' : Env} (h : Completes clk E E') : Sim clk.now E'.now := by
  intro w
  unfold Clock.now Env.now
  cases hc : clk w.tick with
  | none => exact Or.inl rfl
  | some t =>
    right
    rw [h.1 _ _ hc]

theorem sim_validate {clk : Clock} {E E' : Env} (h : Completes clk E E') (u : Ucan) (nowTime : Option UInt64) :
    Sim (u.validateBy clk nowTime) (u.validate E' nowTime) := by
  unfold Ucan.validateBy Ucan.validate
  apply Sim.bind
  · unfold Ucan.isExpiredBy Ucan.isExpired
    cases u.payload.exp with
    | none => exact Sim.refl _
    | some e =>
      cases nowTime with
      | some t => exact Sim.refl _
      | none => exact Sim.bind (sim_now h) fun _ => Sim.refl _
  · intro b
    cases b with
    | true => exact Sim.refl _
    | false =>
      apply Sim.bind
      · unfold Ucan.isTooEarlyBy Ucan.isTooEarly
        cases u.payload.nbf with
        | none => exact Sim.refl _
        | some e => exact Sim.bind (sim_now h) fun _ => Sim.refl _
      · intro b
        exact Sim.refl _

theorem readM_eq {E E' : Env} (h : E'.read = E.read) (c : Cid) : Store.requireToken E c = Store.requireToken E' c := by
  unfold Store.requireToken Store.readToken Env.readM
  rw [h]

theorem sim_proofs {clk : Clock} {D : Deps} {E E' : Env} (h : Completes clk E E') {rec rec' : String → M Chain} (hr : ∀ t, Sim (rec t) (rec' t)) (u : Ucan) :
    ∀ ss, Sim (proofsLoop D E rec u ss) (proofsLoop D E' rec' u ss)
  | [] => Sim.refl _
  | s :: ss => by
    unfold proofsLoop
    refine Sim.bind (Sim.refl _) fun cid => ?_
    rw [readM_eq h.2]
    exact Sim.bind (Sim.refl _) fun token => Sim.bind (hr token) fun c => Sim.bind (Sim.refl _) fun _ =>
      Sim.bind (sim_proofs h hr u ss) fun _ => Sim.refl _

theorem sim_with {clk : Clock} {D : Deps} {E E' : Env} (h : Completes clk E E') (nowTime : Option UInt64) {rec rec' : String → M Chain}
    (hr : ∀ t, Sim (rec t) (rec' t)) (u : Ucan) : Sim (fromUcanWithBy clk D E nowTime rec u) (fromUcanWith D E' nowTime rec' u) := by
  unfold fromUcanWithBy fromUcanWith
  exact Sim.bind (sim_validate h u nowTime) fun _ => Sim.bind (sim_proofs h hr u _) fun _ => Sim.refl _

theorem sim_token {clk : Clock} {D : Deps} {E E' : Env} (h : Completes clk E E') (nowTime : Option UInt64) :
    ∀ (fuel : Nat) (t : String), Sim (ofTokenBy clk D E nowTime fuel t) (ofToken D E' nowTime fuel t)
  | 0, _ => Sim.refl _
  | fuel + 1, t => by
    unfold ofTokenBy ofToken
    exact Sim.bind (Sim.refl _) fun u => sim_with h nowTime (sim_token h nowTime fuel) u

theorem sim_build {clk : Clock} {E E' : Env} (h : Completes clk E E') (checked : Bool) (b : Builder) : Sim (b.buildBy clk checked) (b.build E' checked) := by
  unfold Builder.buildBy Builder.build
  cases b.issuer with
  | none => exact Sim.refl _
  | some k =>
    cases b.audience with
    | none => exact Sim.refl _
    | some a =>
      refine Sim.bind ?_ fun _ => Sim.refl _
      unfold Builder.impliedExpirationBy Builder.impliedExpiration
      cases b.expiration with
      | some e => exact Sim.refl _
      | none =>
        cases b.lifetime with
        | none => exact Sim.refl _
        | some l => exact Sim.bind (sim_now h) fun _ => Sim.refl _

/-- Needs no clock, given the time or not. -/
def Timeless (nowTime : Option UInt64) (u : Ucan) : Prop := u.payload.nbf = none ∧ ∀ e, u.payload.exp = some e → ∃ n, nowTime = some n ∧ n ≤ e

theorem now_dead {clk : Clock} (hd : Dead clk) (w : World) : clk.now w = (panicked .unwrapNow, { w with tick := w.tick + 1 }) := by
  unfold Clock.now
  rw [hd]

theorem expired_dead {clk : Clock} (hd : Dead clk) (u : Ucan) (nowTime : Option UInt64) (w w1 : World) (b : Bool)
    (h : u.isExpiredBy clk nowTime w = (.ok b, w1)) : (∀ e, u.payload.exp = some e → ∃ n, nowTime = some n ∧ b = decide (e < n)) ∧ (u.payload.exp = none → b = false) := by
  unfold Ucan.isExpiredBy at h
  cases he : u.payload.exp with
  | none =>
    rw [he] at h
    cases h
    exact ⟨fun e h => (nomatch h), fun _ => rfl⟩
  | some e =>
    rw [he] at h
    cases nowTime with
    | some n =>
      cases h
      exact ⟨fun e' h => by cases h; exact ⟨n, rfl, rfl⟩, fun h => (nomatch h)⟩
    | none =>
      obtain ⟨t, w2, h1, _⟩ := M.bind_ok.1 h
      rw [now_dead hd] at h1
      cases h1

theorem valid_timeless {clk : Clock} (hd : Dead clk) (u : Ucan) (nowTime : Option UInt64) (w w1 : World) (h : u.validateBy clk nowTime w = (.ok (), w1)) :
    Timeless nowTime u := by
  unfold Ucan.validateBy at h
  obtain ⟨b, w2, h1, h⟩ := M.bind_ok.1 h
  obtain ⟨h2, _⟩ := expired_dead hd u nowTime w w2 b h1
  cases b with
  | true => cases h
  | false =>
    obtain ⟨b, w3, h3, _⟩ := M.bind_ok.1 h
    constructor
    · unfold Ucan.isTooEarlyBy at h3
      cases hn : u.payload.nbf with
      | none => rfl
      | some n =>
        rw [hn] at h3
        obtain ⟨t, w2, h1, _⟩ := M.bind_ok.1 h3
        rw [now_dead hd] at h1
        cases h1
    · intro e he
      obtain ⟨n, hn, hb⟩ := h2 e he
      exact ⟨n, hn, UInt64.not_lt.1 (of_decide_eq_false hb.symm)⟩

theorem proofs_all {D : Deps} {E : Env} {rec : String → M Chain} {u : Ucan} {P : Chain → Prop} (hrec : ∀ t w c w', rec t w = (.ok c, w') → P c) :
    ∀ (ss : List String) (w w' : World) (cs : List Chain), proofsLoop D E rec u ss w = (.ok cs, w') → ∀ c ∈ cs, P c
  | [], _, _, _, h => by cases h; exact fun c hc => nomatch hc
  | s :: ss, w, w', cs, h => by
    unfold proofsLoop at h
    obtain ⟨_, w1, _, h⟩ := M.bind_ok.1 h
    obtain ⟨_, w2, _, h⟩ := M.bind_ok.1 h
    obtain ⟨c, w3, h3, h⟩ := M.bind_ok.1 h
    obtain ⟨_, w4, _, h⟩ := M.bind_ok.1 h
    obtain ⟨cs', w5, h5, h⟩ := M.bind_ok.1 h
    cases h
    intro d hd
    rcases List.mem_cons.1 hd with rfl | hd
    · exact hrec _ _ _ _ h3
    · exact proofs_all hrec ss _ _ _ h5 d hd

theorem token_timeless {clk : Clock} (hd : Dead clk) {D : Deps} {E : Env} {nowTime : Option UInt64} :
    ∀ (fuel : Nat) (t : String) (w : World) (c : Chain) (w' : World), ofTokenBy clk D E nowTime fuel t w = (.ok c, w') →
      ∀ d, Sub d c → Timeless nowTime d.ucan
  | 0, _, _, _, _, h => by cases h
  | fuel + 1, t, w, c, w', h => by
    unfold ofTokenBy at h
    obtain ⟨u, w1, _, h⟩ := M.bind_ok.1 h
    unfold fromUcanWithBy at h
    obtain ⟨⟨⟩, w2, h2, h⟩ := M.bind_ok.1 h
    obtain ⟨cs, w3, h3, h⟩ := M.bind_ok.1 h
    obtain ⟨r, w4, _, h⟩ := M.bind_ok.1 h
    cases h
    intro d hs
    cases hs with
    | self => exact valid_timeless hd u nowTime _ _ h2
    | proof he hs => exact proofs_all (P := fun c => ∀ d, Sub d c → Timeless nowTime d.ucan) (token_timeless hd fuel) _ _ _ _ h3 _ he d hs

end ClockProps
open ClockProps

/-- C101: whatever the clock does, a validation either panics on reading it, or does exactly what it does with a steady clock that shows the same
times and, where there are none, any others. So everything proved about steady clocks holds of validations that do not panic. -/
theorem C101_validate (clk : Clock) (E E' : Env) (h : Completes clk E E') (u : Ucan) (nowTime : Option UInt64) (w : World) :
    (u.validateBy clk nowTime w).1 = panicked .unwrapNow ∨ u.validateBy clk nowTime w = u.validate E' nowTime w := sim_validate h u nowTime w

/-- C101: the same for whole chains, from a UCAN, a token and a CID. -/
theorem C101_chain (D : Deps) (clk : Clock) (E E' : Env) (h : Completes clk E E') (nowTime : Option UInt64) (fuel : Nat) (w : World) :
    (∀ u, (fromUcanBy clk D E nowTime fuel u w).1 = panicked .unwrapNow ∨ fromUcanBy clk D E nowTime fuel u w = fromUcan D E' nowTime fuel u w) ∧
    (∀ t, (ofTokenBy clk D E nowTime fuel t w).1 = panicked .unwrapNow ∨ ofTokenBy clk D E nowTime fuel t w = ofToken D E' nowTime fuel t w) ∧
    ∀ c, (fromCidBy clk D E nowTime fuel c w).1 = panicked .unwrapNow ∨ fromCidBy clk D E nowTime fuel c w = fromCid D E' nowTime fuel c w := by
  refine ⟨fun u => sim_with h nowTime (sim_token h nowTime fuel) u w, fun t => sim_token h nowTime fuel t w, fun c => ?_⟩
  have : Sim (fromCidBy clk D E nowTime fuel c) (fromCid D E' nowTime fuel c) := by
    unfold fromCidBy fromCid
    rw [readM_eq h.2]
    exact Sim.bind (Sim.refl _) (sim_token h nowTime fuel)
  exact this w

/-- C101: and for building tokens. -/
theorem C101_build (clk : Clock) (E E' : Env) (h : Completes clk E E') (checked : Bool) (b : Builder) (w : World) :
    (b.buildBy clk checked w).1 = panicked .unwrapNow ∨ b.buildBy clk checked w = b.build E' checked w := sim_build h checked b w

/-- C101 (partial): a chain that is accepted although no time could be read would be accepted at any time: nothing in it is bounded but by the time
given. So a broken clock never makes an expired or a future token acceptable. Missing: that others are refused with an error, see `C101_crash`. -/
theorem C101_safe_partial (D : Deps) (clk : Clock) (hd : Dead clk) (E : Env) (nowTime : Option UInt64) (fuel : Nat) (t : String) (w w' : World) (c : Chain)
    (h : ofTokenBy clk D E nowTime fuel t w = (.ok c, w')) :
    (∀ clock, ofToken D ⟨clock, E.read⟩ nowTime fuel t w = (.ok c, w')) ∧
    ∀ d, Sub d c → d.ucan.payload.nbf = none ∧ ∀ e, d.ucan.payload.exp = some e → ∃ n, nowTime = some n ∧ n ≤ e := by
  have hall : ∀ clock, ofToken D ⟨clock, E.read⟩ nowTime fuel t w = (.ok c, w') := by
    intro clock
    rcases (C101_chain D clk E ⟨clock, E.read⟩ ⟨fun i t hi => (by rw [hd i] at hi; cases hi), rfl⟩ nowTime fuel w).2.1 t with h' | h'
    · rw [h] at h'; cases h'
    · rw [← h', h]
  exact ⟨hall, token_timeless hd fuel t w c w' h⟩

/-- The validation of the UCAN comes to a point at which it needs the time. -/
def Spec.NeedsClock (nowTime : Option UInt64) (u : Ucan) : Prop :=
  (∃ e, u.payload.exp = some e ∧ nowTime = none) ∨ ((∃ n, u.payload.nbf = some n) ∧ ∀ e n, u.payload.exp = some e → nowTime = some n → n ≤ e)

/-- C101 is violated: without a clock, every UCAN whose validation needs the time makes the library panic, instead of being refused. Of all others the
result is that at any time. -/
theorem C101_crash (clk : Clock) (hd : Dead clk) (u : Ucan) (nowTime : Option UInt64) (w : World) :
    (NeedsClock nowTime u → (u.validateBy clk nowTime w).1 = panicked .unwrapNow) ∧
    (¬ NeedsClock nowTime u → ∀ E : Env, u.validateBy clk nowTime w = u.validate E nowTime w) := by
  constructor
  · intro h
    unfold Ucan.validateBy
    by_cases h1 : ∃ e, u.payload.exp = some e ∧ nowTime = none
    · obtain ⟨e, he, rfl⟩ := h1
      have : u.isExpiredBy clk none w = (panicked .unwrapNow, { w with tick := w.tick + 1 }) := by
        unfold Ucan.isExpiredBy
        rw [he]
        exact M.bind_of_error (now_dead hd w)
      rw [M.bind_of_error this]
    · obtain ⟨⟨n, hn⟩, hx⟩ := h.resolve_left h1
      have : u.isExpiredBy clk nowTime w = (.ok false, w) := by
        unfold Ucan.isExpiredBy
        cases he : u.payload.exp with
        | none => rfl
        | some e =>
          cases nowTime with
          | none => exact absurd ⟨e, he, rfl⟩ h1
          | some t =>
            show (Except.ok (decide (e < t)), w) = _
            rw [decide_eq_false (UInt64.not_lt.2 (hx e t he rfl))]
      rw [M.bind_of_ok this]
      have h3 : u.isTooEarlyBy clk w = (panicked .unwrapNow, { w with tick := w.tick + 1 }) := by
        unfold Ucan.isTooEarlyBy
        rw [hn]
        exact M.bind_of_error (now_dead hd w)
      simp only [Bool.false_eq_true, if_false]
      rw [M.bind_of_error h3]
  · intro h E
    have h1 : ∀ e, u.payload.exp = some e → nowTime ≠ none := fun e he hn => h (.inl ⟨e, he, hn⟩)
    unfold Ucan.validateBy Ucan.validate
    have e1 : u.isExpiredBy clk nowTime = u.isExpired E nowTime := by
      unfold Ucan.isExpiredBy Ucan.isExpired
      cases he : u.payload.exp with
      | none => rfl
      | some e =>
        cases nowTime with
        | none => exact absurd rfl (h1 e he)
        | some t => rfl
    rw [e1]
    cases hn : u.payload.nbf with
    | none =>
      have e2 : u.isTooEarlyBy clk = u.isTooEarly E := by
        unfold Ucan.isTooEarlyBy Ucan.isTooEarly
        rw [hn]
      rw [e2]
    | some n =>
      have : ∃ e t, u.payload.exp = some e ∧ nowTime = some t ∧ e < t := by
        refine Classical.byContradiction fun hc => h (.inr ⟨⟨n, hn⟩, fun e t he ht => ?_⟩)
        exact UInt64.not_lt.1 fun hlt => hc ⟨e, t, he, ht, hlt⟩
      obtain ⟨e, t, he, rfl, hlt⟩ := this
      have : u.isExpired E (some t) w = (.ok true, w) := by
        unfold Ucan.isExpired
        rw [he]
        show (Except.ok (decide (e < t)), w) = _
        rw [decide_eq_true hlt]
      rw [M.bind_of_ok this, M.bind_of_ok this]
      rfl

/-- C101: building a token with a lifetime panics as well. -/
theorem C101_build_crash (clk : Clock) (hd : Dead clk) (checked : Bool) (b : Builder) (k : Key) (a : String) (l : UInt64) (hi : b.issuer = some k)
    (ha : b.audience = some a) (he : b.expiration = none) (hl : b.lifetime = some l) (w : World) : (b.buildBy clk checked w).1 = panicked .unwrapNow := by
  unfold Builder.buildBy Builder.impliedExpirationBy
  rw [hi, ha, he, hl]
  simp only
  rw [M.bind_of_error (M.bind_of_error (now_dead hd w))]

open Ex

/-- A token that is in force from 6 to 10 makes a service crash whose clock has been reset. -/
example (D : Deps) (w : World) : ((root D).validateBy (fun _ => none) none w).1 = panicked .unwrapNow :=
  (C101_crash _ (fun _ => rfl) _ _ _).1 (.inl ⟨10, rfl, rfl⟩)

/-- A token without bounds is accepted. -/
example (D : Deps) : ((ucan D 1 (did 2) none none none []).validateBy (fun _ => none) none world).1 = .ok () := by
  rw [(C101_crash _ (fun _ => rfl) _ _ _).2 (by rintro (⟨e, he, _⟩ | ⟨⟨n, hn⟩, _⟩); cases he; cases hn) (still (fun _ => none) 0)]
  refine (C12_validate_iff _ _ _ _ world_coherent).2 ⟨fun e he => (nomatch he), fun e he => (nomatch he), authentic D 1 _ _ _ _ _⟩

end Verif
