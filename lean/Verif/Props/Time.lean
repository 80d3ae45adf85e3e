import Verif.Props.Did
import Verif.Spec.Time

/-! # Properties C10-C12: lifetimes and validation -/

namespace Verif
open Spec

/-- `is_expired`, case by case. -/
theorem isExpired_eq (E : Env) (u : Ucan) (nowTime : Option UInt64) (w : World) : u.isExpired E nowTime w =
    match u.payload.exp, nowTime with
    | some e, some t => (.ok (decide (e < t)), w)
    | some e, none => (.ok (decide (e < E.clock w.tick)), { w with tick := w.tick + 1 })
    | none, _ => (.ok false, w) := by
  obtain ⟨_, ⟨_, _, _, exp, _, _, _, _, _⟩, _, _⟩ := u
  cases exp <;> cases nowTime <;> rfl

/-- `is_too_early`, case by case. -/
theorem isTooEarly_eq (E : Env) (u : Ucan) (w : World) : u.isTooEarly E w =
    match u.payload.nbf with
    | some n => (.ok (decide (n > E.clock w.tick)), { w with tick := w.tick + 1 })
    | none => (.ok false, w) := by
  obtain ⟨_, ⟨_, _, _, _, nbf, _, _, _, _⟩, _, _⟩ := u
  cases nbf <;> rfl

/-! ## C10 Boundaries -/

/-- C10: with a supplied time, expired means an expiry strictly before it. -/
theorem C10_expired_iff (E : Env) (u : Ucan) (t : UInt64) (w : World) :
    u.isExpired E (some t) w = (.ok true, w) ↔ ∃ e, u.payload.exp = some e ∧ e.toNat < t.toNat := by
  rw [isExpired_eq]
  split
  · rename_i e t' he ht'
    cases ht'
    simp only [he, Option.some.injEq, exists_eq_left', Prod.mk.injEq, and_true]
    constructor
    · intro h; injection h with h; exact UInt64.lt_iff_toNat_lt.1 (of_decide_eq_true h)
    · intro h; rw [decide_eq_true (UInt64.lt_iff_toNat_lt.2 h)]
  · rename_i ht; cases ht
  · rename_i h
    simp [h]

/-- C10: without a supplied time, the clock decides. -/
theorem C10_expired_clock (E : Env) (u : Ucan) (w : World) :
    (u.isExpired E none w).1 = (u.isExpired E (some (E.clock w.tick)) w).1 := by
  rw [isExpired_eq, isExpired_eq]
  cases u.payload.exp <;> rfl

/-- C10: too early means a not-before strictly after the clock. -/
theorem C10_too_early_iff (E : Env) (u : Ucan) (w : World) :
    (u.isTooEarly E w).1 = .ok true ↔ ∃ n, u.payload.nbf = some n ∧ (E.clock w.tick).toNat < n.toNat := by
  rw [isTooEarly_eq]
  split
  · rename_i n hn
    simp only [hn, Option.some.injEq, exists_eq_left']
    show Except.ok (decide (n > E.clock w.tick)) = Except.ok true ↔ _
    constructor
    · intro h; injection h with h; exact UInt64.lt_iff_toNat_lt.1 (of_decide_eq_true h)
    · intro h; rw [decide_eq_true (show n > E.clock w.tick from UInt64.lt_iff_toNat_lt.2 h)]
  · rename_i h
    simp [h]

/-- C10: both tests always answer. -/
theorem C10_total (E : Env) (u : Ucan) (t : Option UInt64) (w : World) :
    (∃ b, (u.isExpired E t w).1 = .ok b) ∧ ∃ b, (u.isTooEarly E w).1 = .ok b := by
  constructor
  · rw [isExpired_eq]
    split <;> exact ⟨_, rfl⟩
  · rw [isTooEarly_eq]
    split
    · exact ⟨_, rfl⟩
    · exact ⟨_, rfl⟩

/-- C10: once expired, always expired. -/
theorem C10_expired_stays (E : Env) (u : Ucan) (t t' : UInt64) (w : World) (h : t ≤ t')
    (he : u.isExpired E (some t) w = (.ok true, w)) : u.isExpired E (some t') w = (.ok true, w) := by
  rw [C10_expired_iff] at he ⊢
  obtain ⟨e, h1, h2⟩ := he
  exact ⟨e, h1, Nat.lt_of_lt_of_le h2 (UInt64.le_iff_toNat_le.1 h)⟩

/-- C10: once active, never too early again. -/
theorem C10_active_stays (E E' : Env) (u : Ucan) (w w' : World) (h : E.clock w.tick ≤ E'.clock w'.tick)
    (ha : (u.isTooEarly E w).1 = .ok false) : (u.isTooEarly E' w').1 = .ok false := by
  obtain ⟨_, b, hb⟩ := C10_total E' u none w'
  cases b with
  | false => exact hb
  | true =>
    obtain ⟨n, h1, h2⟩ := (C10_too_early_iff E' u w').1 hb
    have := (C10_too_early_iff E u w).2 ⟨n, h1, Nat.lt_of_le_of_lt (UInt64.le_iff_toNat_le.1 h) h2⟩
    rw [ha] at this
    cases this

/-- A UCAN with bounds 5 and 10, for examples. -/
def boundedUcan : Ucan := ⟨⟨"EdDSA", "JWT"⟩, ⟨ucanVersion, "did:key:za", "did:key:zb", some 10, some 5, none, [], none, none⟩, [1], [2]⟩
/-- A stopped clock and an empty store. -/
def stopped (t : UInt64) : Env := ⟨fun _ => t, fun _ _ => .ok none⟩
def world0 : World := ⟨0, ⟨[], []⟩⟩

/-- Beside C10: both boundaries are inclusive. -/
example : (boundedUcan.isExpired (stopped 0) (some 10) world0).1 = .ok false ∧
    (boundedUcan.isExpired (stopped 0) (some 11) world0).1 = .ok true ∧
    (boundedUcan.isTooEarly (stopped 5) world0).1 = .ok false ∧ (boundedUcan.isTooEarly (stopped 4) world0).1 = .ok true := by
  decide +kernel

/-! ## C11 Containment -/

theorem encompasses_iff (a b : Ucan) : a.lifetimeEncompasses b = true ↔
    (∀ n, a.payload.nbf = some n → ∃ m, b.payload.nbf = some m ∧ n ≤ m) ∧
    (∀ e, a.payload.exp = some e → ∃ f, b.payload.exp = some f ∧ f ≤ e) := by
  unfold Ucan.lifetimeEncompasses Ucan.lifetimeBeginsBefore Ucan.lifetimeEndsAfter
  rw [Bool.and_eq_true]
  apply and_congr
  · cases a.payload.nbf <;> cases b.payload.nbf <;> simp
  · cases a.payload.exp <;> cases b.payload.exp <;> simp

/-- C11: every instant of `b` is an instant of `a`. -/
theorem C11_sound (a b : Ucan) (h : a.lifetimeEncompasses b = true) (t : Int) (ht : InLifetime b t) : InLifetime a t := by
  rw [encompasses_iff] at h
  refine ⟨fun n hn => ?_, fun e he => ?_⟩
  · obtain ⟨m, hm, hle⟩ := h.1 n hn
    have := ht.1 m hm
    have := UInt64.le_iff_toNat_le.1 hle
    omega
  · obtain ⟨f, hf, hle⟩ := h.2 e he
    have := ht.2 f hf
    have := UInt64.le_iff_toNat_le.1 hle
    omega

/-- C11: it is exactly containment, for any lifetime `b` that is not empty. -/
theorem C11_exact (a b : Ucan) (hb : ∃ t, InLifetime b t) :
    a.lifetimeEncompasses b = true ↔ ∀ t, InLifetime b t → InLifetime a t := by
  refine ⟨fun h t ht => C11_sound a b h t ht, fun h => ?_⟩
  obtain ⟨t0, ht0⟩ := hb
  rw [encompasses_iff]
  constructor
  · intro n hn
    cases hm : b.payload.nbf with
    | some m =>
      refine ⟨m, rfl, ?_⟩
      have hin : InLifetime b (m.toNat : Int) := by
        refine ⟨fun m' hm' => ?_, fun e he => ?_⟩
        · rw [hm] at hm'; cases hm'; exact Int.le_refl _
        · have := ht0.1 m hm; have := ht0.2 e he; omega
      have := (h _ hin).1 n hn
      exact UInt64.le_iff_toNat_le.2 (by omega)
    | none =>
      exfalso
      have hin : InLifetime b (min t0 (-1)) := by
        refine ⟨fun m' hm' => ?_, fun e he => ?_⟩
        · rw [hm] at hm'; cases hm'
        · have := ht0.2 e he; omega
      have := (h _ hin).1 n hn
      omega
  · intro e he
    cases hf : b.payload.exp with
    | some f =>
      refine ⟨f, rfl, ?_⟩
      have hin : InLifetime b (f.toNat : Int) := by
        refine ⟨fun m hm => ?_, fun e' he' => ?_⟩
        · have := ht0.1 m hm; have := ht0.2 f hf; omega
        · rw [hf] at he'; cases he'; exact Int.le_refl _
      have := (h _ hin).2 e he
      exact UInt64.le_iff_toNat_le.2 (by omega)
    | none =>
      exfalso
      have hin : InLifetime b (max t0 ((e.toNat : Int) + 1)) := by
        refine ⟨fun m hm => ?_, fun e' he' => ?_⟩
        · have := ht0.1 m hm; omega
        · rw [hf] at he'; cases he'
      have := (h _ hin).2 e he
      omega

theorem C11_refl (a : Ucan) : a.lifetimeEncompasses a = true := by
  rw [encompasses_iff]
  exact ⟨fun n hn => ⟨n, hn, UInt64.le_refl n⟩, fun e he => ⟨e, he, UInt64.le_refl e⟩⟩

theorem C11_trans (a b c : Ucan) (h1 : a.lifetimeEncompasses b = true) (h2 : b.lifetimeEncompasses c = true) :
    a.lifetimeEncompasses c = true := by
  rw [encompasses_iff] at *
  constructor
  · intro n hn
    obtain ⟨m, hm, h⟩ := h1.1 n hn
    obtain ⟨k, hk, h'⟩ := h2.1 m hm
    exact ⟨k, hk, UInt64.le_trans h h'⟩
  · intro n hn
    obtain ⟨m, hm, h⟩ := h1.2 n hn
    obtain ⟨k, hk, h'⟩ := h2.2 m hm
    exact ⟨k, hk, UInt64.le_trans h' h⟩

/-- Beside C11: a non-empty lifetime, and a lifetime without expiry is not within one with the largest expiry. -/
example : (∃ t, InLifetime boundedUcan t) ∧
    Ucan.lifetimeEncompasses { boundedUcan with payload := { boundedUcan.payload with exp := some 18446744073709551615 } }
      { boundedUcan with payload := { boundedUcan.payload with exp := none } } = false := by
  refine ⟨⟨7, ?_, ?_⟩, by decide +kernel⟩
  · intro n hn
    have : boundedUcan.payload.nbf = some 5 := rfl
    rw [this] at hn; cases hn; decide
  · intro n hn
    have : boundedUcan.payload.exp = some 10 := rfl
    rw [this] at hn; cases hn; decide

/-! ## C12 Validation -/

theorem isExpired_false {E : Env} {u : Ucan} {nowTime : Option UInt64} {w w' : World} {b : Bool}
    (h : u.isExpired E nowTime w = (.ok b, w')) :
    w'.parser = w.parser ∧ w'.tick = w.tick + (if nowTime = none ∧ u.payload.exp.isSome then 1 else 0) ∧
    (b = false ↔ Unexpired u (nowTime.getD (E.clock w.tick))) := by
  rw [isExpired_eq] at h
  unfold Unexpired
  have key : ∀ e t : UInt64, u.payload.exp = some e → (decide (e < t) = false ↔ ∀ e', u.payload.exp = some e' → t ≤ e') := by
    intro e t he
    rw [he, decide_eq_false_iff_not, UInt64.not_lt]
    constructor
    · intro h e' he'; cases he'; exact h
    · intro h; exact h e rfl
  split at h
  · rename_i e t he
    cases h
    exact ⟨rfl, by simp, key e t he⟩
  · rename_i e he
    cases h
    exact ⟨rfl, by simp [he], key e _ he⟩
  · rename_i he
    cases h
    refine ⟨rfl, by simp [he], ?_⟩
    simp [he]

theorem isTooEarly_false {E : Env} {u : Ucan} {w w' : World} {b : Bool} (h : u.isTooEarly E w = (.ok b, w')) :
    w'.parser = w.parser ∧ w.tick ≤ w'.tick ∧ (b = false ↔ Active u (E.clock w.tick)) := by
  rw [isTooEarly_eq] at h
  unfold Active
  split at h
  · rename_i n hn
    cases h
    refine ⟨rfl, Nat.le_succ _, ?_⟩
    rw [hn, decide_eq_false_iff_not]
    constructor
    · intro h e' he'; cases he'; exact UInt64.not_lt.1 h
    · intro h; exact UInt64.not_lt.2 (h n rfl)
  · rename_i hn
    cases h
    refine ⟨rfl, Nat.le_refl _, ?_⟩
    simp [hn]

theorem checkSignature_ok_iff (u : Ucan) (w : World) (hc : Coherent w.parser) :
    (∃ w', u.checkSignature w = (.ok (), w')) ↔ Authentic w.parser.ctors u := by
  unfold Ucan.checkSignature Authentic
  have hp : parseDid u.payload.iss w = ((w.parser.parse u.payload.iss).1, { w with parser := (w.parser.parse u.payload.iss).2 }) := rfl
  constructor
  · rintro ⟨w', h⟩
    obtain ⟨key, w1, h1, h2⟩ := M.bind_ok.1 h
    rw [hp] at h1
    have h1 := (Prod.mk.inj h1).1
    exact ⟨key, (DidParser.parse_ok_iff hc _ _).1 h1, (Prod.mk.inj h2).1⟩
  · rintro ⟨key, hd, hv⟩
    have := (DidParser.parse_ok_iff hc _ _).2 hd
    rw [this] at hp
    exact ⟨{ w with parser := (w.parser.parse u.payload.iss).2 }, M.bind_ok.2 ⟨key, _, hp, by rw [M.lift_apply, hv]⟩⟩

theorem checkSignature_world {u : Ucan} {w w' : World} {r : Res Unit} (h : u.checkSignature w = (r, w')) :
    w'.tick = w.tick ∧ w'.parser = (w.parser.parse u.payload.iss).2 := by
  unfold Ucan.checkSignature at h
  have hp : parseDid u.payload.iss w = ((w.parser.parse u.payload.iss).1, { w with parser := (w.parser.parse u.payload.iss).2 }) := rfl
  cases hr : (w.parser.parse u.payload.iss).1 with
  | ok key =>
    rw [hr] at hp
    rw [M.bind_of_ok hp] at h
    cases h; exact ⟨rfl, rfl⟩
  | error e =>
    rw [hr] at hp
    rw [M.bind_of_error hp] at h
    cases h; exact ⟨rfl, rfl⟩

/-- How far the expiry check advances the clock. -/
def expiryReads (u : Ucan) (nowTime : Option UInt64) : Nat := if nowTime = none ∧ u.payload.exp.isSome then 1 else 0

/-- C12: `validate` succeeds exactly when the UCAN is not expired at the supplied time (or the clock), is active at the clock, and
its signature verifies under the key its issuer denotes. The two clock readings may differ. -/
theorem C12_validate_iff (E : Env) (u : Ucan) (nowTime : Option UInt64) (w : World) (hc : Coherent w.parser) :
    (u.validate E nowTime w).1 = .ok () ↔
      Unexpired u (nowTime.getD (E.clock w.tick)) ∧ Active u (E.clock (w.tick + expiryReads u nowTime)) ∧
        Authentic w.parser.ctors u := by
  obtain ⟨b, hb⟩ := (C10_total E u nowTime w).1
  have hb' : u.isExpired E nowTime w = (.ok b, (u.isExpired E nowTime w).2) := by rw [← hb]
  obtain ⟨hp1, ht1, he⟩ := isExpired_false hb'
  unfold Ucan.validate
  rw [M.bind_of_ok hb', ← he]
  change _ = w.tick + expiryReads u nowTime at ht1
  cases b with
  | true => simp [err]
  | false =>
    obtain ⟨c, hcc⟩ := (C10_total E u nowTime (u.isExpired E nowTime w).2).2
    have hc' : u.isTooEarly E (u.isExpired E nowTime w).2 = (.ok c, (u.isTooEarly E (u.isExpired E nowTime w).2).2) := by rw [← hcc]
    obtain ⟨hp2, ht2, hcl⟩ := isTooEarly_false hc'
    simp only [Bool.false_eq_true, if_false]
    rw [M.bind_of_ok hc', ← ht1, ← hcl]
    cases c with
    | true => simp [err]
    | false =>
      simp only [Bool.false_eq_true, if_false, true_and]
      have hpp : (u.isTooEarly E (u.isExpired E nowTime w).2).2.parser = w.parser := hp2.trans hp1
      have := checkSignature_ok_iff u (u.isTooEarly E (u.isExpired E nowTime w).2).2 (by rw [hpp]; exact hc)
      rw [hpp] at this
      rw [← this]
      constructor
      · intro h; exact ⟨_, by rw [← h]⟩
      · rintro ⟨w', h⟩; rw [h]

/-- What a call of `validate` leaves behind, whatever its result: the parser stays coherent, with the same constructors. -/
theorem validate_world {E : Env} {u : Ucan} {nowTime : Option UInt64} {w w' : World} {r : Res Unit} (hc : Coherent w.parser)
    (h : u.validate E nowTime w = (r, w')) : Coherent w'.parser ∧ w'.parser.ctors = w.parser.ctors ∧ w.tick ≤ w'.tick := by
  obtain ⟨b, hb⟩ := (C10_total E u nowTime w).1
  have hb' : u.isExpired E nowTime w = (.ok b, (u.isExpired E nowTime w).2) := by rw [← hb]
  obtain ⟨hp1, ht1, he⟩ := isExpired_false hb'
  unfold Ucan.validate at h
  rw [M.bind_of_ok hb'] at h
  have ht1' : w.tick ≤ (u.isExpired E nowTime w).2.tick := by rw [ht1]; exact Nat.le_add_right _ _
  cases b with
  | true =>
    simp only [if_true, M.lift_apply] at h
    cases h
    exact ⟨by rw [hp1]; exact hc, by rw [hp1], ht1'⟩
  | false =>
    obtain ⟨c, hcc⟩ := (C10_total E u nowTime (u.isExpired E nowTime w).2).2
    have hc' : u.isTooEarly E (u.isExpired E nowTime w).2 = (.ok c, (u.isTooEarly E (u.isExpired E nowTime w).2).2) := by rw [← hcc]
    obtain ⟨hp2, ht2, hcl⟩ := isTooEarly_false hc'
    simp only [Bool.false_eq_true, if_false] at h
    rw [M.bind_of_ok hc'] at h
    have hpp : (u.isTooEarly E (u.isExpired E nowTime w).2).2.parser = w.parser := hp2.trans hp1
    cases c with
    | true =>
      simp only [if_true, M.lift_apply] at h
      cases h
      exact ⟨by rw [hpp]; exact hc, by rw [hpp], Nat.le_trans ht1' ht2⟩
    | false =>
      simp only [Bool.false_eq_true, if_false] at h
      obtain ⟨h1, h2⟩ := checkSignature_world h
      rw [hpp] at h2
      rw [h2, h1]
      exact ⟨DidParser.parse_coherent hc _, DidParser.parse_ctors _ _, Nat.le_trans ht1' ht2⟩

/-- C12 fails: a UCAN with a not-before is rejected although the supplied time is in its lifetime, when the clock is before it. -/
theorem C12_rejects_inside_window (E : Env) (u : Ucan) (n t : UInt64) (w : World) (hc : Coherent w.parser) (hn : u.payload.nbf = some n)
    (_ht : InLifetime u t.toNat) (hclock : ∀ i, E.clock i < n) : (u.validate E (some t) w).1 ≠ .ok () := by
  intro h
  have := ((C12_validate_iff _ _ _ _ hc).1 h).2.1 n hn
  exact absurd (hclock _) (UInt64.not_lt.2 this)

/-- C12 fails: a UCAN is accepted although the supplied time is before its not-before, when the clock is after it. -/
theorem C12_accepts_before_nbf (E : Env) (u : Ucan) (n t : UInt64) (w : World) (hc : Coherent w.parser) (hn : u.payload.nbf = some n)
    (ht : t < n) (he : Unexpired u t) (ha : Authentic w.parser.ctors u) (hclock : ∀ i, n ≤ E.clock i) :
    (u.validate E (some t) w).1 = .ok () ∧ ¬ InLifetime u t.toNat := by
  refine ⟨?_, ?_⟩
  · rw [C12_validate_iff _ _ _ _ hc]
    refine ⟨he, ?_, ha⟩
    intro m hm
    rw [hn] at hm; cases hm
    exact hclock _
  · intro h
    have := h.1 n hn
    have := UInt64.lt_iff_toNat_lt.1 ht
    omega

/-- C12, the part that holds: with no supplied time and a clock that does not move during the call, success is exactly being in the
lifetime with an authentic signature; a supplied time is honoured when there is no not-before. Missing: not-before against a supplied time. -/
theorem C12_window_partial (E : Env) (u : Ucan) (nowTime : Option UInt64) (w : World) (hc : Coherent w.parser) (t : UInt64)
    (ht : ∀ i, E.clock i = t) (h : nowTime = none ∨ u.payload.nbf = none) :
    (u.validate E nowTime w).1 = .ok () ↔ InLifetime u (nowTime.getD t).toNat ∧ Authentic w.parser.ctors u := by
  rw [C12_validate_iff E u nowTime w hc, ht, ht]
  have h1 : Unexpired u (nowTime.getD t) ↔ ∀ e, u.payload.exp = some e → ((nowTime.getD t).toNat : Int) ≤ e.toNat := by
    unfold Unexpired
    simp only [UInt64.le_iff_toNat_le, Int.ofNat_le]
  have h2 : Active u t ↔ ∀ n, u.payload.nbf = some n → (n.toNat : Int) ≤ (nowTime.getD t).toNat := by
    unfold Active
    rcases h with h | h
    · subst h
      simp only [UInt64.le_iff_toNat_le, Int.ofNat_le, Option.getD_none]
    · simp [h]
  unfold InLifetime Within
  rw [h1, h2]
  constructor
  · rintro ⟨a, b, c⟩; exact ⟨⟨b, a⟩, c⟩
  · rintro ⟨⟨b, a⟩, c⟩; exact ⟨a, b, c⟩

/-- An issuer for `exCtors`, and a bounded UCAN with a good signature. -/
def authUcan : Ucan :=
  { boundedUcan with payload := { boundedUcan.payload with iss := "did:key:z" ++ asciiStr (Base58.encode [0xed, 1, 2]) } }

theorem authUcan_authentic : Authentic exCtors authUcan := by
  refine ⟨exKey [2], ⟨0xed, 1, [2], fun b => .ok (exKey b), ?_, rfl, rfl⟩, rfl⟩
  show strBytes ("did:key:z" ++ _) = _
  rw [strBytes_append, strBytes_asciiStr (Base58.encode_ascii _)]

/-- C12 fails: the full statement is refuted by a UCAN valid from 5 to 10, the time 7 supplied and the clock at 3. -/
theorem C12_not_window : ¬ ∀ (E : Env) (u : Ucan) (t : UInt64) (w : World), Coherent w.parser →
    ((u.validate E (some t) w).1 = .ok () ↔ InLifetime u t.toNat ∧ Authentic w.parser.ctors u) := by
  intro H
  have hc := DidParser.coherent_fresh exCtors
  have hin : InLifetime authUcan (7 : UInt64).toNat := by
    refine ⟨?_, ?_⟩ <;> intro n hn <;> cases hn <;> decide
  exact C12_rejects_inside_window (stopped 3) authUcan 5 7 ⟨0, ⟨exCtors, []⟩⟩ hc rfl hin (fun _ => show (3 : UInt64) < 5 by decide)
    ((H (stopped 3) authUcan 7 ⟨0, ⟨exCtors, []⟩⟩ hc).2 ⟨hin, authUcan_authentic⟩)

/-- Beside C12: the demo UCAN is accepted at 7. -/
example : (authUcan.validate (stopped 7) none ⟨0, ⟨exCtors, []⟩⟩).1 = .ok () := by
  rw [C12_window_partial _ _ _ _ (DidParser.coherent_fresh _) 7 (fun _ => rfl) (Or.inl rfl)]
  refine ⟨⟨?_, ?_⟩, authUcan_authentic⟩ <;> intro n hn <;> cases hn <;> decide

end Verif
