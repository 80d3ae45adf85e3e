import Verif.Spec.Instant
import Verif.Props.Clock
import Verif.Props.Builder

/-! # C108 Instants between seconds -/

namespace Verif
open Spec Chain

theorem secondsOf_some {τ : Int} (h : Expressible τ) : ∃ t, secondsOf τ = some t ∧ instant t ≤ τ ∧ τ < instant t + second := by
  obtain ⟨h0, h1⟩ := h
  unfold second at h1
  refine ⟨_, if_neg (by omega), ?_⟩
  unfold instant second
  rw [UInt64.toNat_ofNat_of_lt' (by unfold UInt64.size; omega)]
  omega

/-- The steady clock of the same readings. -/
def envOf (T : Nat → Int) (E : Env) : Env := ⟨fun i => (secondsOf (T i)).getD 0, E.read⟩

theorem envOf_completes (T : Nat → Int) (E : Env) : Completes (.ofInstants T) E (envOf T E) :=
  ⟨fun i t h => by show (secondsOf (T i)).getD 0 = t; rw [show secondsOf (T i) = some t from h]; rfl, rfl⟩

theorem envOf_clock {T : Nat → Int} (hT : ∀ i, Expressible (T i)) (E : Env) (i : Nat) :
    instant ((envOf T E).clock i) ≤ T i ∧ T i < instant ((envOf T E).clock i) + second := by
  obtain ⟨t, h, h1, h2⟩ := secondsOf_some (hT i)
  show instant ((secondsOf (T i)).getD 0) ≤ T i ∧ T i < instant ((secondsOf (T i)).getD 0) + second
  rw [h]
  exact ⟨h1, h2⟩

theorem le_iff_before {t e : UInt64} {τ : Int} (h : instant t ≤ τ ∧ τ < instant t + second) : t ≤ e ↔ τ < instant e + second := by
  rw [UInt64.le_iff_toNat_le]
  unfold instant second at *
  omega

theorem ge_iff_after {t n : UInt64} {τ : Int} (h : instant t ≤ τ ∧ τ < instant t + second) : n ≤ t ↔ instant n ≤ τ := by
  rw [UInt64.le_iff_toNat_le]
  unfold instant second at *
  omega

theorem now_readable {T : Nat → Int} (hT : ∀ i, Expressible (T i)) (E : Env) : (Clock.ofInstants T).now = (envOf T E).now := by
  funext w
  obtain ⟨t, h, _⟩ := secondsOf_some (hT w.tick)
  unfold Clock.now Env.now Clock.ofInstants envOf
  simp only [h]
  rfl

theorem validateBy_readable {T : Nat → Int} (hT : ∀ i, Expressible (T i)) (E : Env) (u : Ucan) (nowTime : Option UInt64) :
    u.validateBy (.ofInstants T) nowTime = u.validate (envOf T E) nowTime := by
  unfold Ucan.validateBy Ucan.validate Ucan.isExpiredBy Ucan.isExpired Ucan.isTooEarlyBy Ucan.isTooEarly
  rw [now_readable hT E]
  rfl

/-- C108: a token is accepted exactly if it is authentic, its last second has not passed when the clock is read for it, and its first second has begun
when the clock is read for that. -/
theorem C108_validate (T : Nat → Int) (hT : ∀ i, Expressible (T i)) (u : Ucan) (w : World) (hc : Coherent w.parser) :
    (u.validateBy (.ofInstants T) none w).1 = .ok () ↔
      (∀ e, u.payload.exp = some e → T w.tick < instant e + second) ∧
      (∀ n, u.payload.nbf = some n → ∃ i, w.tick ≤ i ∧ i ≤ w.tick + 1 ∧ (i = w.tick ↔ u.payload.exp = none) ∧ instant n ≤ T i) ∧ Authentic w.parser.ctors u := by
  have E : Env := ⟨fun _ => 0, fun _ _ => .ok none⟩
  rw [validateBy_readable hT E, C12_validate_iff _ _ _ _ hc]
  refine and_congr ⟨fun h e he => ?_, fun h e he => ?_⟩ (and_congr ⟨fun h n hn => ?_, fun h n hn => ?_⟩ Iff.rfl)
  · exact (le_iff_before (envOf_clock hT E _)).1 (h e he)
  · exact (le_iff_before (envOf_clock hT E _)).2 (h e he)
  · refine ⟨_, ?_, ?_, ?_, (ge_iff_after (envOf_clock hT E _)).1 (h n hn)⟩
    · omega
    · unfold expiryReads; split <;> omega
    · cases he : u.payload.exp <;> simp [expiryReads, he]
  · obtain ⟨i, h1, h2, h3, h4⟩ := h n hn
    have hi : i = w.tick + expiryReads u none := by
      cases he : u.payload.exp <;> simp [expiryReads, he] at h3 ⊢ <;> omega
    exact (ge_iff_after (envOf_clock hT E _)).2 (hi ▸ h4)

/-- C108 (partial): every token of a chain that is accepted was, at some instant of the run, less than a second past its expiry, and at some instant of the
run its first second had begun. Missing: that nothing is accepted past its expiry, see `C108_late`. -/
theorem C108_chain_partial (D : Deps) (T : Nat → Int) (hT : ∀ i, Expressible (T i)) (E : Env) (fuel : Nat) (token : String) (w w' : World) (hc : Coherent w.parser)
    (c : Chain) (h : ofTokenBy (.ofInstants T) D E none fuel token w = (.ok c, w')) (d : Chain) (hd : Sub d c) :
    (∀ e, d.ucan.payload.exp = some e → ∃ i, w.tick ≤ i ∧ i < w'.tick ∧ T i < instant e + second) ∧
    ∀ n, d.ucan.payload.nbf = some n → ∃ i, w.tick ≤ i ∧ i < w'.tick ∧ instant n ≤ T i := by
  have h' : ofToken D (envOf T E) none fuel token w = (.ok c, w') := by
    rcases (C101_chain D (.ofInstants T) E (envOf T E) (envOf_completes T E) none fuel w).2.1 token with h' | h'
    · rw [h] at h'; cases h'
    · rw [← h', h]
  have hs := Sound.sub hd (ofToken_sound D (envOf T E) none fuel token w c w' hc h').2
  obtain ⟨u, ps, r⟩ := d
  simp only [Sound] at hs
  refine ⟨fun e he => ?_, fun n hn => ?_⟩
  · obtain ⟨i, h1, h2, h3⟩ := hs.1.unexpired e he
    exact ⟨i, h1, h2, (le_iff_before (envOf_clock hT E i)).1 h3⟩
  · obtain ⟨i, h1, h2, h3⟩ := hs.1.active n hn
    exact ⟨i, h1, h2, (ge_iff_after (envOf_clock hT E i)).1 h3⟩

/-- C108 is violated: for every fraction of a second there is a token that is accepted so long after the instant of its expiry. -/
theorem C108_late (δ : Int) (h0 : 0 < δ) (h1 : δ < second) : ∃ (T : Nat → Int) (u : Ucan) (e : UInt64) (w : World), (∀ i, Expressible (T i)) ∧
    Coherent w.parser ∧ u.payload.exp = some e ∧ (∀ i, T i = instant e + δ) ∧ (u.validateBy (.ofInstants T) none w).1 = .ok () := by
  have hT : ∀ i : Nat, Expressible ((fun _ : Nat => instant 10 + δ) i) := by
    intro _
    show 0 ≤ instant 10 + δ ∧ instant 10 + δ < 2 ^ 63 * second
    have : instant 10 = 10000000000 := rfl
    unfold second at *
    omega
  refine ⟨_, authUcan, 10, ⟨0, ⟨exCtors, []⟩⟩, hT, DidParser.coherent_fresh exCtors, rfl, fun _ => rfl, ?_⟩
  refine (C108_validate _ hT authUcan _ (DidParser.coherent_fresh exCtors)).2 ⟨fun e he => ?_, fun n hn => ?_, authUcan_authentic⟩
  · cases he
    show instant 10 + δ < instant 10 + second
    omega
  · cases hn
    refine ⟨1, by simp, by simp, by simp [authUcan, boundedUcan], ?_⟩
    show instant 5 ≤ instant 10 + δ
    have h5 : instant 5 = 5000000000 := rfl
    have h10 : instant 10 = 10000000000 := rfl
    omega

/-- C108: the expiry that a lifetime implies. A token built with the lifetime `l` at the instant `τ` is unexpired at every instant until `l` seconds
later, and expired from `l + 1` seconds later. -/
theorem C108_lifetime (T : Nat → Int) (hT : ∀ i, Expressible (T i)) (checked : Bool) (b : Builder) (k : Key) (a : String) (l : UInt64) (hi : b.issuer = some k)
    (ha : b.audience = some a) (he : b.expiration = none) (hl : b.lifetime = some l) (hsmall : l.toNat < 2 ^ 63) (w : World) :
    ∃ s w' e, b.buildBy (.ofInstants T) checked w = (.ok s, w') ∧ s.expiration = some e ∧
      (∀ τ, Expressible τ → τ ≤ T w.tick + instant l → ∃ t, secondsOf τ = some t ∧ t ≤ e) ∧
      ∀ τ, Expressible τ → T w.tick + instant l + second ≤ τ → ∃ t, secondsOf τ = some t ∧ e < t := by
  obtain ⟨t, ht, h1, h2⟩ := secondsOf_some (hT w.tick)
  have htl : t.toNat < 2 ^ 63 := by
    have := (hT w.tick).2
    unfold instant second at *
    omega
  have hsum : (t + l).toNat = t.toNat + l.toNat := by
    rw [UInt64.toNat_add, Nat.mod_eq_of_lt (by omega)]
  have hb : b.buildBy (.ofInstants T) checked w = (.ok ⟨k, a, b.capabilities, some (t + l), b.notBefore, b.facts, b.proofs, b.addNonce⟩, { w with tick := w.tick + 1 }) := by
    have hn : (Clock.ofInstants T).now w = (.ok t, { w with tick := w.tick + 1 }) := by
      unfold Clock.now Clock.ofInstants
      simp only [ht]
    unfold Builder.buildBy Builder.impliedExpirationBy
    rw [hi, ha, he, hl]
    simp only
    rw [M.bind_of_ok (a := some (t + l)) (w1 := { w with tick := w.tick + 1 })]
    · rfl
    · rw [M.bind_of_ok hn, if_neg (by omega)]
      rfl
  refine ⟨_, _, t + l, hb, rfl, fun τ hτ hle => ?_, fun τ hτ hle => ?_⟩
  · obtain ⟨t', ht', h3, h4⟩ := secondsOf_some hτ
    refine ⟨t', ht', ?_⟩
    rw [UInt64.le_iff_toNat_le, hsum]
    unfold instant second at *
    omega
  · obtain ⟨t', ht', h3, h4⟩ := secondsOf_some hτ
    refine ⟨t', ht', ?_⟩
    rw [UInt64.lt_iff_toNat_lt, hsum]
    unfold instant second at *
    omega

/-- Beside C108: a lifetime of a minute, begun at half past a second, ends between a minute and a minute and a second later. -/
example : ∃ s w' e, ({ Builder.default with issuer := some (exKey [2]), audience := some "did:key:b", lifetime := some 60 } : Builder).buildBy (.ofInstants fun _ => 7500000000) true
      ⟨0, ⟨exCtors, []⟩⟩ = (.ok s, w') ∧ s.expiration = some e ∧
    (∃ t, secondsOf 67500000000 = some t ∧ t ≤ e) ∧ ∃ t, secondsOf 68500000000 = some t ∧ e < t := by
  have ex : ∀ τ : Int, 0 ≤ τ → τ < 100000000000 → Expressible τ := fun τ h0 h1 => ⟨h0, by unfold second; omega⟩
  obtain ⟨s, w', e, h1, h2, h3, h4⟩ := C108_lifetime (fun _ => 7500000000) (fun _ => ex _ (by decide) (by decide)) true
    { Builder.default with issuer := some (exKey [2]), audience := some "did:key:b", lifetime := some 60 } _ _ 60 rfl rfl rfl rfl (by decide) ⟨0, ⟨exCtors, []⟩⟩
  exact ⟨s, w', e, h1, h2, h3 _ (ex _ (by decide) (by decide)) (by decide), h4 _ (ex _ (by decide) (by decide)) (by decide)⟩

end Verif
