import Verif.Spec.Moment
import Verif.Props.Chain

/-! # Property C95: one moment at which the whole chain was in force -/

namespace Verif
open Spec Chain

theorem toInt_le {a b : UInt64} : (a.toNat : Int) ≤ b.toNat ↔ a ≤ b := by
  rw [UInt64.le_iff_toNat_le, Int.ofNat_le]

theorem Chain.built_keeps {D : Deps} {E : Env} {nowTime : Option UInt64} {w w' : World} {c : Chain} (hc : Coherent w.parser)
    (h : Built D E nowTime w w' c) : Keeps w w' := by
  cases h with
  | ofUcan fuel u h => exact fromUcanWith_keeps D E nowTime _ u (ofToken_keeps D E nowTime fuel) _ _ _ hc h
  | ofToken fuel t h => exact ofToken_keeps D E nowTime fuel t _ _ _ hc h
  | ofCid fuel cid h =>
    unfold fromCid at h
    exact bind_keeps (fun r w1 h1 => requireToken_keeps hc h1) (fun a w1 r w2 hc1 h2 => ofToken_keeps D E nowTime fuel a _ _ _ hc1.coherent h2) h

mutual
/-- Nested lifetimes: what holds of the first token's lifetime holds of all. -/
theorem Chain.sound_inLifetime {D : Deps} {V : Ucan → Prop} {F : Cid → Bytes → Prop} {T : Int → Prop} : ∀ c : Chain, Sound D V F c →
    (∀ t, T t → InLifetime c.ucan t) → Sound D (fun u => V u ∧ ∀ t, T t → InLifetime u t) F c
  | .mk u proofs redel, h, ht => by
    simp only [Sound] at h ⊢
    exact ⟨⟨h.1, ht⟩, Chain.soundAll_inLifetime u ht _ proofs h.2.1, h.2.2⟩
theorem Chain.soundAll_inLifetime {D : Deps} {V : Ucan → Prop} {F : Cid → Bytes → Prop} {T : Int → Prop} (u : Ucan) (ht : ∀ t, T t → InLifetime u t) :
    ∀ (ss : List String) (cs : List Chain), SoundAll D V F u ss cs → SoundAll D (fun u => V u ∧ ∀ t, T t → InLifetime u t) F u ss cs
  | ss, [], h => by simpa only [SoundAll] using h
  | ss, c :: cs, h => by
    simp only [SoundAll] at h ⊢
    obtain ⟨s, ss', e, hr, hd, hs, ha⟩ := h
    exact ⟨s, ss', e, hr, hd,
      Chain.sound_inLifetime c hs (fun t h => C11_sound _ _ ((encompasses_iff _ _).2 ⟨hd.begins, hd.ends⟩) t (ht t h)),
      Chain.soundAll_inLifetime u ht ss' cs ha⟩
end

/-- C95, for chains whose first token has a lifetime at all: when the clock does not go backwards, every accepted chain was in force as a whole
at one moment between the beginning and the end of its validation. -/
theorem C95_moment_partial {D : Deps} {E : Env} (hm : ClockMonotone E) {w w' : World} {c : Chain} (hc : Coherent w.parser)
    (h : Built D E none w w' c) (hl : HasLifetime c.ucan) :
    ∃ t : Int, ((E.clock w.tick).toNat : Int) ≤ t ∧ t ≤ (E.clock w'.tick).toNat ∧ InForce c t := by
  have hv := C21_all_valid hc h c (.self c)
  have hw : w.tick ≤ w'.tick := (Chain.built_keeps hc h).tick
  have hlo : ∀ i, w.tick ≤ i → ((E.clock w.tick).toNat : Int) ≤ (E.clock i).toNat := fun i hi => toInt_le.2 (hm _ _ hi)
  have hhi : ∀ i, i < w'.tick → ((E.clock i).toNat : Int) ≤ (E.clock w'.tick).toNat := fun i hi => toInt_le.2 (hm _ _ (Nat.le_of_lt hi))
  suffices hs : ∃ t : Int, ((E.clock w.tick).toNat : Int) ≤ t ∧ t ≤ (E.clock w'.tick).toNat ∧ InLifetime c.ucan t by
    obtain ⟨t, h1, h2, h3⟩ := hs
    exact ⟨t, h1, h2, fun d hd => C25_bounded hc h d hd t h3⟩
  obtain ⟨x, hx1, hx2⟩ := hl
  unfold InLifetime Within
  cases he : c.ucan.payload.exp with
  | none =>
    cases hn : c.ucan.payload.nbf with
    | none => exact ⟨(E.clock w.tick).toNat, Int.le_refl _, toInt_le.2 (hm _ _ hw), by simp, by simp⟩
    | some n =>
      obtain ⟨j, j1, j2, j3⟩ := hv.active n hn
      refine ⟨(E.clock j).toNat, hlo j j1, hhi j j2, ?_, by simp⟩
      rintro m hm'; cases hm'; exact toInt_le.2 j3
  | some e =>
    obtain ⟨i, i1, i2, i3⟩ := hv.unexpired e he
    cases hn : c.ucan.payload.nbf with
    | none =>
      refine ⟨(E.clock i).toNat, hlo i i1, hhi i i2, by simp, ?_⟩
      rintro m hm'; cases hm'; exact toInt_le.2 i3
    | some n =>
      obtain ⟨j, j1, j2, j3⟩ := hv.active n hn
      have i4 := toInt_le.2 i3
      have j4 := toInt_le.2 j3
      have a1 := hlo i i1
      have a2 := hhi i i2
      have b1 := hlo j j1
      have b2 := hhi j j2
      have hne := Int.le_trans (hx1 n hn) (hx2 e he)
      by_cases hcmp : (n.toNat : Int) ≤ (E.clock i).toNat
      · refine ⟨(E.clock i).toNat, a1, a2, ?_, ?_⟩
        · rintro m hm'; cases hm'; exact hcmp
        · rintro m hm'; cases hm'; exact i4
      · refine ⟨n.toNat, by omega, by omega, ?_, ?_⟩
        · rintro m hm'; cases hm'; exact Int.le_refl _
        · rintro m hm'; cases hm'; exact hne

/-- C95, the other direction: a tree of authentic tokens, each addressed to the issuer of the next and with nested lifetimes, is accepted however
long its validation takes, if the first token is in force whenever the clock is read. -/
theorem C95_accepted {D : Deps} {E : Env} {F : Cid → Bytes → Prop} {w : World} {c : Chain} {token : String} (hc : Coherent w.parser)
    (hF : ∀ i cid b, w.tick ≤ i → F cid b → E.read i cid = .ok (some (.bytes b))) (hp : Ucan.fromStr D token = .ok c.ucan)
    (hs : Sound D (Authentic w.parser.ctors) F c) (ht : ∀ i, w.tick ≤ i → InLifetime c.ucan (E.clock i).toNat) :
    (ofToken D E none (levels c) token w).1 = .ok c := by
  have hs' := Chain.sound_inLifetime (T := fun t => ∃ i, w.tick ≤ i ∧ t = (E.clock i).toNat) c hs (by rintro t ⟨i, hi, rfl⟩; exact ht i hi)
  have hE : Enables E none w.parser.ctors w.tick
      (fun u => Authentic w.parser.ctors u ∧ ∀ t : Int, (∃ i, w.tick ≤ i ∧ t = (E.clock i).toNat) → InLifetime u t) F := by
    refine ⟨?_, hF⟩
    rintro u v hcv hct hlo ⟨ha, hl⟩
    have := (C12_validate_iff E u none v hcv).2 ⟨fun e he => toInt_le.1 ((hl _ ⟨_, hlo, rfl⟩).2 e he),
      fun n hn => toInt_le.1 ((hl _ ⟨_, Nat.le_trans hlo (Nat.le_add_right _ _), rfl⟩).1 n hn), by rw [hct]; exact ha⟩
    exact ⟨_, Prod.ext this rfl⟩
  obtain ⟨w', h⟩ := ofToken_complete hE (levels c) token w c hc rfl (Nat.le_refl _) (Nat.le_refl _) hp hs'
  rw [h]

namespace Ex

/-- A token that expires at 9 and begins at 10. -/
def emptyUcan : Ucan := { authUcan with payload := { authUcan.payload with nbf := some 10, exp := some 9, prf := none, cap := [] } }

/-- A clock that passes from 9 to 10. -/
def passing : Env := ⟨fun i => if i = 0 then 9 else 10, fun _ _ => .ok none⟩

theorem emptyUcan_built (D : Deps) : ∃ w', Built D passing none ⟨0, ⟨exCtors, []⟩⟩ w' (.mk emptyUcan [] []) := by
  have hc := DidParser.coherent_fresh exCtors
  have hv : (emptyUcan.validate passing none ⟨0, ⟨exCtors, []⟩⟩).1 = .ok () := by
    rw [C12_validate_iff _ _ _ _ hc]
    refine ⟨?_, ?_, authUcan_authentic⟩
    · intro e he; cases he; decide
    · intro n hn; cases hn; decide
  refine ⟨(emptyUcan.validate passing none ⟨0, ⟨exCtors, []⟩⟩).2, .ofUcan 0 emptyUcan ?_⟩
  unfold fromUcan fromUcanWith
  rw [M.bind_of_ok (Prod.ext hv rfl)]
  rfl

end Ex

/-- C95 fails: a token that is never in force is accepted when the clock moves on between the check of the expiry and that of the not-before. -/
theorem C95_violated (D : Deps) : ∃ (E : Env) (w w' : World) (c : Chain), ClockMonotone E ∧ Coherent w.parser ∧ Built D E none w w' c ∧
    ∀ t, ¬ InForce c t := by
  obtain ⟨w', h⟩ := Ex.emptyUcan_built D
  refine ⟨Ex.passing, _, w', _, ?_, DidParser.coherent_fresh _, h, ?_⟩
  · intro i j hij
    unfold Ex.passing
    by_cases hj : j = 0
    · have : i = 0 := by omega
      simp [hj, this]
    · by_cases hi : i = 0
      · simp [hi, hj]
      · simp [hi, hj]
  · intro t ht
    obtain ⟨h1, h2⟩ := ht _ (.self _)
    have a : ((10 : UInt64).toNat : Int) ≤ t := h1 10 rfl
    have b : t ≤ ((9 : UInt64).toNat : Int) := h2 9 rfl
    have c : ((10 : UInt64).toNat : Int) = 10 := rfl
    have d : ((9 : UInt64).toNat : Int) = 9 := rfl
    omega

namespace Ex

/-- A token in force from 9 to 10 and a clock that passes from 9 to 10: beside `C95_moment_partial` (and the lifetime is not void). -/
def shortUcan : Ucan := { emptyUcan with payload := { emptyUcan.payload with nbf := some 9, exp := some 10 } }

theorem shortUcan_lifetime (t : Int) (h1 : 9 ≤ t) (h2 : t ≤ 10) : InLifetime shortUcan t :=
  ⟨fun n hn => by cases hn; exact h1, fun e he => by cases he; exact h2⟩

example : HasLifetime shortUcan ∧ ¬ HasLifetime emptyUcan := by
  refine ⟨⟨9, shortUcan_lifetime 9 (by decide) (by decide)⟩, ?_⟩
  rintro ⟨t, h1, h2⟩
  have a : ((10 : UInt64).toNat : Int) ≤ t := h1 10 rfl
  have b : t ≤ ((9 : UInt64).toNat : Int) := h2 9 rfl
  have c : ((10 : UInt64).toNat : Int) = 10 := rfl
  have d : ((9 : UInt64).toNat : Int) = 9 := rfl
  omega

/-- Beside `C95_accepted`: its hypotheses hold of the short-lived token with the clock passing from one end of its lifetime to the other. -/
example (D : Deps) : Sound D (Authentic exCtors) (fun _ _ => False) (.mk shortUcan [] []) ∧ ∀ i, 0 ≤ i → InLifetime shortUcan (passing.clock i).toNat := by
  refine ⟨?_, fun i _ => ?_⟩
  · simp only [Sound]
    exact ⟨authUcan_authentic, by simp only [SoundAll]; rfl, (redelegations_iff D 0 shortUcan []).1 rfl⟩
  · by_cases h : i = 0
    · subst h; exact shortUcan_lifetime _ (by decide) (by decide)
    · have : passing.clock i = 10 := if_neg h
      rw [this]; exact shortUcan_lifetime _ (by decide) (by decide)

end Ex

end Verif
