import Verif.Props.ProofSemantics
import Verif.Props.Time
import Verif.Spec.Chain

/-! # Chain construction meets its specification -/

namespace Verif
open Spec

namespace Chain

theorem validateLink_iff (p u : Ucan) : validateLink p u = .ok () ↔ Delegates p u := by
  unfold validateLink
  constructor
  · intro h
    split at h
    · rename_i ha
      split at h
      · rename_i hl
        obtain ⟨h1, h2⟩ := (encompasses_iff p u).1 hl
        exact ⟨ha, h1, h2⟩
      · cases h
    · cases h
  · rintro ⟨h1, h2, h3⟩
    rw [if_pos (show p.audience = u.issuer from h1), if_pos ((encompasses_iff p u).2 ⟨h2, h3⟩)]

/-! ## Redelegations -/

/-- Indices selected by a list of parsed claims. -/
def selects (vs : List (View ProofSelection ProofAction)) (i : Nat) : Prop := ∃ v ∈ vs, v.resource = .resource (.scoped (.index i))

theorem redelLoop_iff (n : Nat) (vs : List (View ProofSelection ProofAction)) (hall : ∀ v ∈ vs, kind v.resource ≠ .scoped .all)
    (acc : BSet Nat) (hacc : BSet.Sorted acc) (s : BSet Nat) : redelLoop n acc vs = .ok s ↔
      BSet.Sorted s ∧ (∀ i, i ∈ s ↔ i ∈ acc ∨ selects vs i) ∧ ∀ i, selects vs i → i < n := by
  induction vs generalizing acc with
  | nil =>
    simp only [redelLoop]
    constructor
    · intro h
      cases h
      exact ⟨hacc, fun i => by simp [selects], fun i ⟨v, hv, _⟩ => by cases hv⟩
    · rintro ⟨h1, h2, _⟩
      have : acc = s := BSet.ext hacc h1 (fun i => by rw [h2 i]; simp [selects])
      rw [this]
  | cons v vs ih =>
    have hall' : ∀ v ∈ vs, kind v.resource ≠ .scoped .all := fun v hv => hall v (by simp [hv])
    have hsel : ∀ i, selects (v :: vs) i ↔ v.resource = .resource (.scoped (.index i)) ∨ selects vs i := by
      intro i; simp [selects]
    unfold redelLoop redelStep
    by_cases hidx : ∃ i, v.resource = .resource (.scoped (.index i))
    · obtain ⟨j, hj⟩ := hidx
      simp only [hj]
      have heq : ∀ i, (Resource.resource (.scoped (.index j)) : Resource ProofSelection) = .resource (.scoped (.index i)) ↔ i = j := by
        intro i
        constructor
        · intro h; cases h; rfl
        · intro h; rw [h]
      by_cases hlt : j < n
      · simp only [if_pos hlt]
        rw [ih hall' _ (BSet.sorted_insert hacc j)]
        apply and_congr_right
        intro _
        constructor
        · rintro ⟨h2, h3⟩
          refine ⟨fun i => ?_, fun i hi => ?_⟩
          · rw [h2, hsel, BSet.mem_insert, hj, heq]
            constructor
            · rintro ((h | h) | h)
              · exact Or.inr (Or.inl h)
              · exact Or.inl h
              · exact Or.inr (Or.inr h)
            · rintro (h | h | h)
              · exact Or.inl (Or.inr h)
              · exact Or.inl (Or.inl h)
              · exact Or.inr h
          · rw [hsel, hj, heq] at hi
            rcases hi with rfl | hi
            · exact hlt
            · exact h3 i hi
        · rintro ⟨h2, h3⟩
          refine ⟨fun i => ?_, fun i hi => h3 i ((hsel i).2 (Or.inr hi))⟩
          rw [h2, hsel, BSet.mem_insert, hj, heq]
          constructor
          · rintro (h | h | h)
            · exact Or.inl (Or.inr h)
            · exact Or.inl (Or.inl h)
            · exact Or.inr h
          · rintro ((h | h) | h)
            · exact Or.inr (Or.inl h)
            · exact Or.inl h
            · exact Or.inr (Or.inr h)
      · simp only [if_neg hlt]
        constructor
        · intro h; cases h
        · rintro ⟨_, _, h3⟩
          exact absurd (h3 j ((hsel j).2 (Or.inl hj))) hlt
    · have hv : kind v.resource ≠ .scoped .all := hall v (by simp)
      have hstep : redelStep n acc v = .ok acc := by
        unfold redelStep
        split
        · rename_i h; rw [h] at hv; exact absurd rfl hv
        · rename_i i h; exact absurd ⟨i, h⟩ hidx
        · rfl
      change (match redelStep n acc v with | .ok acc' => redelLoop n acc' vs | .error e => .error e) = .ok s ↔ _
      rw [hstep]
      simp only
      rw [ih hall' acc hacc]
      have : ∀ i, selects (v :: vs) i ↔ selects vs i := by
        intro i
        rw [hsel]
        exact ⟨fun h => h.resolve_left (fun h => hidx ⟨i, h⟩), Or.inr⟩
      simp only [this]

theorem redelegations_iff (D : Deps) (n : Nat) (u : Ucan) (s : BSet Nat) : redelegations D n u = .ok s ↔ RedelOk D u n s := by
  unfold redelegations
  have hsel : ∀ i, selects (u.capabilities.iter.filterMap (proofSemantics.parseCapability D)) i ↔
      ∃ c ∈ u.payload.cap.iter, Redelegates D c i := by
    intro i
    unfold selects
    constructor
    · rintro ⟨v, hv, hr⟩
      obtain ⟨c, hc, hp⟩ := List.mem_filterMap.1 hv
      exact ⟨c, hc, (C19_index_iff D c i).1 ⟨v, hp, hr⟩⟩
    · rintro ⟨c, hc, hr⟩
      obtain ⟨v, hp, hv⟩ := (C19_index_iff D c i).2 hr
      exact ⟨v, List.mem_filterMap.2 ⟨c, hc, hp⟩, hv⟩
  rw [redelLoop_iff n _ _ _ (by simp [BSet.Sorted])]
  · constructor
    · rintro ⟨h1, h2, h3⟩
      have h2' : ∀ i, i ∈ s ↔ ∃ c ∈ u.payload.cap.iter, Redelegates D c i := by
        intro i; rw [h2 i, ← hsel i]; simp
      exact ⟨h1, h2', fun i hi => h3 i ((hsel i).2 ((h2' i).1 hi))⟩
    · rintro ⟨h1, h2, h3⟩
      refine ⟨h1, fun i => ?_, fun i hi => ?_⟩
      · rw [h2 i, hsel i]; simp
      · exact h3 i ((h2 i).2 ((hsel i).1 hi))
  · intro v hv
    obtain ⟨c, _, hp⟩ := List.mem_filterMap.1 hv
    exact C19_all_unreachable D c.resource c.ability (some c.caveat) v hp

/-! ## State -/

/-- What every step keeps: a coherent parser with the same constructors, and a clock that only advances. -/
structure Keeps (w w' : World) : Prop where
  coherent : Coherent w'.parser
  ctors : w'.parser.ctors = w.parser.ctors
  tick : w.tick ≤ w'.tick

theorem Keeps.refl {w : World} (h : Coherent w.parser) : Keeps w w := ⟨h, rfl, Nat.le_refl _⟩
theorem Keeps.trans {a b c : World} (h1 : Keeps a b) (h2 : Keeps b c) : Keeps a c :=
  ⟨h2.coherent, h2.ctors.trans h1.ctors, Nat.le_trans h1.tick h2.tick⟩

theorem requireToken_eq (E : Env) (c : Cid) (w : World) : Store.requireToken E c w =
    if c.codec ≠ Cid.rawCodec then (err .wrongCodec, w)
    else ((match E.read w.tick c with
      | .ok r => Store.tokenOf r
      | .error e => .error e), { w with tick := w.tick + 1 }) := by
  unfold Store.requireToken Store.readToken
  by_cases h : c.codec ≠ Cid.rawCodec
  · rw [if_pos h, if_pos h]; rfl
  · rw [if_neg h, if_neg h]
    show M.bind (M.bind (Env.readM E c) _) _ w = _
    unfold M.bind Env.readM
    cases hr : E.read w.tick c with
    | error e => rfl
    | ok r =>
      show _ = (Store.tokenOf r, _)
      cases ht : Store.tokenOf r with
      | error e => simp only [M.lift, bind, M.bind, ht]
      | ok s => simp only [M.lift, bind, M.bind, ht]; rfl

theorem requireToken_ok {E : Env} {c : Cid} {w w' : World} {s : String} (h : Store.requireToken E c w = (.ok s, w')) :
    c.codec = Cid.rawCodec ∧ E.read w.tick c = .ok (some (.bytes (strBytes s))) ∧ w' = { w with tick := w.tick + 1 } := by
  rw [requireToken_eq] at h
  split at h
  · cases h
  · rename_i hc
    refine ⟨Classical.not_not.1 hc, ?_⟩
    cases hr : E.read w.tick c with
    | error e => rw [hr] at h; cases h
    | ok r =>
      rw [hr] at h
      simp only [Prod.mk.injEq] at h
      refine ⟨?_, h.2.symm⟩
      unfold Store.tokenOf at h
      split at h
      · rename_i b
        have := bytesStr?_eq_some.1 (orErr_eq_ok.1 h.1)
        rw [this]
      · cases h.1

theorem requireToken_of_read {E : Env} {c : Cid} {w : World} {s : String} (hc : c.codec = Cid.rawCodec)
    (hr : E.read w.tick c = .ok (some (.bytes (strBytes s)))) :
    Store.requireToken E c w = (.ok s, { w with tick := w.tick + 1 }) := by
  rw [requireToken_eq, if_neg (by simp [hc]), hr]
  simp only [Store.tokenOf, bytesStr?_strBytes]
  rfl

theorem requireToken_keeps {E : Env} {c : Cid} {w w' : World} {r : Res String} (hc : Coherent w.parser)
    (h : Store.requireToken E c w = (r, w')) : Keeps w w' := by
  rw [requireToken_eq] at h
  split at h
  · cases h; exact .refl hc
  · cases h; exact ⟨hc, rfl, Nat.le_succ _⟩

/-- A bind keeps what both parts keep. -/
theorem bind_keeps {α β : Type} {x : M α} {f : α → M β} {w w' : World} {r : Res β}
    (hx : ∀ r w', x w = (r, w') → Keeps w w') (hf : ∀ a w1 r w', Keeps w w1 → f a w1 = (r, w') → Keeps w1 w')
    (h : (x >>= f) w = (r, w')) : Keeps w w' := by
  cases hxw : x w with
  | mk rx w1 =>
    have hk := hx rx w1 hxw
    cases rx with
    | ok a =>
      rw [M.bind_of_ok hxw] at h
      exact hk.trans (hf a w1 r w' hk h)
    | error e =>
      rw [M.bind_of_error hxw] at h
      cases h
      exact hk

theorem lift_keeps {α : Type} {x : Res α} {w w' : World} {r : Res α} (hc : Coherent w.parser) (h : M.lift x w = (r, w')) : Keeps w w' := by
  cases h; exact .refl hc

theorem proofsLoop_keeps (D : Deps) (E : Env) (rec : String → M Chain) (u : Ucan)
    (hrec : ∀ t w r w', Coherent w.parser → rec t w = (r, w') → Keeps w w') (ss : List String) :
    ∀ (w w' : World) (r : Res (List Chain)), Coherent w.parser → proofsLoop D E rec u ss w = (r, w') → Keeps w w' := by
  induction ss with
  | nil => intro w w' r hc h; cases h; exact .refl hc
  | cons s ss ih =>
    intro w w' r hc h
    unfold proofsLoop at h
    refine bind_keeps (fun r w' h => lift_keeps hc h) (fun cid w1 r w' hk1 h => ?_) h
    refine bind_keeps (fun r w' h => requireToken_keeps hk1.coherent h) (fun tok w2 r w' hk2 h => ?_) h
    refine bind_keeps (fun r w' h => hrec tok _ _ _ hk2.coherent h) (fun c w3 r w' hk3 h => ?_) h
    refine bind_keeps (fun r w' h => lift_keeps hk3.coherent h) (fun _ w4 r w' hk4 h => ?_) h
    refine bind_keeps (fun r w' h => ih _ _ _ hk4.coherent h) (fun cs w5 r w' hk5 h => ?_) h
    cases h; exact .refl hk5.coherent

theorem fromUcanWith_keeps (D : Deps) (E : Env) (nowTime : Option UInt64) (rec : String → M Chain) (u : Ucan)
    (hrec : ∀ t w r w', Coherent w.parser → rec t w = (r, w') → Keeps w w') (w w' : World) (r : Res Chain) (hc : Coherent w.parser)
    (h : fromUcanWith D E nowTime rec u w = (r, w')) : Keeps w w' := by
  unfold fromUcanWith at h
  refine bind_keeps (fun r w' h => ?_) (fun _ w1 r w' hk1 h => ?_) h
  · obtain ⟨h1, h2, h3⟩ := validate_world hc h
    exact ⟨h1, h2, h3⟩
  · refine bind_keeps (fun r w' h => proofsLoop_keeps D E rec u hrec _ _ _ _ hk1.coherent h) (fun cs w2 r w' hk2 h => ?_) h
    refine bind_keeps (fun r w' h => lift_keeps hk2.coherent h) (fun _ w3 r w' hk3 h => ?_) h
    cases h; exact .refl hk3.coherent

theorem ofToken_keeps (D : Deps) (E : Env) (nowTime : Option UInt64) (fuel : Nat) : ∀ (t : String) (w : World) (r : Res Chain) (w' : World),
    Coherent w.parser → ofToken D E nowTime fuel t w = (r, w') → Keeps w w' := by
  induction fuel with
  | zero => intro t w r w' hc h; exact lift_keeps hc h
  | succ fuel ih =>
    intro t w r w' hc h
    unfold ofToken at h
    refine bind_keeps (fun r w' h => lift_keeps hc h) (fun u w1 r w' hk1 h => ?_) h
    exact fromUcanWith_keeps D E nowTime _ u ih _ _ _ hk1.coherent h

/-! ## Monotonicity of the specification -/

theorem Resolves.mono {D : Deps} {F F' : Cid → Bytes → Prop} (h : ∀ c b, F c b → F' c b) {s : String} {u : Ucan} :
    Resolves D F s u → Resolves D F' s u := by
  rintro ⟨cid, tok, h1, h2, h3, h4⟩
  exact ⟨cid, tok, h1, h2, h _ _ h3, h4⟩

mutual
theorem Sound.mono {D : Deps} {V V' : Ucan → Prop} {F F' : Cid → Bytes → Prop} (hV : ∀ u, V u → V' u) (hF : ∀ c b, F c b → F' c b) :
    ∀ c : Chain, Sound D V F c → Sound D V' F' c
  | .mk u proofs redel, h => by
    simp only [Sound] at h ⊢
    exact ⟨hV _ h.1, SoundAll.mono hV hF u _ proofs h.2.1, h.2.2⟩
theorem SoundAll.mono {D : Deps} {V V' : Ucan → Prop} {F F' : Cid → Bytes → Prop} (hV : ∀ u, V u → V' u) (hF : ∀ c b, F c b → F' c b)
    (u : Ucan) : ∀ (ss : List String) (cs : List Chain), SoundAll D V F u ss cs → SoundAll D V' F' u ss cs
  | ss, [], h => by simpa only [SoundAll] using h
  | ss, c :: cs, h => by
    simp only [SoundAll] at h ⊢
    obtain ⟨s, ss', e, hr, hd, hs, ha⟩ := h
    exact ⟨s, ss', e, Resolves.mono hF hr, hd, Sound.mono hV hF c hs, SoundAll.mono hV hF u ss' cs ha⟩
end

theorem ValidIn.mono {E : Env} {nowTime : Option UInt64} {ctors : BMap Bytes KeyCtor} {lo hi lo' hi' : Nat} (hlo : lo' ≤ lo) (hhi : hi ≤ hi')
    (u : Ucan) (h : ValidIn E nowTime ctors lo hi u) : ValidIn E nowTime ctors lo' hi' u := by
  refine ⟨h.authentic, fun e he => ?_, fun n hn => ?_⟩
  · have := h.unexpired e he
    cases nowTime with
    | some t => exact this
    | none =>
      obtain ⟨i, h1, h2, h3⟩ := this
      exact ⟨i, Nat.le_trans hlo h1, Nat.lt_of_lt_of_le h2 hhi, h3⟩
  · obtain ⟨i, h1, h2, h3⟩ := h.active n hn
    exact ⟨i, Nat.le_trans hlo h1, Nat.lt_of_lt_of_le h2 hhi, h3⟩

theorem ReadIn.mono {E : Env} {lo hi lo' hi' : Nat} (hlo : lo' ≤ lo) (hhi : hi ≤ hi') (c : Cid) (b : Bytes) (h : ReadIn E lo hi c b) :
    ReadIn E lo' hi' c b := by
  obtain ⟨i, h1, h2, h3⟩ := h
  exact ⟨i, Nat.le_trans hlo h1, Nat.lt_of_lt_of_le h2 hhi, h3⟩

/-! ## Soundness -/

theorem validate_validIn {E : Env} {u : Ucan} {nowTime : Option UInt64} {w w' : World} (hc : Coherent w.parser)
    (h : u.validate E nowTime w = (.ok (), w')) : ValidIn E nowTime w.parser.ctors w.tick w'.tick u := by
  have h1 : (u.validate E nowTime w).1 = .ok () := by rw [h]
  obtain ⟨he, hn, ha⟩ := (C12_validate_iff E u nowTime w hc).1 h1
  have htick : w'.tick = w.tick + expiryReads u nowTime + if u.payload.nbf.isSome then 1 else 0 := by
    unfold Ucan.validate at h
    obtain ⟨b, hb⟩ := (C10_total E u nowTime w).1
    have hb' : u.isExpired E nowTime w = (.ok b, (u.isExpired E nowTime w).2) := by rw [← hb]
    obtain ⟨hp1, ht1, _⟩ := isExpired_false hb'
    rw [M.bind_of_ok hb'] at h
    cases b with
    | true => simp [err] at h
    | false =>
      simp only [Bool.false_eq_true, if_false] at h
      obtain ⟨c, hcc⟩ := (C10_total E u nowTime (u.isExpired E nowTime w).2).2
      have hc' : u.isTooEarly E (u.isExpired E nowTime w).2 = (.ok c, (u.isTooEarly E (u.isExpired E nowTime w).2).2) := by rw [← hcc]
      rw [M.bind_of_ok hc'] at h
      cases c with
      | true => simp [err] at h
      | false =>
        simp only [Bool.false_eq_true, if_false] at h
        rw [(checkSignature_world h).1, isTooEarly_eq]
        change _ = w.tick + expiryReads u nowTime at ht1
        cases u.payload.nbf <;> simp [ht1]
  refine ⟨ha, fun e hee => ?_, fun n hnn => ?_⟩
  · have := he e hee
    cases nowTime with
    | some t => exact this
    | none =>
      refine ⟨w.tick, Nat.le_refl _, ?_, this⟩
      rw [htick]
      simp only [expiryReads, hee, Option.isSome_some, and_self, if_true]
      omega
  · refine ⟨w.tick + expiryReads u nowTime, Nat.le_add_right _ _, ?_, hn n hnn⟩
    rw [htick, hnn]
    simp

theorem proofsLoop_sound (D : Deps) (E : Env) (nowTime : Option UInt64) (rec : String → M Chain) (u : Ucan)
    (hkeep : ∀ t w r w', Coherent w.parser → rec t w = (r, w') → Keeps w w')
    (hrec : ∀ t w c w', Coherent w.parser → rec t w = (.ok c, w') →
      Ucan.fromStr D t = .ok c.ucan ∧ Sound D (ValidIn E nowTime w.parser.ctors w.tick w'.tick) (ReadIn E w.tick w'.tick) c)
    (ss : List String) : ∀ (w w' : World) (cs : List Chain), Coherent w.parser → proofsLoop D E rec u ss w = (.ok cs, w') →
      SoundAll D (ValidIn E nowTime w.parser.ctors w.tick w'.tick) (ReadIn E w.tick w'.tick) u ss cs ∧ cs.length = ss.length := by
  induction ss with
  | nil =>
    intro w w' cs _ h
    cases h
    exact ⟨by simp [SoundAll], rfl⟩
  | cons s ss ih =>
    intro w w' cs hc h
    unfold proofsLoop at h
    obtain ⟨cid, w1, h1, h⟩ := M.bind_ok.1 h
    obtain ⟨tok, w2, h2, h⟩ := M.bind_ok.1 h
    obtain ⟨c, w3, h3, h⟩ := M.bind_ok.1 h
    obtain ⟨⟨⟩, w4, h4, h⟩ := M.bind_ok.1 h
    obtain ⟨cs', w5, h5, h⟩ := M.bind_ok.1 h
    cases h
    obtain ⟨h1a, rfl⟩ := Prod.mk.inj h1
    obtain ⟨h4a, rfl⟩ := Prod.mk.inj h4
    have hk2 := requireToken_keeps hc h2
    have hk3 := hkeep _ _ _ _ hk2.coherent h3
    have hk5 := proofsLoop_keeps D E rec u hkeep ss _ _ _ hk3.coherent h5
    obtain ⟨hcodec, hread, hw2⟩ := requireToken_ok h2
    have ht2 : w2.tick = w.tick + 1 := by rw [hw2]
    obtain ⟨hf, hs⟩ := hrec _ _ _ _ hk2.coherent h3
    obtain ⟨ha, hl⟩ := ih _ _ _ hk3.coherent h5
    have t3 := hk3.tick
    have t5 := hk5.tick
    refine ⟨?_, by simp [hl]⟩
    simp only [SoundAll]
    refine ⟨s, ss, rfl, ⟨cid, tok, orErr_eq_ok.1 h1a, hcodec, ⟨w.tick, Nat.le_refl _, by omega, hread⟩, hf⟩,
      (validateLink_iff _ _).1 h4a, ?_, ?_⟩
    · rw [hk2.ctors] at hs
      exact Sound.mono (fun u => ValidIn.mono hk2.tick t5 u) (fun c b => ReadIn.mono hk2.tick t5 c b) c hs
    · rw [hk3.ctors, hk2.ctors] at ha
      have t23 : w.tick ≤ w3.tick := Nat.le_trans hk2.tick t3
      exact SoundAll.mono (fun u => ValidIn.mono t23 (Nat.le_refl _) u) (fun c b => ReadIn.mono t23 (Nat.le_refl _) c b) u ss cs' ha

theorem fromUcanWith_sound (D : Deps) (E : Env) (nowTime : Option UInt64) (rec : String → M Chain) (u : Ucan)
    (hkeep : ∀ t w r w', Coherent w.parser → rec t w = (r, w') → Keeps w w')
    (hrec : ∀ t w c w', Coherent w.parser → rec t w = (.ok c, w') →
      Ucan.fromStr D t = .ok c.ucan ∧ Sound D (ValidIn E nowTime w.parser.ctors w.tick w'.tick) (ReadIn E w.tick w'.tick) c)
    (w w' : World) (c : Chain) (hc : Coherent w.parser) (h : fromUcanWith D E nowTime rec u w = (.ok c, w')) :
    c.ucan = u ∧ Sound D (ValidIn E nowTime w.parser.ctors w.tick w'.tick) (ReadIn E w.tick w'.tick) c := by
  unfold fromUcanWith at h
  obtain ⟨⟨⟩, w1, h1, h⟩ := M.bind_ok.1 h
  obtain ⟨cs, w2, h2, h⟩ := M.bind_ok.1 h
  obtain ⟨redel, w3, h3, h⟩ := M.bind_ok.1 h
  cases h
  obtain ⟨h3a, rfl⟩ := Prod.mk.inj h3
  obtain ⟨k1, k2, k3⟩ := validate_world hc h1
  have hk2 := proofsLoop_keeps D E rec u hkeep _ _ _ _ k1 h2
  obtain ⟨ha, hl⟩ := proofsLoop_sound D E nowTime rec u hkeep hrec _ _ _ _ k1 h2
  refine ⟨rfl, ?_⟩
  simp only [Sound]
  refine ⟨ValidIn.mono (Nat.le_refl _) hk2.tick u (validate_validIn hc h1), ?_, (redelegations_iff D _ u redel).1 h3a⟩
  rw [k2] at ha
  exact SoundAll.mono (fun u => ValidIn.mono k3 (Nat.le_refl _) u) (fun c b => ReadIn.mono k3 (Nat.le_refl _) c b) u _ cs ha

theorem ofToken_sound (D : Deps) (E : Env) (nowTime : Option UInt64) (fuel : Nat) : ∀ (t : String) (w : World) (c : Chain) (w' : World),
    Coherent w.parser → ofToken D E nowTime fuel t w = (.ok c, w') →
    Ucan.fromStr D t = .ok c.ucan ∧ Sound D (ValidIn E nowTime w.parser.ctors w.tick w'.tick) (ReadIn E w.tick w'.tick) c := by
  induction fuel with
  | zero => intro t w c w' _ h; cases h
  | succ fuel ih =>
    intro t w c w' hc h
    unfold ofToken at h
    obtain ⟨u, w1, h1, h⟩ := M.bind_ok.1 h
    obtain ⟨h1a, rfl⟩ := Prod.mk.inj h1
    obtain ⟨e, hs⟩ := fromUcanWith_sound D E nowTime _ u (ofToken_keeps D E nowTime fuel) ih _ _ _ hc h
    exact ⟨by rw [e]; exact h1a, hs⟩

/-! ## Completeness -/

/-- An environment in which `V` and `F` suffice at every instant from tick `lo` on. -/
structure Enables (E : Env) (nowTime : Option UInt64) (ctors : BMap Bytes KeyCtor) (lo : Nat) (V : Ucan → Prop) (F : Cid → Bytes → Prop) : Prop where
  valid : ∀ u w, Coherent w.parser → w.parser.ctors = ctors → lo ≤ w.tick → V u → ∃ w', u.validate E nowTime w = (.ok (), w')
  read : ∀ i c b, lo ≤ i → F c b → E.read i c = .ok (some (.bytes b))

theorem proofsLoop_complete {D : Deps} {E : Env} {nowTime : Option UInt64} {ctors : BMap Bytes KeyCtor} {lo : Nat} {V : Ucan → Prop}
    {F : Cid → Bytes → Prop} (hE : Enables E nowTime ctors lo V F) (rec : String → M Chain) (u : Ucan)
    (hkeep : ∀ t w r w', Coherent w.parser → rec t w = (r, w') → Keeps w w') (cs : List Chain)
    (hrec : ∀ c ∈ cs, ∀ t w, Coherent w.parser → w.parser.ctors = ctors → lo ≤ w.tick → Ucan.fromStr D t = .ok c.ucan → Sound D V F c →
      ∃ w', rec t w = (.ok c, w')) :
    ∀ (ss : List String) (w : World), Coherent w.parser → w.parser.ctors = ctors → lo ≤ w.tick → SoundAll D V F u ss cs →
      ∃ w', proofsLoop D E rec u ss w = (.ok cs, w') := by
  induction cs with
  | nil =>
    intro ss w _ _ _ h
    simp only [SoundAll] at h
    subst h
    exact ⟨w, rfl⟩
  | cons c cs ih =>
    intro ss w hc hct hlo h
    simp only [SoundAll] at h
    obtain ⟨s, ss', rfl, ⟨cid, tok, hp, hcodec, hF, hfs⟩, hd, hs, ha⟩ := h
    have h2 := requireToken_of_read (w := w) hcodec (hE.read w.tick _ _ hlo hF)
    obtain ⟨w3, h3⟩ := hrec c (by simp) tok { w with tick := w.tick + 1 } hc hct (Nat.le_succ_of_le hlo) hfs hs
    have hk3 := hkeep _ { w with tick := w.tick + 1 } _ _ hc h3
    have hlo3 : lo ≤ w3.tick := Nat.le_trans (Nat.le_succ_of_le hlo) hk3.tick
    obtain ⟨w5, h5⟩ := ih (fun c hc => hrec c (by simp [hc])) ss' w3 hk3.coherent (hk3.ctors.trans hct) hlo3 ha
    refine ⟨w5, ?_⟩
    unfold proofsLoop
    rw [hp]
    refine (M.bind_of_ok (x := M.lift (orErr .cidText (some cid))) (a := cid) (w1 := w) rfl).trans ?_
    rw [M.bind_of_ok h2, M.bind_of_ok h3]
    rw [(validateLink_iff _ _).2 hd]
    refine (M.bind_of_ok (x := M.lift (.ok ())) (a := ()) (w1 := w3) rfl).trans ?_
    rw [M.bind_of_ok h5]
    rfl

theorem fromUcanWith_complete {D : Deps} {E : Env} {nowTime : Option UInt64} {ctors : BMap Bytes KeyCtor} {lo : Nat} {V : Ucan → Prop}
    {F : Cid → Bytes → Prop} (hE : Enables E nowTime ctors lo V F) (rec : String → M Chain)
    (hkeep : ∀ t w r w', Coherent w.parser → rec t w = (r, w') → Keeps w w') (c : Chain)
    (hrec : ∀ c' ∈ c.proofs, ∀ t w, Coherent w.parser → w.parser.ctors = ctors → lo ≤ w.tick → Ucan.fromStr D t = .ok c'.ucan →
      Sound D V F c' → ∃ w', rec t w = (.ok c', w'))
    (w : World) (hc : Coherent w.parser) (hct : w.parser.ctors = ctors) (hlo : lo ≤ w.tick) (h : Sound D V F c) :
    ∃ w', fromUcanWith D E nowTime rec c.ucan w = (.ok c, w') := by
  obtain ⟨u, cs, redel⟩ := c
  simp only [Sound] at h
  obtain ⟨hv, ha, hr⟩ := h
  obtain ⟨w1, h1⟩ := hE.valid u w hc hct hlo hv
  obtain ⟨k1, k2, k3⟩ := validate_world hc h1
  obtain ⟨w2, h2⟩ := proofsLoop_complete hE rec u hkeep cs hrec _ w1 k1 (k2.trans hct) (Nat.le_trans hlo k3) ha
  refine ⟨w2, ?_⟩
  show fromUcanWith D E nowTime rec u w = _
  unfold fromUcanWith
  rw [M.bind_of_ok h1]
  refine (M.bind_of_ok h2).trans ?_
  rw [(redelegations_iff D _ u redel).2 hr]
  rfl

theorem levels_le_levelsAll {c : Chain} {cs : List Chain} (h : c ∈ cs) : levels c ≤ levelsAll cs := by
  induction cs with
  | nil => cases h
  | cons d cs ih =>
    rcases List.mem_cons.1 h with rfl | h
    · simp only [levelsAll]; omega
    · have := ih h
      simp only [levelsAll]; omega

theorem ofToken_complete {D : Deps} {E : Env} {nowTime : Option UInt64} {ctors : BMap Bytes KeyCtor} {lo : Nat} {V : Ucan → Prop}
    {F : Cid → Bytes → Prop} (hE : Enables E nowTime ctors lo V F) (fuel : Nat) : ∀ (t : String) (w : World) (c : Chain), Coherent w.parser →
      w.parser.ctors = ctors → lo ≤ w.tick → levels c ≤ fuel → Ucan.fromStr D t = .ok c.ucan → Sound D V F c →
      ∃ w', ofToken D E nowTime fuel t w = (.ok c, w') := by
  induction fuel with
  | zero =>
    intro t w c _ _ _ hl
    obtain ⟨u, cs, r⟩ := c
    simp [levels] at hl
  | succ fuel ih =>
    intro t w c hc hct hlo hl hf hs
    have hrec : ∀ c' ∈ c.proofs, ∀ t w, Coherent w.parser → w.parser.ctors = ctors → lo ≤ w.tick → Ucan.fromStr D t = .ok c'.ucan →
        Sound D V F c' → ∃ w', ofToken D E nowTime fuel t w = (.ok c', w') := by
      intro c' hc' t w h1 h2 h2' h3 h4
      refine ih t w c' h1 h2 h2' ?_ h3 h4
      obtain ⟨u, cs, r⟩ := c
      have := levels_le_levelsAll (show c' ∈ cs from hc')
      simp only [levels] at hl
      omega
    obtain ⟨w', h⟩ := fromUcanWith_complete hE (ofToken D E nowTime fuel) (ofToken_keeps D E nowTime fuel) c hrec w hc hct hlo hs
    refine ⟨w', ?_⟩
    unfold ofToken
    rw [hf]
    exact h

/-! ## Structure of sound chains -/

theorem SoundAll.mem {D : Deps} {V : Ucan → Prop} {F : Cid → Bytes → Prop} {u : Ucan} : ∀ {ss : List String} {cs : List Chain},
    SoundAll D V F u ss cs → ∀ c ∈ cs, Delegates c.ucan u ∧ Sound D V F c ∧ ∃ s ∈ ss, Resolves D F s c.ucan
  | ss, [], _, c, hc => by cases hc
  | ss, d :: cs, h, c, hc => by
    simp only [SoundAll] at h
    obtain ⟨s, ss', rfl, hr, hd, hs, ha⟩ := h
    rcases List.mem_cons.1 hc with rfl | hc
    · exact ⟨hd, hs, s, by simp, hr⟩
    · obtain ⟨h1, h2, s', h3, h4⟩ := SoundAll.mem ha c hc
      exact ⟨h1, h2, s', by simp [h3], h4⟩

theorem SoundAll.entry {D : Deps} {V : Ucan → Prop} {F : Cid → Bytes → Prop} {u : Ucan} : ∀ {ss : List String} {cs : List Chain},
    SoundAll D V F u ss cs → cs.length = ss.length ∧ ∀ (i : Nat) (s : String) (c : Chain), ss[i]? = some s → cs[i]? = some c → Resolves D F s c.ucan
  | ss, [], h => by
    simp only [SoundAll] at h
    subst h
    exact ⟨rfl, fun i s c hs => by simp at hs⟩
  | ss, d :: cs, h => by
    simp only [SoundAll] at h
    obtain ⟨s, ss', rfl, hr, hd, hs, ha⟩ := h
    obtain ⟨h1, h2⟩ := SoundAll.entry ha
    refine ⟨by simp [h1], fun i s' c hs' hc => ?_⟩
    cases i with
    | zero =>
      simp at hs' hc
      rw [← hs', ← hc]; exact hr
    | succ i =>
      simp at hs' hc
      exact h2 i s' c hs' hc

theorem Sound.all {D : Deps} {V : Ucan → Prop} {F : Cid → Bytes → Prop} {c : Chain} (h : Sound D V F c) :
    V c.ucan ∧ SoundAll D V F c.ucan (c.ucan.payload.prf.getD []) c.proofs ∧ RedelOk D c.ucan c.proofs.length c.redel := by
  obtain ⟨u, cs, r⟩ := c
  simp only [Sound] at h
  exact h

theorem Sound.sub {D : Deps} {V : Ucan → Prop} {F : Cid → Bytes → Prop} {c d : Chain} (hd : Sub d c) : Sound D V F c → Sound D V F d := by
  induction hd with
  | self => exact id
  | proof he _ ih => exact fun h => ih ((SoundAll.mem (Sound.all h).2.1 _ he).2.1)

/-- The store content is a function. -/
def Functional (F : Cid → Bytes → Prop) : Prop := ∀ c b b', F c b → F c b' → b = b'

theorem Resolves.unique {D : Deps} {F : Cid → Bytes → Prop} (hF : Functional F) {s : String} {u v : Ucan} :
    Resolves D F s u → Resolves D F s v → u = v := by
  rintro ⟨c, t, h1, _, h3, h4⟩ ⟨c', t', h1', _, h3', h4'⟩
  rw [h1] at h1'; cases h1'
  have := strBytes_inj (hF _ _ _ h3 h3')
  subst this
  rw [h4] at h4'; cases h4'; rfl

theorem RedelOk.unique {D : Deps} {u : Ucan} {n m : Nat} {r r' : BSet Nat} (h : RedelOk D u n r) (h' : RedelOk D u m r') : r = r' :=
  BSet.ext h.sorted h'.sorted (fun i => (h.claimed i).trans (h'.claimed i).symm)

mutual
theorem Sound.unique {D : Deps} {V : Ucan → Prop} {F : Cid → Bytes → Prop} (hF : Functional F) :
    ∀ c d : Chain, c.ucan = d.ucan → Sound D V F c → Sound D V F d → c = d
  | .mk u cs r, .mk u' cs' r', e, h, h' => by
    cases (show u = u' from e)
    simp only [Sound] at h h'
    rw [SoundAll.unique hF u cs cs' _ h.2.1 h'.2.1, RedelOk.unique h.2.2 h'.2.2]
theorem SoundAll.unique {D : Deps} {V : Ucan → Prop} {F : Cid → Bytes → Prop} (hF : Functional F) (u : Ucan) :
    ∀ (cs cs' : List Chain) (ss : List String), SoundAll D V F u ss cs → SoundAll D V F u ss cs' → cs = cs'
  | [], [], _, _, _ => rfl
  | [], d :: ds, ss, h, h' => by
    simp only [SoundAll] at h h'
    obtain ⟨s, ss', e, _⟩ := h'
    rw [h] at e; cases e
  | c :: cs, [], ss, h, h' => by
    simp only [SoundAll] at h h'
    obtain ⟨s, ss', e, _⟩ := h
    rw [h'] at e; cases e
  | c :: cs, d :: ds, ss, h, h' => by
    simp only [SoundAll] at h h'
    obtain ⟨s, ss', e, hr, _, hs, ha⟩ := h
    obtain ⟨s1, ss1, e1, hr1, _, hs1, ha1⟩ := h'
    rw [e] at e1; cases e1
    rw [Sound.unique hF c d (Resolves.unique hF hr hr1) hs hs1, SoundAll.unique hF u cs ds ss' ha ha1]
end

/-- Everything reachable through the proof lists is in the chain. -/
theorem reaches_sub {D : Deps} {V : Ucan → Prop} {F : Cid → Bytes → Prop} (hF : Functional F) {u v : Ucan} (h : Reaches D F u v) :
    ∀ c : Chain, c.ucan = u → Sound D V F c → ∃ d, Sub d c ∧ d.ucan = v := by
  induction h with
  | self => exact fun c e _ => ⟨c, .self c, e⟩
  | step hs hr _ ih =>
    intro c e hc
    subst e
    obtain ⟨_, ha, _⟩ := Sound.all hc
    obtain ⟨i, hi⟩ := List.mem_iff_getElem?.1 hs
    obtain ⟨hlen, hent⟩ := SoundAll.entry ha
    obtain ⟨hilt, _⟩ := List.getElem?_eq_some_iff.1 hi
    have hci : c.proofs[i]? = some c.proofs[i] := List.getElem?_eq_getElem (by omega)
    have hmem : c.proofs[i] ∈ c.proofs := List.getElem_mem _
    obtain ⟨d, hd, e⟩ := ih _ (Resolves.unique hF (hent i _ _ hi hci) hr) (SoundAll.mem ha _ hmem).2.1
    exact ⟨d, .proof hmem hd, e⟩

/-! ## Fuel -/

theorem bind_agree {α β : Type} {x x' : M α} {f f' : α → M β} {w : World} (hx : (x w).1 ≠ .error .diverge → x' w = x w)
    (hf : ∀ a w1, x w = (.ok a, w1) → (f a w1).1 ≠ .error .diverge → f' a w1 = f a w1) (h : ((x >>= f) w).1 ≠ .error .diverge) :
    (x' >>= f') w = (x >>= f) w := by
  cases hxw : x w with
  | mk r w1 =>
    cases r with
    | ok a =>
      have hx' := hx (by rw [hxw]; simp)
      rw [hxw] at hx'
      rw [M.bind_of_ok hxw] at h ⊢
      rw [M.bind_of_ok hx']
      exact hf a w1 hxw h
    | error e =>
      rw [M.bind_of_error hxw] at h ⊢
      have hx' := hx (by rw [hxw]; intro e'; cases e'; exact h rfl)
      rw [hxw] at hx'
      rw [M.bind_of_error hx']

theorem proofsLoop_agree {D : Deps} {E : Env} {rec rec' : String → M Chain} {u : Ucan}
    (hrec : ∀ t w, (rec t w).1 ≠ .error .diverge → rec' t w = rec t w) (ss : List String) : ∀ w,
    (proofsLoop D E rec u ss w).1 ≠ .error .diverge → proofsLoop D E rec' u ss w = proofsLoop D E rec u ss w := by
  induction ss with
  | nil => intro w _; rfl
  | cons s ss ih =>
    intro w h
    unfold proofsLoop at h ⊢
    refine bind_agree (fun _ => rfl) (fun cid w1 _ h => ?_) h
    refine bind_agree (fun _ => rfl) (fun tok w2 _ h => ?_) h
    refine bind_agree (hrec tok w2) (fun c w3 _ h => ?_) h
    refine bind_agree (fun _ => rfl) (fun _ w4 _ h => ?_) h
    exact bind_agree (ih w4) (fun cs w5 _ h => rfl) h

theorem fromUcanWith_agree {D : Deps} {E : Env} {nowTime : Option UInt64} {rec rec' : String → M Chain} {u : Ucan}
    (hrec : ∀ t w, (rec t w).1 ≠ .error .diverge → rec' t w = rec t w) (w : World)
    (h : (fromUcanWith D E nowTime rec u w).1 ≠ .error .diverge) : fromUcanWith D E nowTime rec' u w = fromUcanWith D E nowTime rec u w := by
  unfold fromUcanWith at h ⊢
  refine bind_agree (fun _ => rfl) (fun _ w1 _ h => ?_) h
  exact bind_agree (proofsLoop_agree hrec _ w1) (fun _ w2 _ _ => rfl) h

theorem ofToken_succ {D : Deps} {E : Env} {nowTime : Option UInt64} (fuel : Nat) : ∀ (t : String) (w : World),
    (ofToken D E nowTime fuel t w).1 ≠ .error .diverge → ofToken D E nowTime (fuel + 1) t w = ofToken D E nowTime fuel t w := by
  induction fuel with
  | zero => intro t w h; exact absurd rfl h
  | succ fuel ih =>
    intro t w h
    rw [ofToken] at h
    rw [ofToken, ofToken]
    exact bind_agree (fun _ => rfl) (fun u w1 _ h => fromUcanWith_agree ih w1 h) h

theorem ofToken_fuel {D : Deps} {E : Env} {nowTime : Option UInt64} {fuel fuel' : Nat} (hle : fuel ≤ fuel') (t : String) (w : World)
    (h : (ofToken D E nowTime fuel t w).1 ≠ .error .diverge) : ofToken D E nowTime fuel' t w = ofToken D E nowTime fuel t w := by
  induction hle with
  | refl => rfl
  | step _ ih => rw [ofToken_succ _ t w (by rw [ih]; exact h), ih]

theorem fromUcan_fuel {D : Deps} {E : Env} {nowTime : Option UInt64} {fuel fuel' : Nat} (hle : fuel ≤ fuel') (u : Ucan) (w : World)
    (h : (fromUcan D E nowTime fuel u w).1 ≠ .error .diverge) : fromUcan D E nowTime fuel' u w = fromUcan D E nowTime fuel u w :=
  fromUcanWith_agree (fun t w => ofToken_fuel hle t w) w h

end Chain
end Verif
