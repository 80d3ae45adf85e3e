import Verif.Props.Fetch
import Verif.Props.Number

/-! # C106 How deep validation nests -/

namespace Verif
open Spec Chain

namespace Async

variable {D : Deps} {E : Env} {nowTime : Option UInt64}

/-- From `s`, after `k` steps `s'`; in between at most `h` calls wait, and at some moment so many. -/
structure Climbs (D : Deps) (E : Env) (nowTime : Option UInt64) (k h : Nat) (s s' : Nat × Task) : Prop where
  run : runIn D E nowTime k s = s'
  most : ∀ j, j ≤ k → (runIn D E nowTime j s).2.stack.length ≤ h
  peak : ∃ j, j ≤ k ∧ (runIn D E nowTime j s).2.stack.length = h

theorem Climbs.zero (s : Nat × Task) : Climbs D E nowTime 0 s.2.stack.length s s :=
  ⟨rfl, fun j hj => by rw [Nat.le_zero.1 hj]; exact Nat.le_refl _, 0, Nat.le_refl _, rfl⟩

theorem Climbs.trans {k l a b : Nat} {s t r : Nat × Task} (h : Climbs D E nowTime k a s t) (h' : Climbs D E nowTime l b t r) :
    Climbs D E nowTime (k + l) (max a b) s r := by
  have shift : ∀ j, k ≤ j → runIn D E nowTime j s = runIn D E nowTime (j - k) t := by
    intro j hj
    have : j = k + (j - k) := by omega
    rw [this, runIn_add, h.run]
    congr 1
    omega
  refine ⟨by rw [runIn_add, h.run, h'.run], fun j hj => ?_, ?_⟩
  · rcases Nat.le_total j k with hjk | hjk
    · exact Nat.le_trans (h.most j hjk) (Nat.le_max_left _ _)
    · rw [shift j hjk]
      exact Nat.le_trans (h'.most (j - k) (by omega)) (Nat.le_max_right _ _)
  · rcases Nat.le_total a b with hab | hab
    · obtain ⟨j, hj, hl⟩ := h'.peak
      refine ⟨k + j, by omega, ?_⟩
      rw [shift _ (by omega), Nat.max_eq_right hab, Nat.add_sub_cancel_left]
      exact hl
    · obtain ⟨j, hj, hl⟩ := h.peak
      exact ⟨j, by omega, by rw [Nat.max_eq_left hab]; exact hl⟩

theorem Climbs.one {h : Nat} {s s' : Nat × Task} (hr : stepIn D E nowTime s = s') (h1 : s.2.stack.length ≤ h) (h2 : s'.2.stack.length ≤ h)
    (h3 : s.2.stack.length = h ∨ s'.2.stack.length = h) : Climbs D E nowTime 1 h s s' := by
  refine ⟨hr, fun j hj => ?_, ?_⟩
  · rcases Nat.le_one_iff_eq_zero_or_eq_one.1 hj with rfl | rfl
    · exact h1
    · show (stepIn D E nowTime s).2.stack.length ≤ h
      rw [hr]; exact h2
  · rcases h3 with h3 | h3
    · exact ⟨0, Nat.zero_le _, h3⟩
    · refine ⟨1, Nat.le_refl _, ?_⟩
      show (stepIn D E nowTime s).2.stack.length = h
      rw [hr]; exact h3

theorem Climbs.flat {k a : Nat} {s t : Nat × Task} {b : Nat} (h : Climbs D E nowTime k a s t) (e : a = b) : Climbs D E nowTime k b s t := e ▸ h

/-- A successful validation takes four steps, during which no call is added. -/
theorem validate_climbs (u : Ucan) (K : List Frame) (n : Nat) (p : DidParser) (w1 : World) (h : u.validate E nowTime ⟨n, p⟩ = (.ok (), w1)) :
    Climbs D E nowTime 4 K.length (n, ⟨.expiry u, K, p⟩) (w1.tick, ⟨.proofs u [] (u.proofs.getD []), K, w1.parser⟩) := by
  obtain ⟨b, wa, ha, h⟩ := M.bind_ok.1 h
  cases b with
  | true => cases h
  | false =>
    obtain ⟨b2, wb, hb, h⟩ := M.bind_ok.1 h
    cases b2 with
    | true => cases h
    | false =>
      obtain ⟨key, wc, hk, h⟩ := M.bind_ok.1 h
      have s1 : stepIn D E nowTime (n, ⟨.expiry u, K, p⟩) = (wa.tick, ⟨.early u, K, wa.parser⟩) := by
        unfold Ucan.isExpired at ha
        cases he : u.payload.exp with
        | none =>
          rw [he] at ha
          cases ha
          simp only [stepIn, step, he]
          rfl
        | some e =>
          rw [he] at ha
          cases nowTime with
          | some t =>
            have ha' := (Prod.mk.inj ha)
            have hd : decide (e < t) = false := Except.ok.inj ha'.1
            rw [← ha'.2]
            simp only [stepIn, step, he, if_neg (of_decide_eq_false hd)]
            rfl
          | none =>
            obtain ⟨t, wt, ht, ha⟩ := M.bind_ok.1 ha
            cases ht
            have ha' := (Prod.mk.inj ha)
            have hd : decide (e < E.clock n) = false := Except.ok.inj ha'.1
            rw [← ha'.2]
            have hd : ¬ e < E.clock n := of_decide_eq_false hd
            simp only [stepIn, step, snapOf, he]
            exact congrArg (fun c => (n + 1, (⟨c, K, p⟩ : Task))) (if_neg hd)
      have s2 : stepIn D E nowTime (wa.tick, ⟨.early u, K, wa.parser⟩) = (wb.tick, ⟨.issuer u, K, wb.parser⟩) := by
        unfold Ucan.isTooEarly at hb
        cases he : u.payload.nbf with
        | none =>
          rw [he] at hb
          cases hb
          simp only [stepIn, step, he]
          rfl
        | some e =>
          rw [he] at hb
          obtain ⟨t, wt, ht, hb⟩ := M.bind_ok.1 hb
          cases ht
          have hb' := (Prod.mk.inj hb)
          have hd : decide (e > E.clock wa.tick) = false := Except.ok.inj hb'.1
          rw [← hb'.2]
          have hd : ¬ e > E.clock wa.tick := of_decide_eq_false hd
          simp only [stepIn, step, snapOf, he]
          exact congrArg (fun c => (wa.tick + 1, (⟨c, K, wa.parser⟩ : Task))) (if_neg hd)
      have s3 : stepIn D E nowTime (wb.tick, ⟨.issuer u, K, wb.parser⟩) = (wc.tick, ⟨.verify u key, K, wc.parser⟩) := by
        unfold parseDid at hk
        cases hq : wb.parser.parse u.payload.iss with
        | mk r q =>
          rw [hq] at hk
          cases hk
          simp only [stepIn, step, hq]
          rfl
      have s4 : stepIn D E nowTime (wc.tick, ⟨.verify u key, K, wc.parser⟩) = (w1.tick, ⟨.proofs u [] (u.proofs.getD []), K, w1.parser⟩) := by
        have h' := Prod.mk.inj h
        rw [← h'.2]
        simp only [stepIn, step, h'.1]
        rfl
      have one : ∀ {s s' : Nat × Task}, stepIn D E nowTime s = s' → s.2.stack = K → s'.2.stack = K → Climbs D E nowTime 1 K.length s s' :=
        fun hr e1 e2 => .one hr (by rw [e1]; exact Nat.le_refl _) (by rw [e2]; exact Nat.le_refl _) (Or.inl (by rw [e1]))
      exact ((((one s1 rfl rfl).trans (one s2 rfl rfl)).trans (one s3 rfl rfl)).trans (one s4 rfl rfl)).flat (by simp)

theorem proofs_climbs {rec : String → M Chain} (u : Ucan)
    (hrec : ∀ tok n p K c w', rec tok ⟨n, p⟩ = (.ok c, w') →
      ∃ k, Climbs D E nowTime k (K.length + levelsAll c.proofs) (n, ⟨.token tok, K, p⟩) (w'.tick, ⟨.ret (.ok c), K, w'.parser⟩)) (ss : List String) :
    ∀ (done cs : List Chain) (K : List Frame) (w w' : World), proofsLoop D E rec u ss w = (.ok cs, w') →
      ∃ k, Climbs D E nowTime k (K.length + levelsAll cs) (w.tick, ⟨.proofs u done ss, K, w.parser⟩) (w'.tick, ⟨.proofs u (done ++ cs) [], K, w'.parser⟩) := by
  induction ss with
  | nil =>
    intro done cs K w w' h
    cases h
    rw [List.append_nil]
    exact ⟨0, Climbs.zero (w.tick, ⟨.proofs u done [], K, w.parser⟩)⟩
  | cons s ss ih =>
    intro done cs K w w' h
    obtain ⟨cid, wa, ha, h⟩ := M.bind_ok.1 h
    obtain ⟨tok, wb, hb, h⟩ := M.bind_ok.1 h
    obtain ⟨c, wc, hc, h⟩ := M.bind_ok.1 h
    obtain ⟨x, wd, hd, h⟩ := M.bind_ok.1 h
    obtain ⟨cs', we, he, h⟩ := M.bind_ok.1 h
    cases h
    have hl : validateLink c.ucan u = .ok x := (Prod.mk.inj hd).1
    have hwd : wd = wc := (Prod.mk.inj hd).2.symm
    subst hwd
    have hf := fetch_eq (D := D) (E := E) s w.tick w.parser
    have hfb : (do
      let cid ← M.lift (orErr .cidText (Cid.parse D s))
      Store.requireToken E cid : M String) w = (.ok tok, wb) := (M.bind_of_ok ha).trans hb
    have hx := Prod.mk.inj (hf.symm.trans hfb)
    cases hfe : fetch D (snapOf E w.tick) s with
    | mk b r =>
    rw [hfe] at hx
    obtain ⟨hr, hwb⟩ := hx
    subst hr
    have s1 : stepIn D E nowTime (w.tick, ⟨.proofs u done (s :: ss), K, w.parser⟩) = (wb.tick, ⟨.token tok, ⟨u, done, ss⟩ :: K, wb.parser⟩) := by
      rw [← hwb]
      simp only [stepIn, step, hfe]
    obtain ⟨k1, h1⟩ := hrec tok wb.tick wb.parser (⟨u, done, ss⟩ :: K) c wd hc
    have s2 : stepIn D E nowTime (wd.tick, ⟨.ret (.ok c), ⟨u, done, ss⟩ :: K, wd.parser⟩) = (wd.tick, ⟨.proofs u (done ++ [c]) ss, K, wd.parser⟩) := by
      simp only [stepIn, step, hl]
      rfl
    obtain ⟨k2, h2⟩ := ih (done ++ [c]) cs' K wd w' he
    have c1 : Climbs D E nowTime 1 (K.length + 1) _ _ := .one s1 (Nat.le_succ _) (Nat.le_refl _) (Or.inr rfl)
    have c2 : Climbs D E nowTime 1 (K.length + 1) _ _ := .one s2 (Nat.le_refl _) (Nat.le_succ _) (Or.inl rfl)
    have e : done ++ c :: cs' = done ++ [c] ++ cs' := by simp
    rw [e]
    refine ⟨_, (((c1.trans h1).trans c2).trans h2).flat ?_⟩
    obtain ⟨cu, cp, cr⟩ := c
    show _ = K.length + max (levelsAll cp + 1) (levelsAll cs')
    show max (max (max (K.length + 1) (K.length + 1 + levelsAll cp)) (K.length + 1)) (K.length + levelsAll cs') = _
    omega

theorem ofToken_climbs : ∀ (fuel : Nat) (tok : String) (n : Nat) (p : DidParser) (K : List Frame) (c : Chain) (w' : World),
    ofToken D E nowTime fuel tok ⟨n, p⟩ = (.ok c, w') →
    ∃ k, Climbs D E nowTime k (K.length + levelsAll c.proofs) (n, ⟨.token tok, K, p⟩) (w'.tick, ⟨.ret (.ok c), K, w'.parser⟩)
  | 0, _, _, _, _, _, _, h => by cases h
  | fuel + 1, tok, n, p, K, c, w', h => by
    obtain ⟨u, wa, ha, h⟩ := M.bind_ok.1 h
    obtain ⟨x, wb, hb, h⟩ := M.bind_ok.1 h
    obtain ⟨cs, wc, hc, h⟩ := M.bind_ok.1 h
    obtain ⟨r, wd, hd, h⟩ := M.bind_ok.1 h
    cases h
    have hu : Ucan.fromStr D tok = .ok u := (Prod.mk.inj ha).1
    have hwa : wa = ⟨n, p⟩ := (Prod.mk.inj ha).2.symm
    subst hwa
    have hr : redelegations D cs.length u = .ok r := (Prod.mk.inj hd).1
    have hwd : w' = wc := (Prod.mk.inj hd).2.symm
    subst hwd
    have s1 : stepIn D E nowTime (n, ⟨.token tok, K, p⟩) = (n, ⟨.expiry u, K, p⟩) := by
      simp only [stepIn, step, hu]
      rfl
    have c1 : Climbs D E nowTime 1 K.length _ _ := .one s1 (Nat.le_refl _) (Nat.le_refl _) (Or.inl rfl)
    have c2 := validate_climbs (D := D) u K n p wb hb
    obtain ⟨k, c3⟩ := proofs_climbs (D := D) (E := E) (nowTime := nowTime) u (fun tok n p K c w' h => ofToken_climbs fuel tok n p K c w' h) _ [] cs K wb w' hc
    have s4 : stepIn D E nowTime (w'.tick, ⟨.proofs u ([] ++ cs) [], K, w'.parser⟩) = (w'.tick, ⟨.ret (.ok (.mk u cs r)), K, w'.parser⟩) := by
      simp only [stepIn, step, List.nil_append, hr]
      rfl
    have c4 : Climbs D E nowTime 1 K.length _ _ := .one s4 (Nat.le_refl _) (Nat.le_refl _) (Or.inl rfl)
    refine ⟨_, (((c1.trans c2).trans c3).trans c4).flat ?_⟩
    show max (max (max K.length K.length) (K.length + levelsAll cs)) K.length = K.length + levelsAll cs
    omega

end Async

open Async

/-- C106, exactly: while a token is being accepted, at most as many calls wait for another as there are levels of proofs, and at some moment so many do. -/
theorem C106_exact (D : Deps) (E : Env) (nowTime : Option UInt64) (fuel : Nat) (token : String) (w w' : World) (c : Chain)
    (h : ofToken D E nowTime fuel token w = (.ok c, w')) :
    ∃ k, (runIn D E nowTime k (w.tick, start token w.parser)).2.result = some (.ok c) ∧
      (∀ j, (runIn D E nowTime j (w.tick, start token w.parser)).2.stack.length + 1 ≤ levels c) ∧
      ∃ j, (runIn D E nowTime j (w.tick, start token w.parser)).2.stack.length + 1 = levels c := by
  obtain ⟨k, hk⟩ := ofToken_climbs (D := D) (E := E) (nowTime := nowTime) fuel token w.tick w.parser [] c w' h
  obtain ⟨cu, cp, cr⟩ := c
  have hres : (runIn D E nowTime k (w.tick, start token w.parser)).2.result = some (.ok (.mk cu cp cr)) := by
    rw [show runIn D E nowTime k (w.tick, start token w.parser) = _ from hk.run]
    rfl
  refine ⟨k, hres, fun j => ?_, ?_⟩
  · have hj : (runIn D E nowTime j (w.tick, start token w.parser)).2.stack.length ≤ 0 + levelsAll cp := by
      rcases Nat.le_total j k with hjk | hjk
      · exact hk.most j hjk
      · have : j = k + (j - k) := by omega
        rw [this, runIn_add, runIn_done hres]
        exact hk.most k (Nat.le_refl _)
    show _ ≤ levelsAll cp + 1
    omega
  · obtain ⟨j, _, hj⟩ := hk.peak
    refine ⟨j, ?_⟩
    show _ = levelsAll cp + 1
    have hj : (runIn D E nowTime j (w.tick, start token w.parser)).2.stack.length = 0 + levelsAll cp := hj
    omega

mutual
/-- A path down the chain that visits every level. -/
theorem Chain.deepest : ∀ c : Chain, ∃ l : List Chain, l.length + 1 = levels c ∧ (∀ d ∈ l, levels d < levels c) ∧
    (∀ d ∈ l, ∃ p, Sub p c ∧ d ∈ p.proofs) ∧ l.Pairwise (fun a b => levels b < levels a)
  | .mk u ps r => by
    obtain ⟨l, h1, h2, h3, h4⟩ := deepestAll ps
    refine ⟨l, by simp only [levels]; omega, fun d hd => ?_, fun d hd => ?_, h4⟩
    · have := h2 d hd
      simp only [levels]
      omega
    · rcases h3 d hd with h | ⟨q, hq, p, hp, hd⟩
      · exact ⟨_, .self _, h⟩
      · exact ⟨p, .proof hq hp, hd⟩
theorem Chain.deepestAll : ∀ cs : List Chain, ∃ l : List Chain, l.length = levelsAll cs ∧ (∀ d ∈ l, levels d ≤ levelsAll cs) ∧
    (∀ d ∈ l, d ∈ cs ∨ ∃ q ∈ cs, ∃ p, Sub p q ∧ d ∈ p.proofs) ∧ l.Pairwise (fun a b => levels b < levels a)
  | [] => ⟨[], rfl, by simp, by simp, .nil⟩
  | c :: cs => by
    rcases Nat.le_total (levels c) (levelsAll cs) with hle | hle
    · obtain ⟨l, h1, h2, h3, h4⟩ := deepestAll cs
      refine ⟨l, by simp only [levelsAll]; omega, fun d hd => ?_, fun d hd => ?_, h4⟩
      · have := h2 d hd
        simp only [levelsAll]
        omega
      · rcases h3 d hd with h | ⟨q, hq, h⟩
        · exact Or.inl (List.mem_cons_of_mem _ h)
        · exact Or.inr ⟨q, List.mem_cons_of_mem _ hq, h⟩
    · obtain ⟨l, h1, h2, h3, h4⟩ := deepest c
      refine ⟨c :: l, by simp only [levelsAll, List.length_cons]; omega, fun d hd => ?_, fun d hd => ?_, List.pairwise_cons.2 ⟨h2, h4⟩⟩
      · simp only [levelsAll]
        rcases List.mem_cons.1 hd with rfl | hd
        · omega
        · have := h2 d hd
          omega
      · rcases List.mem_cons.1 hd with rfl | hd
        · exact Or.inl (by simp)
        · exact Or.inr ⟨c, by simp, h3 d hd⟩
end

theorem Spec.SoundAll.resolves {D : Deps} {V : Ucan → Prop} {F : Cid → Bytes → Prop} {u : Ucan} {d : Chain} :
    ∀ {cs : List Chain} {ss : List String}, SoundAll D V F u ss cs → d ∈ cs → ∃ s ∈ ss, Resolves D F s d.ucan
  | c :: cs, ss, h, hd => by
    simp only [SoundAll] at h
    obtain ⟨s, ss', rfl, hr, _, _, hrest⟩ := h
    rcases List.mem_cons.1 hd with rfl | hd
    · exact ⟨s, by simp, hr⟩
    · obtain ⟨s', hs', hr'⟩ := hrest.resolves hd
      exact ⟨s', by simp [hs'], hr'⟩

/-- A chain out of a store that holds `tokens` has at most one level more than there are tokens. -/
theorem Chain.levels_le {D : Deps} {V : Ucan → Prop} {F : Cid → Bytes → Prop} (hF : Functional F) (tokens : List Bytes) (ht : ∀ cid b, F cid b → b ∈ tokens)
    (c : Chain) (h : Sound D V F c) : levels c ≤ tokens.length + 1 := by
  obtain ⟨l, h1, _, h3, h4⟩ := Chain.deepest c
  have hs : ∀ d ∈ l, Sound D V F d ∧ ∃ tok, strBytes tok ∈ tokens ∧ Ucan.fromStr D tok = .ok d.ucan := by
    intro d hd
    obtain ⟨p, hp, hm⟩ := h3 d hd
    have hsp := Sound.sub hp h
    refine ⟨Sound.sub (.proof hm (.self d)) hsp, ?_⟩
    obtain ⟨pu, pp, pr⟩ := p
    simp only [Sound] at hsp
    obtain ⟨s, _, cid, tok, _, _, hf, hu⟩ := hsp.2.1.resolves hm
    exact ⟨tok, ht _ _ hf, hu⟩
  have hn : (l.map fun d => some d.ucan).Nodup := by
    rw [List.nodup_iff_pairwise_ne, List.pairwise_map]
    refine h4.imp_of_mem (fun {a b} ha hb hlt e => ?_)
    have := Sound.unique hF a b (Option.some.inj e) (hs a ha).1 (hs b hb).1
    rw [this] at hlt
    exact Nat.lt_irrefl _ hlt
  have hm : ∀ x ∈ l.map fun d => some d.ucan, x ∈ tokens.map fun b => (bytesStr? b).bind fun t => (Ucan.fromStr D t).toOption := by
    intro x hx
    obtain ⟨d, hd, rfl⟩ := List.mem_map.1 hx
    obtain ⟨_, tok, hmem, hu⟩ := hs d hd
    refine List.mem_map.2 ⟨_, hmem, ?_⟩
    rw [bytesStr?_strBytes]
    show (Ucan.fromStr D tok).toOption = _
    rw [hu]
    rfl
  have := Number.nodup_length _ _ hn hm
  rw [List.length_map, List.length_map] at this
  omega

/-- C106, the part that holds: while a token is accepted against a fixed store, never more calls wait for another than the store holds tokens. -/
theorem C106_bounded_partial (D : Deps) (E : Env) (nowTime : Option UInt64) (hs : StoreFixed E) (tokens : List Bytes)
    (ht : ∀ i cid b, E.read i cid = .ok (some (.bytes b)) → b ∈ tokens) (fuel : Nat) (token : String) (w w' : World) (hc : Coherent w.parser) (c : Chain)
    (h : ofToken D E nowTime fuel token w = (.ok c, w')) (j : Nat) :
    (runIn D E nowTime j (w.tick, start token w.parser)).2.stack.length ≤ tokens.length := by
  obtain ⟨_, _, hmost, _⟩ := C106_exact D E nowTime fuel token w w' c h
  have h1 := hmost j
  have h2 := Chain.levels_le (tokens := tokens) (F := ReadIn E w.tick w'.tick) ?_ ?_ c (ofToken_sound D E nowTime fuel token w c w' hc h).2
  · omega
  · rintro cid b b' ⟨i, _, _, hi⟩ ⟨i', _, _, hi'⟩
    rw [hs i i' cid, hi'] at hi
    cases hi
    rfl
  · rintro cid b ⟨i, _, _, hi⟩
    exact ht i cid b hi

theorem Ex.twiceChain_levels (D : Deps) : ∀ k, levels (Ex.twiceChain D k) = k + 1
  | 0 => by simp [twiceChain, levels, levelsAll]
  | k + 1 => by
    have := Ex.twiceChain_levels D k
    simp only [twiceChain, levels, levelsAll, this]
    omega

/-- C106 is violated: no bound is set by the code. For every `n` there are `n` tokens in a store and one token more, accepted,
during whose validation `n` calls wait for another. -/
theorem C106_unbounded (D : Deps) (n : Nat) (hn : n ≤ 2 ^ 32) : ∃ (E : Env) (tokens : List Bytes) (token : String) (w w' : World) (c : Chain) (fuel j : Nat),
    tokens.length = n ∧ StoreFixed E ∧ (∀ i cid b, E.read i cid = .ok (some (.bytes b)) → b ∈ tokens) ∧ Coherent w.parser ∧
    ofToken D E none fuel token w = (.ok c, w') ∧ (runIn D E none j (w.tick, start token w.parser)).2.stack.length = n := by
  have h := C24_depth D (still (Ex.twiceDags D n) 7) none 7 (fun _ => rfl) (fun _ _ _ => rfl) ((Ex.twice D n).encode D) Ex.world Ex.world_coherent
    (Ex.twiceChain D n) (by rw [Ex.twiceChain_ucan]; exact Ex.twice_parses D n) (Ex.twiceChain_sound D n hn n (Nat.le_refl _)) _ (Nat.le_refl _)
  have h' : ∃ w', ofToken D (still (Ex.twiceDags D n) 7) none (levels (Ex.twiceChain D n)) ((Ex.twice D n).encode D) Ex.world = (.ok (Ex.twiceChain D n), w') :=
    ⟨_, by rw [← h]⟩
  obtain ⟨w', h'⟩ := h'
  obtain ⟨_, _, _, j, hj⟩ := C106_exact _ _ _ _ _ _ _ _ h'
  refine ⟨_, (List.range n).map fun k => strBytes ((Ex.twice D k).encode D), _, _, w', _, _, j, by simp, fun _ _ _ => rfl, ?_, Ex.world_coherent, h', ?_⟩
  · intro i cid b hb
    have := memRead_bytes.1 hb
    unfold Ex.twiceDags at this
    obtain ⟨k, hk, rfl⟩ := Option.map_eq_some_iff.1 this
    exact List.mem_map.2 ⟨k, List.mem_of_find?_eq_some hk, rfl⟩
  · rw [Ex.twiceChain_levels] at hj
    omega

end Verif
