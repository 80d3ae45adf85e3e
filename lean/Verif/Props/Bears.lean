import Verif.Spec.Bears
import Verif.Props.Own
import Verif.Props.Depends

/-! # C133: proofs that do not bear on the claims -/

namespace Verif
open Spec Chain Reduce Depends

variable {S A : Type}

namespace Bearing

/-- Originators depend on the ancestral capabilities that enable the claim, and on no others. -/
theorem originators_congr (sem : Semantics S A) {u u' : Ucan} (hiss : u.payload.iss = u'.payload.iss) {anc anc' : List (Info S A)} (v : View S A)
    (h : ∀ x, sem.enables x.capability v = true → (x ∈ anc ↔ x ∈ anc')) : originators sem u anc v = originators sem u' anc' v := by
  refine BSet.ext (sorted_originators _ _ _ _) (sorted_originators _ _ _ _) fun o => ?_
  have e : u.issuer = u'.issuer := hiss
  have hx : ∀ o, (∃ i ∈ anc, sem.enables i.capability v = true ∧ o ∈ i.originators) ↔ ∃ i ∈ anc', sem.enables i.capability v = true ∧ o ∈ i.originators := fun o =>
    ⟨fun ⟨i, hi, he, ho⟩ => ⟨i, (h i he).1 hi, he, ho⟩, fun ⟨i, hi, he, ho⟩ => ⟨i, (h i he).2 hi, he, ho⟩⟩
  simp only [mem_originators, hx, e]

theorem selfInfos_congr {D : Deps} {sem : Semantics S A} {u u' : Ucan} (hu : AlikeBut u u') {n n' : Nat} {anc anc' : List (Info S A)} (hz : n = 0 → anc = [])
    (hz' : n' = 0 → anc' = []) (h : ∀ v, Claimed D sem u v → ∀ x, sem.enables x.capability v = true → (x ∈ anc ↔ x ∈ anc')) :
    selfInfos D sem u n anc = selfInfos D sem u' n' anc' := by
  rw [selfInfos_eq D sem _ _ _ hz, selfInfos_eq D sem _ _ _ hz']
  have e1 : u.capabilities = u'.capabilities := hu.cap
  have e2 : u.notBefore = u'.notBefore := hu.nbf
  have e3 : u.expiresAt = u'.expiresAt := hu.exp
  rw [← e1, ← e2, ← e3]
  refine List.map_congr_left fun v hv => ?_
  rw [originators_congr sem hu.iss v (h v ((mem_mapWhile _ _ _).1 hv))]

end Bearing

/-- C133: tokens that hand nothing on whole and are alike but for their proofs have the very same reports if the same of their proofs bear on their claims; the other
proofs may be cited, left out, repeated and put in any place. -/
theorem C133_report (D : Deps) (sem : Semantics S A) (c c' : Chain) (out out' : List (Info S A)) (h : reduce D sem c = .ok out) (h' : reduce D sem c' = .ok out')
    (hr : c.redel = []) (hr' : c'.redel = []) (hu : AlikeBut c.ucan c'.ucan) (hb : ∀ p, Bears D sem p c.ucan → (p ∈ c.proofs ↔ p ∈ c'.proofs)) : out = out' := by
  obtain ⟨anc, hcol, e, hz⟩ := reduce_invoking hr h
  obtain ⟨anc', hcol', e', hz'⟩ := reduce_invoking hr' h'
  rw [e, e']
  congr 1
  refine Bearing.selfInfos_congr hu hz hz' fun v hv x hx => ?_
  rw [hcol.ancestors, hcol'.ancestors]
  have bears : ∀ p lp, reduce D sem p = .ok lp → x ∈ lp → Bears D sem p c.ucan := fun p lp hl hm => ⟨_, v, C28_offered D sem p lp hl x hm, hv, hx⟩
  constructor
  · rintro ⟨k, p, lp, hp, _, hl, hm⟩
    obtain ⟨k', hk'⟩ := List.getElem?_of_mem ((hb p (bears p lp hl hm)).1 (List.mem_of_getElem? hp))
    exact ⟨k', p, lp, hk', by rw [hr']; simp, hl, hm⟩
  · rintro ⟨k, p, lp, hp, _, hl, hm⟩
    obtain ⟨k', hk'⟩ := List.getElem?_of_mem ((hb p (bears p lp hl hm)).2 (List.mem_of_getElem? hp))
    exact ⟨k', p, lp, hk', by rw [hr]; simp, hl, hm⟩

namespace Bearing

theorem ancestral_append {α : Type} (redel : BSet Nat) (rs rs' : List (Res (List α))) : ∀ (i : Nat) (l l' : List α), ancestral redel i rs = .ok l →
    ancestral redel (i + rs.length) rs' = .ok l' → ancestral redel i (rs ++ rs') = .ok (l ++ l') := by
  induction rs with
  | nil => intro i l l' h h'; cases h; exact h'
  | cons r rs ih =>
    intro i l l' h h'
    have hn : ancestral redel (i + 1 + rs.length) rs' = .ok l' := by rw [← h']; congr 1; simp; omega
    clear h'
    rw [List.cons_append]
    unfold ancestral at h ⊢
    split at h
    · rename_i hm
      rw [if_pos hm]
      exact ih _ _ _ h hn
    · rename_i hm
      rw [if_neg hm]
      cases r with
      | error e => cases h
      | ok l0 =>
        simp only at h ⊢
        cases ha : ancestral redel (i + 1) rs with
        | error e => rw [ha] at h; cases h
        | ok ls =>
          rw [ha] at h
          cases h
          rw [ih _ _ _ ha hn]
          simp

theorem redelegated_append {α : Type} (rs rs' : List (Res (List α))) (is : List Nat) (h : ∀ i ∈ is, i < rs.length) :
    redelegated (rs ++ rs') is = redelegated rs is := by
  induction is with
  | nil => rfl
  | cons i is ih =>
    unfold redelegated
    rw [List.getElem?_append_left (h i (by simp)), ih fun j hj => h j (by simp [hj])]

end Bearing

/-- C133: and whatever a token hands on whole, further proofs cited behind the others that are not handed on and do not bear on its claims change nothing. -/
theorem C133_append (D : Deps) (sem : Semantics S A) (u u' : Ucan) (hu : AlikeBut u u') (ps extra : List Chain) (redel : BSet Nat) (hin : ∀ k ∈ redel, k < ps.length)
    (out : List (Info S A)) (h : reduce D sem (.mk u ps redel) = .ok out) (hx : ∀ p ∈ extra, ¬ Bears D sem p u) (ht : ∀ p ∈ extra, ∃ l, reduce D sem p = .ok l) :
    reduce D sem (.mk u' (ps ++ extra) redel) = .ok out := by
  rw [reduce] at h ⊢
  unfold combine at h ⊢
  cases hanc : ancestral redel 0 (reduceAll D sem ps) with
  | error e => rw [hanc] at h; cases h
  | ok anc =>
    rw [hanc] at h
    simp only at h
    obtain ⟨l', hl'⟩ : ∃ l', ancestral redel (0 + (reduceAll D sem ps).length) (reduceAll D sem extra) = .ok l' := by
      refine ancestral_total _ _ (fun r hr => ?_) _
      rw [reduceAll_eq] at hr
      obtain ⟨p, hp, rfl⟩ := List.mem_map.1 hr
      exact ht p hp
    have happ : reduceAll D sem (ps ++ extra) = reduceAll D sem ps ++ reduceAll D sem extra := by simp only [reduceAll_eq, List.map_append]
    have hlen : ∀ l : List Chain, (reduceAll D sem l).length = l.length := fun l => by rw [reduceAll_eq, List.length_map]
    rw [happ, Bearing.ancestral_append redel _ _ 0 anc l' hanc hl', Bearing.redelegated_append _ _ _ (by rw [hlen]; exact hin)]
    cases hred : redelegated (reduceAll D sem ps) redel with
    | error e => rw [hred] at h; cases h
    | ok red =>
      rw [hred] at h
      simp only at h ⊢
      rw [← h]
      have e2 : u.notBefore = u'.notBefore := hu.nbf
      have e3 : u.expiresAt = u'.expiresAt := hu.exp
      have hrl : red.map (relifetime u') = red.map (relifetime u) := by
        refine List.map_congr_left fun i _ => ?_
        unfold relifetime
        rw [e2, e3]
      rw [hrl]
      congr 3
      symm
      refine Bearing.selfInfos_congr hu ?_ ?_ fun v hv x hxv => ?_
      · intro hz
        rw [List.length_eq_zero_iff.1 hz] at hanc
        cases hanc; rfl
      · intro hz
        rw [List.length_append] at hz
        rw [List.length_eq_zero_iff.1 (show (reduceAll D sem ps).length = 0 by omega)] at hanc
        rw [List.length_eq_zero_iff.1 (show (reduceAll D sem extra).length = 0 by omega)] at hl'
        cases hanc; cases hl'; rfl
      · rw [List.mem_append]
        refine ⟨Or.inl, fun hm => hm.resolve_right fun hm => ?_⟩
        obtain ⟨k, lk, hk, _, hxl⟩ := ((mem_ancestral redel _ _ l' hl').1 x).1 hm
        rw [reduceAll_eq, List.getElem?_map] at hk
        obtain ⟨p, hp, he⟩ := Option.map_eq_some_iff.1 hk
        exact hx p (List.mem_of_getElem? hp) ⟨_, v, C28_offered D sem p lk he x hxl, hv, hxv⟩

/-- C133 for what is accepted from one store: a token that cites further references to proofs which do not bear on its claims is reported like the token that does not. -/
theorem C133_cited (D : Deps) (sem : Semantics S A) (E : Env) (hst : StoreFixed E) (nowTime nowTime' : Option UInt64) (w1 w2 w1' w2' : World)
    (hc : Coherent w1.parser) (hc' : Coherent w1'.parser) (c c' : Chain) (h : Built D E nowTime w1 w2 c) (h' : Built D E nowTime' w1' w2' c')
    (hu : AlikeBut c.ucan c'.ucan) (hno : ∀ x ∈ c.ucan.payload.cap.iter, ∀ i, ¬ Redelegates D x i)
    (hsub : ∀ s, s ∈ c.ucan.payload.prf.getD [] → s ∈ c'.ucan.payload.prf.getD [])
    (hb : ∀ (k : Nat) (s : String) (p : Chain), (c'.ucan.payload.prf.getD [])[k]? = some s → c'.proofs[k]? = some p → s ∉ c.ucan.payload.prf.getD [] → ¬ Bears D sem p c.ucan) :
    reduce D sem c = reduce D sem c' := by
  have hs := built_holds hst hc h
  have hs' := built_holds hst hc' h'
  have hF := holds_functional E
  have nil : ∀ {c : Chain}, Sound D (fun _ => True) (Holds E) c → (∀ x ∈ c.ucan.payload.cap.iter, ∀ i, ¬ Redelegates D x i) → c.redel = [] := by
    intro c hs hno
    refine List.eq_nil_iff_forall_not_mem.2 fun k hk => ?_
    obtain ⟨x, hx, e⟩ := ((Sound.all hs).2.2.claimed k).1 hk
    exact hno x hx k e
  have found : ∀ {c c' : Chain}, Sound D (fun _ => True) (Holds E) c → Sound D (fun _ => True) (Holds E) c' → ∀ (k : Nat) (s : String) (p : Chain),
      (c.ucan.payload.prf.getD [])[k]? = some s → c.proofs[k]? = some p → s ∈ c'.ucan.payload.prf.getD [] → p ∈ c'.proofs := by
    intro c c' h h' k s p hk hp hm
    have a := (Sound.all h).2.1
    have a' := (Sound.all h').2.1
    obtain ⟨j, hj⟩ := List.getElem?_of_mem hm
    have hlt : j < c'.proofs.length := by rw [(SoundAll.entry a').1]; exact (List.getElem?_eq_some_iff.1 hj).1
    have e := Sound.unique hF _ _ (Resolves.unique hF ((SoundAll.entry a).2 k s p hk hp) ((SoundAll.entry a').2 j s _ hj (List.getElem?_eq_getElem hlt)))
      (SoundAll.mem a _ (List.mem_of_getElem? hp)).2.1 (SoundAll.mem a' _ (List.getElem_mem hlt)).2.1
    rw [e]
    exact List.getElem_mem hlt
  have place : ∀ {c : Chain}, Sound D (fun _ => True) (Holds E) c → ∀ p ∈ c.proofs, ∃ (k : Nat) (s : String), (c.ucan.payload.prf.getD [])[k]? = some s ∧ c.proofs[k]? = some p := by
    intro c h p hp
    obtain ⟨k, hk⟩ := List.getElem?_of_mem hp
    have hlt : k < (c.ucan.payload.prf.getD []).length := by rw [← (SoundAll.entry (Sound.all h).2.1).1]; exact (List.getElem?_eq_some_iff.1 hk).1
    exact ⟨k, _, List.getElem?_eq_getElem hlt, hk⟩
  obtain ⟨out, ho⟩ := reduce_total D sem c (sound_inRange hs)
  obtain ⟨out', ho'⟩ := reduce_total D sem c' (sound_inRange hs')
  rw [ho, ho', C133_report D sem c c' out out' ho ho' (nil hs hno) (nil hs' (hu.cap ▸ hno)) hu fun p hp => ⟨fun hm => ?_, fun hm => ?_⟩]
  · obtain ⟨k, s, h1, h2⟩ := place hs p hm
    exact found hs hs' k s p h1 h2 (hsub s (List.mem_of_getElem? h1))
  · obtain ⟨k, s, h1, h2⟩ := place hs' p hm
    exact Classical.byContradiction fun hn => hb k s p h1 h2 (fun hm' => hn (found hs' hs k s p h1 h2 hm')) hp

namespace Ex

theorem not_bears_my {D : Deps} {p : Chain} (hp : p = .mk (narrow D) [] [] ∨ p = .mk (broad D) [] []) (prf : List String) : ¬ Bears D mailSem p (holder D prf capMy) := by
  rintro ⟨x, v, hx, ⟨pre, c, post, e, _, hc⟩, he⟩
  have hm : c ∈ capMy.iter := by
    have e : capMy.iter = pre ++ c :: post := e
    rw [e]; simp
  have hc' : c = ⟨"my:*", "m/1", .obj []⟩ := by simpa [capMy, capsOf, Capabilities.iter] using hm
  subst hc'
  cases (Option.some.inj hc : mailMy 1 = v)
  have hf := Own.enables_form he
  have plain : ∀ d ∈ capA.iter ++ capAll.iter, ∀ y, mailSem.parseCapability D d = some y → form y.resource = .plain := by
    intro d hd y hy
    have : d = ⟨"mailto:a@b", "m/1", .obj []⟩ ∨ d = ⟨"mailto:*", "m/1", .obj []⟩ := by simpa [capA, capAll, capsOf, Capabilities.iter] using hd
    rcases this with rfl | rfl
    · cases (Option.some.inj hy : mail "a@b" 1 = y); rfl
    · cases (Option.some.inj hy : mailAll 1 = y); rfl
  cases hx with
  | claim hcl =>
    obtain ⟨pre', d, post', e', _, hd⟩ := hcl
    have hm : d ∈ capA.iter ++ capAll.iter := by
      rcases hp with rfl | rfl
      · have e' : capA.iter = pre' ++ d :: post' := e'
        rw [e']; simp
      · have e' : capAll.iter = pre' ++ d :: post' := e'
        rw [e']; simp
    rw [plain d hm x hd] at hf
    cases hf
  | redelegated k hk _ _ => rcases hp with rfl | rfl <;> cases hk

/-- Beside C133: key 3 claims what is its own, citing a grant of one address and one of all mail; nothing of that bears on the claim, and the report is that of the token
without proofs. -/
example (D : Deps) : ∃ w w', Built D (pairEnv D) none world w (pairChain D false capMy []) ∧
    Built D (still (fun _ => none) 7) none world w' (.mk (ucan D 3 (did 4) (some 20) (some 5) none capMy) [] []) ∧
    AlikeBut (ucan D 3 (did 4) (some 20) (some 5) none capMy) (pairChain D false capMy []).ucan ∧
    (∀ p ∈ (pairChain D false capMy []).proofs, ¬ Bears D mailSem p (pairChain D false capMy []).ucan) ∧
    reduce D mailSem (pairChain D false capMy []) = .ok [⟨[did 3], some 5, some 20, mailMy 1⟩] := by
  obtain ⟨w, h⟩ := pair_built D false capMy_plain [] fun _ => redelOk D _ _ capMy_noRedel
  obtain ⟨w', h'⟩ := built_leaf D 3 (did 4) capMy_plain capMy_noRedel
  refine ⟨w, w', h, h', ⟨rfl, rfl, rfl, rfl⟩, fun p hp => not_bears_my ?_ _, rfl⟩
  have hp : p ∈ [Chain.mk (narrow D) [] [], .mk (broad D) [] []] := hp
  simpa using hp

end Ex
end Verif
