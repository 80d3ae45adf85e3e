import Verif.Spec.Lineage
import Verif.Props.Suite

/-! # C129: where what is reported comes from -/

namespace Verif
open Spec Chain Reduce Suite

variable {S A : Type}

namespace Lineage

theorem simple_proof {D : Deps} {sem : Semantics S A} {c p : Chain} (h : Simple D sem c) (hp : p ∈ c.proofs) : Simple D sem p :=
  fun d hd => h d (.proof hp hd)

theorem mem_understood {D : Deps} {sem : Semantics S A} {u : Ucan} {v : View S A} : v ∈ understood D sem u ↔ Claimed D sem u v := by
  unfold understood Claimed
  rw [← Merge.mapWhile_eq, mem_mapWhile]

theorem report (D : Deps) (sem : Semantics S A) : ∀ c : Chain, (∀ d, Sub d c → d.redel = [] ∧ NoneEnablesLater sem (understood D sem d.ucan)) →
    ∃ out, reduce D sem c = .ok out ∧ out.map (·.capability) = (understood D sem c.ucan).reverse ∧
      ∀ i ∈ out, i.notBefore = c.ucan.payload.nbf ∧ i.expiresAt = c.ucan.payload.exp ∧ ∀ o, o ∈ i.originators ↔ Source D sem c i.capability o := by
  intro c
  induction c using Chain.indAux with
  | h u ps r ih =>
    intro hs
    have hr : r = [] := (hs _ (.self _)).1
    subst hr
    have hps := fun p hp => ih p hp fun d hd => hs d (.proof hp hd)
    obtain ⟨anc, hanc⟩ := ancestral_total ([] : BSet Nat) (ps.map (reduce D sem)) (by
      intro r hr
      obtain ⟨p, hp, rfl⟩ := List.mem_map.1 hr
      obtain ⟨out, h, _⟩ := hps p hp
      exact ⟨out, h⟩) 0
    have hmem := (mem_ancestral _ _ 0 anc hanc).1
    have hcap : (selfInfos D sem u ps.length anc).map (·.capability) = understood D sem u := by
      unfold selfInfos understood
      rw [Merge.mapWhile_eq, List.map_map]
      exact List.map_id _
    have hred : reduce D sem (.mk u ps []) = .ok (selfInfos D sem u ps.length anc).reverse := by
      rw [reduce, reduceAll_eq]
      unfold combine
      rw [hanc]
      simp only [redelegated, List.map_nil, List.append_nil, List.length_map]
      rw [merge_separate]
      have h := (hs _ (.self _)).2
      unfold NoneEnablesLater at h
      have h : List.Pairwise (fun a b => sem.enables a b = false) (understood D sem u) := h
      rw [← hcap, List.pairwise_map] at h
      exact h
    refine ⟨_, hred, by rw [List.map_reverse, hcap]; rfl, fun i hi => ?_⟩
    obtain ⟨_, h1, h2, h3⟩ := (mem_selfInfos D sem u _ anc (fun h => by
      rw [List.length_eq_zero_iff] at h
      rw [h] at hanc
      cases hanc
      rfl) i).1 (List.mem_reverse.1 hi)
    refine ⟨h1, h2, fun o => ?_⟩
    have key : ∀ o, (∃ j ∈ anc, sem.enables j.capability i.capability = true ∧ o ∈ j.originators) ↔
        ∃ p ∈ ps, ∃ x, Claimed D sem p.ucan x ∧ sem.enables x i.capability = true ∧ Source D sem p x o := by
      intro o
      constructor
      · rintro ⟨j, hj, he, ho⟩
        obtain ⟨k, lk, hk, _, hjl⟩ := (hmem j).1 hj
        rw [List.getElem?_map, Option.map_eq_some_iff] at hk
        obtain ⟨p, hp, e⟩ := hk
        have hp := List.mem_of_getElem? hp
        obtain ⟨out, g1, g2, g3⟩ := hps p hp
        cases g1.symm.trans e
        refine ⟨p, hp, _, mem_understood.1 ?_, he, ((g3 j hjl).2.2 o).1 ho⟩
        rw [← List.mem_reverse, ← g2]
        exact List.mem_map.2 ⟨j, hjl, rfl⟩
      · rintro ⟨p, hp, x, hx, he, ho⟩
        obtain ⟨out, g1, g2, g3⟩ := hps p hp
        have hx := mem_understood.2 hx
        rw [← List.mem_reverse, ← g2] at hx
        obtain ⟨j, hj, rfl⟩ := List.mem_map.1 hx
        obtain ⟨k, hk⟩ := List.mem_iff_getElem?.1 hp
        refine ⟨j, (hmem j).2 ⟨k, out, ?_, by simp, hj⟩, he, ((g3 j hj).2.2 o).2 ho⟩
        rw [List.getElem?_map, hk]
        exact congrArg some g1
    have nonempty : ∀ p ∈ ps, ∀ x, Claimed D sem p.ucan x → ∃ o, Source D sem p x o := by
      intro p hp x hx
      obtain ⟨out, g1, g2, g3⟩ := hps p hp
      have hx := mem_understood.2 hx
      rw [← List.mem_reverse, ← g2] at hx
      obtain ⟨j, hj, rfl⟩ := List.mem_map.1 hx
      obtain ⟨o, ho⟩ := C30_nonempty D sem _ out g1 j hj
      exact ⟨o, ((g3 j hj).2.2 o).1 ho⟩
    rw [h3, mem_originators, key]
    constructor
    · rintro (⟨p, hp, x, hx, he, ho⟩ | ⟨rfl, h⟩)
      · exact .cited (c := .mk u ps []) hp hx he ho
      · refine .own (c := .mk u ps []) ?_
        rintro p hp ⟨x, hx, he⟩
        obtain ⟨o, ho⟩ := nonempty p hp x hx
        exact h ⟨o, (key o).2 ⟨p, hp, x, hx, he, ho⟩⟩
    · intro h
      cases h with
      | own hn =>
        refine Or.inr ⟨rfl, ?_⟩
        rintro ⟨o, ho⟩
        obtain ⟨p, hp, x, hx, he, _⟩ := (key o).1 ho
        exact hn p hp ⟨x, hx, he⟩
      | cited hp hx he ho => exact Or.inl ⟨_, hp, _, hx, he, ho⟩

theorem built_redel {D : Deps} {E : Env} {nowTime : Option UInt64} {w w' : World} {c : Chain} (hc : Coherent w.parser) (h : Built D E nowTime w w' c) {d : Chain}
    (hd : Sub d c) (hno : ∀ cap ∈ d.ucan.payload.cap.iter, ∀ i, ¬ Redelegates D cap i) : d.redel = [] :=
  RedelOk.unique (Sound.all (Sound.sub hd (built_sound hc h))).2.2 (noRedel d.proofs.length hno)

theorem line_sub : ∀ (us : List Ucan) (c : Chain), Line us c → ∀ d, Sub d c → d.ucan ∈ us
  | [], _, h, _, _ => h.elim
  | u :: us, c, ⟨hu, h⟩, d, hd => by
    cases hd with
    | self => rw [hu]; simp
    | proof hp hd' =>
      rcases h with ⟨_, e⟩ | ⟨p, e, hl⟩
      · rw [e] at hp
        cases hp
      · rw [e, List.mem_singleton] at hp
        subst hp
        exact List.mem_cons_of_mem _ (line_sub us _ hl d hd')

theorem claimed_one {D : Deps} {sem : Semantics S A} {u : Ucan} {v x : View S A} (h : understood D sem u = [v]) : Claimed D sem u x ↔ x = v := by
  rw [← mem_understood, h, List.mem_singleton]

theorem source_line (D : Deps) (sem : Semantics S A) : ∀ (pre : List (Ucan × View S A)) (x : Ucan × View S A) (post : List (Ucan × View S A)) (c : Chain),
    Line ((pre ++ x :: post).map (·.1)) c → (∀ y ∈ pre ++ x :: post, understood D sem y.1 = [y.2]) → Unbroken sem ((pre ++ [x]).map (·.2)) →
    (∀ y ∈ post.head?, sem.enables y.2 x.2 = false) →
    ∀ v, (pre ++ x :: post).head?.map (·.2) = some v → ∀ o, Source D sem c v o ↔ o = x.1.payload.iss
  | [], x, post, c, ⟨hu, h⟩, hone, _, hb, v, hv, o => by
    cases hv
    have hn : ∀ p ∈ c.proofs, ¬ Grants D sem p.ucan x.2 := by
      rintro p hp ⟨z, hz, he⟩
      rcases h with ⟨_, e⟩ | ⟨q, e, hl⟩
      · rw [e] at hp
        cases hp
      · rw [e, List.mem_singleton] at hp
        subst hp
        cases post with
        | nil => exact hl.elim
        | cons y post =>
          rw [hl.1, claimed_one (hone y (by simp))] at hz
          rw [hz, hb y (by simp)] at he
          cases he
    constructor
    · intro h
      cases h with
      | own _ => rw [hu]
      | cited hp hx he _ => exact absurd ⟨_, hx, he⟩ (hn _ hp)
    · rintro rfl
      have hu : c.ucan = x.1 := hu
      rw [← hu]
      exact .own hn
  | y :: pre, x, post, c, ⟨hu, h⟩, hone, hun, hb, v, hv, o => by
    cases hv
    obtain ⟨z, l, e⟩ : ∃ z l, pre ++ x :: post = z :: l := by
      cases pre with
      | nil => exact ⟨_, _, rfl⟩
      | cons a as => exact ⟨_, _, rfl⟩
    have he : sem.enables z.2 y.2 = true ∧ Unbroken sem ((pre ++ [x]).map (·.2)) := by
      cases pre with
      | nil => cases e; exact ⟨hun.1, trivial⟩
      | cons a as => cases e; exact hun
    rcases h with ⟨h0, _⟩ | ⟨p, hp, hl⟩
    · rw [List.append_eq, e] at h0
      cases h0
    · have hz : understood D sem p.ucan = [z.2] := by
        have hl' := hl
        rw [List.append_eq, e] at hl'
        rw [hl'.1]
        refine hone z ?_
        show z ∈ y :: (pre ++ x :: post)
        rw [e]
        simp
      rw [← source_line D sem pre x post p hl (fun a ha => hone a (List.mem_cons_of_mem _ ha)) he.2 hb z.2 (by rw [e]; rfl) o]
      constructor
      · intro h
        cases h with
        | own hn => exact absurd ⟨_, (claimed_one hz).2 rfl, he.1⟩ (hn p (by rw [hp]; simp))
        | cited hq hx _ ho =>
          rw [hp, List.mem_singleton] at hq
          subst hq
          rw [claimed_one hz] at hx
          subst hx
          exact ho
      · exact fun ho => .cited (by rw [hp]; simp) ((claimed_one hz).2 rfl) he.1 ho

end Lineage
open Lineage

/-- C129: of a constructed chain in which no token redelegates and none makes a claim that enables a later one of its own, each claim of the first token is reported once,
the last one first, for the lifetime of that token, and for exactly those where it comes from. -/
theorem C129_report {D : Deps} {E : Env} {nowTime : Option UInt64} {w w' : World} {c : Chain} (hc : Coherent w.parser) (h : Built D E nowTime w w' c)
    (sem : Semantics S A) (hs : Simple D sem c) :
    ∃ out, reduce D sem c = .ok out ∧ out.map (·.capability) = (understood D sem c.ucan).reverse ∧
      ∀ i ∈ out, i.notBefore = c.ucan.payload.nbf ∧ i.expiresAt = c.ucan.payload.exp ∧ ∀ o, o ∈ i.originators ↔ Source D sem c i.capability o :=
  report D sem c fun d hd => ⟨built_redel hc h hd (hs d hd).1, (hs d hd).2⟩

/-- C129: in a line of tokens with one claim each, the claim of the first is reported for just one party, namely the one that the claims lead to: each is enabled by the
next up to the token of that party, and that one cites no token whose claim enables its own. So what comes after a break has no influence. -/
theorem C129_line {D : Deps} {E : Env} {nowTime : Option UInt64} {w w' : World} {c : Chain} (hc : Coherent w.parser) (h : Built D E nowTime w w' c)
    (sem : Semantics S A) (pre : List (Ucan × View S A)) (x : Ucan × View S A) (post : List (Ucan × View S A)) (hl : Line ((pre ++ x :: post).map (·.1)) c)
    (hone : ∀ y ∈ pre ++ x :: post, understood D sem y.1 = [y.2]) (hno : ∀ y ∈ pre ++ x :: post, ∀ cap ∈ y.1.payload.cap.iter, ∀ i, ¬ Redelegates D cap i)
    (hun : Unbroken sem ((pre ++ [x]).map (·.2))) (hb : ∀ y ∈ post.head?, sem.enables y.2 x.2 = false) :
    ∃ i first, reduce D sem c = .ok [i] ∧ (pre ++ x :: post).head? = some first ∧ i.capability = first.2 ∧ i.notBefore = first.1.payload.nbf ∧
      i.expiresAt = first.1.payload.exp ∧ ∀ o, o ∈ i.originators ↔ o = x.1.payload.iss := by
  have hin : ∀ d, Sub d c → ∃ y ∈ pre ++ x :: post, y.1 = d.ucan := fun d hd => List.mem_map.1 (line_sub _ c hl d hd)
  have hs : Simple D sem c := by
    intro d hd
    obtain ⟨y, hy, e⟩ := hin d hd
    rw [← e, hone y hy]
    exact ⟨hno y hy, List.pairwise_singleton _ _⟩
  obtain ⟨out, h1, h2, h3⟩ := C129_report hc h sem hs
  obtain ⟨first, l, e⟩ : ∃ z l, pre ++ x :: post = z :: l := by
    cases pre with
    | nil => exact ⟨_, _, rfl⟩
    | cons a as => exact ⟨_, _, rfl⟩
  have hu : c.ucan = first.1 := by
    rw [e] at hl
    exact hl.1
  rw [hu, hone first (by rw [e]; simp)] at h2
  obtain ⟨i, rfl⟩ : ∃ i, out = [i] := by
    have hlen := congrArg List.length h2
    rw [List.length_map] at hlen
    exact List.length_eq_one_iff.1 hlen
  have hi : i.capability = first.2 := (List.cons.inj h2).1
  obtain ⟨h4, h5, h6⟩ := h3 i (by simp)
  refine ⟨i, first, h1, by rw [e]; rfl, hi, by rw [h4, hu], by rw [h5, hu], fun o => ?_⟩
  rw [h6]
  exact source_line D sem pre x post c hl hone hun hb _ (by rw [e, hi]; rfl) o

/-- C129: every line has such a party. -/
theorem C129_some (sem : Semantics S A) : ∀ items : List (Ucan × View S A), items ≠ [] → ∃ pre x post, items = pre ++ x :: post ∧
    Unbroken sem ((pre ++ [x]).map (·.2)) ∧ ∀ y ∈ post.head?, sem.enables y.2 x.2 = false
  | [], h => absurd rfl h
  | [x], _ => ⟨[], x, [], rfl, trivial, fun _ h => (nomatch h)⟩
  | x :: y :: l, _ => by
    cases he : sem.enables y.2 x.2 with
    | false => exact ⟨[], x, y :: l, rfl, trivial, fun z hz => by cases hz; exact he⟩
    | true =>
      obtain ⟨pre, z, post, e, hun, hb⟩ := C129_some sem (y :: l) (by simp)
      refine ⟨x :: pre, z, post, by rw [e]; rfl, ?_, hb⟩
      cases pre with
      | nil => cases e; exact ⟨he, trivial⟩
      | cons a as => cases e; exact ⟨he, hun⟩

namespace Ex

/-- Beside C129: key 1 grants mail of `a@b`, key 2 hands on mail of `c@d`, which it was not granted, and key 3 uses that. The line breaks after key 2, and key 2 is
reported; key 1 is not. -/
example (D : Deps) : ∃ w', Built D (still (dags3 D capA capC) 7) none world w' (chain3 D capA capC capC) ∧
    ∃ i first, reduce D mailSem (chain3 D capA capC capC) = .ok [i] ∧
      ([(tok3 D capC, mail "c@d" 1), (tok2 D capC, mail "c@d" 1), (tok1 D capA, mail "a@b" 1)] : List (Ucan × View String Nat)).head? = some first ∧
      i.capability = first.2 ∧ i.notBefore = first.1.payload.nbf ∧ i.expiresAt = first.1.payload.exp ∧ ∀ o, o ∈ i.originators ↔ o = did 2 := by
  obtain ⟨w', hb⟩ := built3 D capA_plain capC_plain capC_plain capA_noRedel capC_noRedel capC_noRedel
  refine ⟨w', hb, C129_line world_coherent hb mailSem [(tok3 D capC, mail "c@d" 1)] (tok2 D capC, mail "c@d" 1) [(tok1 D capA, mail "a@b" 1)] ?_ ?_ ?_ ?_ ?_⟩
  · exact ⟨rfl, Or.inr ⟨_, rfl, rfl, Or.inr ⟨_, rfl, rfl, Or.inl ⟨rfl, rfl⟩⟩⟩⟩
  · intro y hy
    simp only [List.cons_append, List.nil_append, List.mem_cons, List.not_mem_nil, or_false] at hy
    rcases hy with rfl | rfl | rfl <;> rfl
  · rintro y hy cap hcap i ⟨ha, _⟩
    simp only [List.cons_append, List.nil_append, List.mem_cons, List.not_mem_nil, or_false] at hy
    rcases hy with rfl | rfl | rfl
    · exact capC_noRedel cap hcap ha
    · exact capC_noRedel cap hcap ha
    · exact capA_noRedel cap hcap ha
  · exact ⟨show mailSem.enables (mail "c@d" 1) (mail "c@d" 1) = true by decide, trivial⟩
  · intro y hy
    cases hy
    show mailSem.enables (mail "a@b" 1) (mail "c@d" 1) = false
    decide

end Ex

end Verif
