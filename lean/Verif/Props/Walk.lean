import Verif.Spec.Walk
import Verif.Props.Check

/-! # C116 The accepted chain shows who granted what -/

namespace Verif
open Spec Chain Reduce Fixtures

variable {S A : Type}

namespace Walk

theorem mem_handedOver {D : Deps} {u : Ucan} {i : Nat} : i ∈ handedOver D u ↔ ∃ c ∈ u.payload.cap.iter, Redelegates D c i := by
  unfold handedOver
  simp only [List.mem_filterMap]
  constructor
  · rintro ⟨c, hc, h⟩
    refine ⟨c, hc, (C19_index_iff D c i).1 ?_⟩
    cases hp : proofSemantics.parseCapability D c with
    | none => rw [hp] at h; simp at h
    | some v =>
      rw [hp] at h
      refine ⟨v, rfl, ?_⟩
      simp only [Option.map_some] at h
      split at h
      · rename_i heq
        cases h
        exact Option.some.inj heq
      · cases h
  · rintro ⟨c, hc, h⟩
    obtain ⟨v, hv, hr⟩ := (C19_index_iff D c i).2 h
    refine ⟨c, hc, ?_⟩
    rw [hv, Option.map_some, hr]

theorem claimed_iff {D : Deps} {sem : Semantics S A} {u : Ucan} {v : View S A} :
    v ∈ mapWhile (sem.parseCapability D) u.payload.cap.iter ↔ Claimed D sem u v := mem_mapWhile _ _ _

theorem mem_kept {α : Type} {L : List Nat} {proofs : List (List α)} {x : α} :
    x ∈ proofs.zipIdx.flatMap (fun g => if g.2 ∈ L then [] else g.1) ↔ ∃ (k : Nat) (g : List α), proofs[k]? = some g ∧ k ∉ L ∧ x ∈ g := by
  simp only [List.mem_flatMap]
  constructor
  · rintro ⟨⟨g, k⟩, hm, hx⟩
    have hm := List.mem_zipIdx_iff_getElem?.1 hm
    split at hx
    · cases hx
    · rename_i hk
      exact ⟨k, g, hm, hk, hx⟩
  · rintro ⟨k, g, hg, hk, hx⟩
    refine ⟨(g, k), List.mem_zipIdx_iff_getElem?.2 hg, ?_⟩
    rw [if_neg hk]
    exact hx

theorem mem_given {α : Type} {L : List Nat} {proofs : List (List α)} {x : α} :
    x ∈ L.flatMap (fun k => proofs[k]?.getD []) ↔ ∃ (k : Nat) (g : List α), k ∈ L ∧ proofs[k]? = some g ∧ x ∈ g := by
  simp only [List.mem_flatMap]
  constructor
  · rintro ⟨k, hk, hx⟩
    cases hg : proofs[k]? with
    | none => rw [hg] at hx; cases hx
    | some g => rw [hg] at hx; exact ⟨k, g, hk, hg, hx⟩
  · rintro ⟨k, g, hk, hg, hx⟩
    exact ⟨k, hk, by rw [hg]; exact hx⟩

/-- What the recursion computes for the proofs, entry by entry. -/
def Agree (rs : List (List (View S A × String))) (Gs : List (View S A → String → Prop)) : Prop :=
  rs.length = Gs.length ∧ ∀ (k : Nat) (r : List (View S A × String)) (G : View S A → String → Prop), rs[k]? = some r → Gs[k]? = some G → ∀ v o, (v, o) ∈ r ↔ G v o

theorem Agree.right {rs : List (List (View S A × String))} {Gs : List (View S A → String → Prop)} (h : Agree rs Gs) {k : Nat} {r : List (View S A × String)}
    (hr : rs[k]? = some r) : ∃ G, Gs[k]? = some G ∧ ∀ v o, (v, o) ∈ r ↔ G v o := by
  obtain ⟨hk, _⟩ := List.getElem?_eq_some_iff.1 hr
  have hk' : k < Gs.length := h.1 ▸ hk
  exact ⟨_, List.getElem?_eq_getElem hk', h.2 k r _ hr (List.getElem?_eq_getElem hk')⟩

theorem Agree.left {rs : List (List (View S A × String))} {Gs : List (View S A → String → Prop)} (h : Agree rs Gs) {k : Nat} {G : View S A → String → Prop}
    (hG : Gs[k]? = some G) : ∃ r, rs[k]? = some r ∧ ∀ v o, (v, o) ∈ r ↔ G v o := by
  obtain ⟨hk, _⟩ := List.getElem?_eq_some_iff.1 hG
  have hk' : k < rs.length := h.1 ▸ hk
  exact ⟨_, List.getElem?_eq_getElem hk', h.2 k _ G (List.getElem?_eq_getElem hk') hG⟩

mutual
theorem walk_iff {D : Deps} {V : Ucan → Prop} {F : Cid → Bytes → Prop} (sem : Semantics S A) :
    ∀ c : Chain, Sound D V F c → ∀ v o, (v, o) ∈ walk D sem c ↔ Granted D sem c v o
  | .mk u proofs redel => by
    intro h v o
    simp only [Sound] at h
    obtain ⟨_, hs, hr⟩ := h
    have ha := walkAll_iff sem u _ proofs hs
    have hmem : ∀ k, k ∈ handedOver D u ↔ k ∈ redel := fun k => by rw [mem_handedOver, hr.claimed]
    have hkept : ∀ (v' : View S A) (o' : String),
        ((v', o') ∈ (walkAll D sem proofs).zipIdx.flatMap (fun g => if g.2 ∈ handedOver D u then [] else g.1)) ↔
          ∃ (k : Nat) (G : View S A → String → Prop), (GrantedAll D sem proofs)[k]? = some G ∧ k ∉ redel ∧ G v' o' := by
      intro v' o'
      rw [mem_kept]
      constructor
      · rintro ⟨k, g, hg, hk, hx⟩
        obtain ⟨G, hG, hi⟩ := ha.right hg
        exact ⟨k, G, hG, fun h => hk ((hmem k).2 h), (hi _ _).1 hx⟩
      · rintro ⟨k, G, hG, hk, hx⟩
        obtain ⟨g, hg, hi⟩ := ha.left hG
        exact ⟨k, g, hg, fun h => hk ((hmem k).1 h), (hi _ _).2 hx⟩
    have hfrom : ∀ (v : View S A) (o' : String),
        (o' ∈ ((((walkAll D sem proofs).zipIdx.flatMap (fun g => if g.2 ∈ handedOver D u then [] else g.1)).filter fun g => sem.enables g.1 v).map Prod.snd)) ↔
          ∃ (k : Nat) (G : View S A → String → Prop) (v' : View S A), (GrantedAll D sem proofs)[k]? = some G ∧ k ∉ redel ∧ G v' o' ∧ sem.enables v' v = true := by
      intro v o'
      simp only [List.mem_map, List.mem_filter]
      constructor
      · rintro ⟨⟨v', o''⟩, ⟨hm, he⟩, rfl⟩
        obtain ⟨k, G, hG, hk, hx⟩ := (hkept _ _).1 hm
        exact ⟨k, G, v', hG, hk, hx, he⟩
      · rintro ⟨k, G, v', hG, hk, hx, he⟩
        exact ⟨(v', o'), ⟨(hkept _ _).2 ⟨k, G, hG, hk, hx⟩, he⟩, rfl⟩
    simp only [walk, walkOne, Granted, List.mem_append]
    apply or_congr
    · simp only [List.mem_flatMap, List.mem_map]
      constructor
      · rintro ⟨w, hw, o', ho', e⟩
        cases e
        refine ⟨claimed_iff.1 hw, ?_⟩
        split at ho'
        · rename_i hem
          refine Or.inr ⟨List.mem_singleton.1 ho', ?_⟩
          rintro ⟨o', hx⟩
          have := (hfrom v o').2 hx
          rw [List.isEmpty_iff.1 hem] at this
          cases this
        · exact Or.inl ((hfrom v o).1 ho')
      · rintro ⟨hc, h⟩
        refine ⟨v, claimed_iff.2 hc, o, ?_, rfl⟩
        rcases h with h | ⟨rfl, hno⟩
        · have hm := (hfrom v o).2 h
          rw [if_neg]
          · exact hm
          · intro he
            rw [List.isEmpty_iff.1 he] at hm
            cases hm
        · rw [if_pos]
          · exact List.mem_singleton.2 rfl
          · rw [List.isEmpty_iff, List.eq_nil_iff_forall_not_mem]
            intro o' ho'
            exact hno ⟨o', (hfrom v o').1 ho'⟩
    · rw [mem_given]
      constructor
      · rintro ⟨k, g, hk, hg, hx⟩
        obtain ⟨G, hG, hi⟩ := ha.right hg
        exact ⟨k, G, (hmem k).1 hk, hG, (hi _ _).1 hx⟩
      · rintro ⟨k, G, hk, hG, hx⟩
        obtain ⟨g, hg, hi⟩ := ha.left hG
        exact ⟨k, g, (hmem k).2 hk, hg, (hi _ _).2 hx⟩
theorem walkAll_iff {D : Deps} {V : Ucan → Prop} {F : Cid → Bytes → Prop} (sem : Semantics S A) (u : Ucan) :
    ∀ (ss : List String) (cs : List Chain), SoundAll D V F u ss cs → Agree (walkAll D sem cs) (GrantedAll D sem cs)
  | _, [] => fun _ => ⟨rfl, fun k r G h => by simp [walkAll] at h⟩
  | _, c :: cs => by
    intro h
    simp only [SoundAll] at h
    obtain ⟨s, ss', _, _, _, hc, hs⟩ := h
    obtain ⟨h1, h2⟩ := walkAll_iff sem u ss' cs hs
    simp only [walkAll, GrantedAll]
    refine ⟨by simp [h1], ?_⟩
    intro k r G hr hG
    cases k with
    | zero =>
      simp only [List.getElem?_cons_zero, Option.some.injEq] at hr hG
      subst hr hG
      exact walk_iff sem c hc
    | succ k =>
      simp only [List.getElem?_cons_succ] at hr hG
      exact h2 k r G hr hG
end

mutual
theorem walk_seen {D : Deps} (sem : Semantics S A) : ∀ c c' : Chain, SameSeen c c' → walk D sem c = walk D sem c'
  | .mk u ps r, .mk u' ps' r' => by
    intro h
    simp only [SameSeen] at h
    obtain ⟨rfl, h⟩ := h
    simp only [walk]
    rw [walkAll_seen sem ps ps' h]
theorem walkAll_seen {D : Deps} (sem : Semantics S A) : ∀ cs cs' : List Chain, SameSeenAll cs cs' → walkAll D sem cs = walkAll D sem cs'
  | [], [] => fun _ => rfl
  | c :: cs, c' :: cs' => by
    intro h
    simp only [SameSeenAll] at h
    simp only [walkAll]
    rw [walk_seen sem c c' h.1, walkAll_seen sem cs cs' h.2]
  | [], _ :: _ => by intro h; simp [SameSeenAll] at h
  | _ :: _, [] => by intro h; simp [SameSeenAll] at h
end

theorem flows_vouched {D : Deps} {sem : Semantics S A} (hl : Lawful sem) {c : Chain} {v : View S A} {o : String} (h : Flows D sem c v o) :
    ∀ {request : View S A}, CoveredBy sem v request → Vouched D sem c o request := by
  induction h with
  | origin hc => exact fun hr => ⟨_, .self _, rfl, _, hc, hr⟩
  | attenuated k _ _ hp _ he ih =>
    intro request hr
    have : CoveredBy sem _ request := coveredBy_trans (enablesTrans_of_lawful hl) _ _ _ (Or.inr he) hr
    obtain ⟨q, hq, h⟩ := ih this
    exact ⟨q, .proof (List.mem_of_getElem? hp) hq, h⟩
  | redelegated k _ hp _ ih =>
    intro request hr
    obtain ⟨q, hq, h⟩ := ih hr
    exact ⟨q, .proof (List.mem_of_getElem? hp) hq, h⟩

end Walk

/-- C116: what a service computes from an accepted chain with its accessors is exactly who granted what. -/
theorem C116_exact {D : Deps} {E : Env} {nowTime : Option UInt64} {w w' : World} {c : Chain} (hc : Coherent w.parser) (hb : Built D E nowTime w w' c)
    (sem : Semantics S A) (v : View S A) (o : String) : (v, o) ∈ walk D sem c ↔ Granted D sem c v o :=
  Walk.walk_iff sem c (built_sound hc hb) v o

/-- C116: nothing else of the chain is looked at. -/
theorem C116_public (D : Deps) (sem : Semantics S A) (c c' : Chain) (h : SameSeen c c') : walk D sem c = walk D sem c' := Walk.walk_seen sem c c' h

/-- C116: so there is a check, though not on the reports (C87), that accepts a request for an owner exactly if the owner granted something that enables it. -/
theorem C116_check {D : Deps} {E : Env} {nowTime : Option UInt64} {w w' : World} {c : Chain} (hc : Coherent w.parser) (hb : Built D E nowTime w w' c)
    (sem : Semantics S A) (owner : String) (request : View S A) :
    walkCheck D sem c owner request = true ↔ ∃ v, Granted D sem c v owner ∧ sem.enables v request = true := by
  unfold walkCheck
  rw [List.any_eq_true]
  constructor
  · rintro ⟨⟨v, o⟩, hm, h⟩
    simp only [Bool.and_eq_true, beq_iff_eq] at h
    obtain ⟨rfl, he⟩ := h
    exact ⟨v, (C116_exact hc hb sem v o).1 hm, he⟩
  · rintro ⟨v, hg, he⟩
    refine ⟨(v, owner), (C116_exact hc hb sem v owner).2 hg, ?_⟩
    simp [he]

/-- C116: it accepts nothing that the check of the crate's tests refuses, if the semantics is lawful. -/
theorem C116_stricter {D : Deps} {E : Env} {nowTime : Option UInt64} {w w' : World} {c : Chain} (hc : Coherent w.parser) (hb : Built D E nowTime w w' c)
    (sem : Semantics S A) (hl : Lawful sem) (out : List (Info S A)) (hr : reduce D sem c = .ok out) (owner : String) (request : View S A)
    (h : walkCheck D sem c owner request = true) : Listed sem out owner request := by
  obtain ⟨v, hg, he⟩ := (C116_check hc hb sem owner request).1 h
  exact C87_complete D sem hl c out hr owner v request hg he

/-- C116: and nothing but what the owner signed: in a token of theirs is a claim that covers the request. -/
theorem C116_vouched {D : Deps} {E : Env} {nowTime : Option UInt64} {w w' : World} {c : Chain} (hc : Coherent w.parser) (hb : Built D E nowTime w w' c)
    (sem : Semantics S A) (hl : Lawful sem) (owner : String) (request : View S A) (h : walkCheck D sem c owner request = true) :
    Vouched D sem c owner request := by
  obtain ⟨v, hg, he⟩ := (C116_check hc hb sem owner request).1 h
  exact Walk.flows_vouched hl (granted_flows D sem c v owner hg) (Or.inr he)

/-- Beside C116: the chains of `C87_no_check`, whose reports are the same. The owner is found to have granted everything in the one, and not in the other. -/
example (D : Deps) (hD : ShortDigests D) : ∃ (E E' : Env) (fuel fuel' : Nat) (tok tok' : String) (w w1 w1' : World) (c c' : Chain)
    (out : List (Info EmailAddress EmailAction)) (o : String), Coherent w.parser ∧ ofToken D E none fuel tok w = (.ok c, w1) ∧
    ofToken D E' none fuel' tok' w = (.ok c', w1') ∧ reduce D emailSemantics c = .ok out ∧ reduce D emailSemantics c' = .ok out ∧
    walkCheck D emailSemantics c o Ex.viewAll = true ∧ walkCheck D emailSemantics c' o Ex.viewAll = false ∧
    walkCheck D emailSemantics c' o Ex.viewOne = true := by
  obtain ⟨a, _, ha, _⟩ := Ex.toy_denotes 1
  obtain ⟨b, _, hb, _⟩ := Ex.toy_denotes 2
  have hab : a ≠ b := by
    have h1 : (Ex.toyKey 1).did ≠ (Ex.toyKey 2).did := by decide +kernel
    rintro rfl
    exact h1 (ha.trans hb.symm)
  obtain ⟨uA, uB, w', _, _, ⟨N, h1⟩, h2, h3, h4, h5⟩ := Ex.mixed D hD _ _ (Ex.sendAll_view D) (Or.inr rfl) a b ha hb
  obtain ⟨uA', uB', w'', _, _, ⟨N', h1'⟩, h2', h3', h4', h5'⟩ := Ex.mixed D hD _ _ (Ex.sendOne_view D) (Or.inl rfl) a b ha hb
  have hgrant : ∀ (uA uB : Ucan) (x : Capability) (v : View EmailAddress EmailAction), uA.payload.iss = a → uA.payload.cap.iter = [x] →
      emailSemantics.parseCapability D x = some v → Granted D emailSemantics (.mk uB [.mk uA [] []] [0]) v a := by
    intro uA uB x v e1 e2 e3
    rw [granted_iff]
    refine Or.inr ⟨0, .mk uA [] [], by simp [Chain.redel], rfl, ?_⟩
    rw [granted_iff]
    refine Or.inl ⟨⟨[], _, [], e2, by simp, e3⟩, Or.inr ⟨e1.symm, ?_⟩⟩
    rintro ⟨o, k, p, v, hp, _⟩
    simp [Chain.proofs] at hp
  have hcoh : Coherent (⟨0, ⟨toyCtors, []⟩⟩ : World).parser := DidParser.coherent_fresh _
  refine ⟨_, _, N, N', _, _, _, _, _, _, _, _, a, hcoh, h1 N (Nat.le_refl _), h1' N' (Nat.le_refl _), h5, h5', ?_, ?_, ?_⟩
  · exact (C116_check hcoh (.ofToken N _ (h1 N (Nat.le_refl _))) _ _ _).2 ⟨_, hgrant _ _ _ _ h2 h4 (Ex.sendAll_view D), by decide⟩
  · rw [Bool.eq_false_iff]
    intro h
    obtain ⟨q, hq, hi, y, ⟨pre, x, post, he, _, hp⟩, hcov⟩ := C116_vouched hcoh (.ofToken N' _ (h1' N' (Nat.le_refl _))) _ C74_lawful.1 a Ex.viewAll h
    cases hq with
    | self => exact hab (hi.symm.trans h3')
    | proof hm hq =>
      cases List.mem_singleton.1 hm
      cases hq with
      | self =>
        have : x ∈ uA'.payload.cap.iter := by
          have he : uA'.payload.cap.iter = pre ++ x :: post := he
          rw [he]; simp
        rw [h4'] at this
        cases List.mem_singleton.1 this
        rw [Ex.sendOne_view] at hp
        cases hp
        exact Ex.all_more hcov
      | proof hm _ => cases hm
  · exact (C116_check hcoh (.ofToken N' _ (h1' N' (Nat.le_refl _))) _ _ _).2 ⟨_, hgrant _ _ _ _ h2' h4' (Ex.sendOne_view D), by decide⟩

end Verif
