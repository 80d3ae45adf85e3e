import Verif.Props.Capability
import Verif.Spec.Reduce

/-! # Reported capabilities: lemmas -/

namespace Verif
open Spec

variable {S A : Type}

/-! ## Enabling composes -/

theorem Caveat.allIn_get? {a b : Caveat} (h : Caveat.allIn a b = true) : ∀ k v, (k, v) ∈ a → ∃ v', BMap.get? b k = some v' ∧ Same v v' := by
  induction a with
  | nil => intro k v h; cases h
  | cons e a ih =>
    obtain ⟨k0, v0⟩ := e
    unfold Caveat.allIn at h
    split at h
    · rename_i v' hv'
      split at h
      · rename_i e'
        intro k v hm
        rcases List.mem_cons.1 hm with hm | hm
        · cases hm; exact ⟨v', hv', (Json.eqv_iff _ _).1 e'⟩
        · exact ih h k v hm
      · cases h
    · cases h

theorem Caveat.allIn_of_get? {a b : Caveat} (h : ∀ k v, (k, v) ∈ a → ∃ v', BMap.get? b k = some v' ∧ Same v v') : Caveat.allIn a b = true := by
  induction a with
  | nil => rfl
  | cons e a ih =>
    obtain ⟨k0, v0⟩ := e
    unfold Caveat.allIn
    obtain ⟨v', h1, h2⟩ := h k0 v0 (by simp)
    rw [h1]
    simp only [(Json.eqv_iff _ _).2 h2, if_true]
    exact ih (fun k v hm => h k v (by simp [hm]))

theorem get?_same {a b : List (String × Json)} (h : Same (.obj a) (.obj b)) (k : String) (v : Json) (hv : BMap.get? a k = some v) :
    ∃ v', BMap.get? b k = some v' ∧ Same v v' := by
  induction a generalizing b with
  | nil => simp [BMap.get?] at hv
  | cons e a ih =>
    obtain ⟨k0, v0⟩ := e
    cases h with
    | obj h1 h2 h3 =>
      cases b with
      | nil => simp at h1
      | cons e' b =>
        obtain ⟨k1, v1⟩ := e'
        have hk := h2 0 _ _ rfl rfl
        simp only at hk
        subst hk
        rw [BMap.get?] at hv ⊢
        split at hv
        · rename_i e
          cases hv
          rw [if_pos e]
          exact ⟨v1, rfl, h3 0 _ _ rfl rfl⟩
        · rename_i e
          rw [if_neg e]
          exact ih (.obj (by simpa using h1) (fun i x y hx hy => h2 (i + 1) x y (by simpa using hx) (by simpa using hy))
            fun i x y hx hy => h3 (i + 1) x y (by simpa using hx) (by simpa using hy)) hv

theorem Caveat.enables_trans {a b c : Caveat} (h1 : a.enables b = true) (h2 : b.enables c = true) : a.enables c = true := by
  unfold Caveat.enables at *
  by_cases ha : List.isEmpty a
  · rw [if_pos ha]
  · rw [if_neg ha] at h1 ⊢
    by_cases hb : List.isEmpty b
    · rw [if_pos hb] at h1; cases h1
    · rw [if_neg hb] at h1 h2
      by_cases hc : List.isEmpty c
      · rw [if_pos hc] at h2; cases h2
      · rw [if_neg hc] at h2 ⊢
        by_cases hac : Json.eqvMembers a c = true
        · rw [if_pos hac]
        · rw [if_neg hac]
          by_cases hab : Json.eqvMembers a b = true
          · by_cases hbc : Json.eqvMembers b c = true
            · rw [Json.eqvMembers_iff] at hab hbc hac
              exact absurd (hab.trans hbc) hac
            · rw [if_neg hbc] at h2
              refine Caveat.allIn_of_get? fun k v hm => ?_
              obtain ⟨v', hv', s'⟩ := keeps_of_same ((Json.eqvMembers_iff _ _).1 hab) k v hm
              obtain ⟨v'', hv'', s''⟩ := Caveat.allIn_get? h2 k v' hv'
              exact ⟨v'', hv'', s'.trans s''⟩
          · rw [if_neg hab] at h1
            refine Caveat.allIn_of_get? fun k v hm => ?_
            obtain ⟨v', hv', s'⟩ := Caveat.allIn_get? h1 k v hm
            by_cases hbc : Json.eqvMembers b c = true
            · obtain ⟨v'', hv'', s''⟩ := get?_same ((Json.eqvMembers_iff _ _).1 hbc) k v' hv'
              exact ⟨v'', hv'', s'.trans s''⟩
            · rw [if_neg hbc] at h2
              obtain ⟨v'', hv'', s''⟩ := Caveat.allIn_get? h2 k v' (BMap.mem_of_get? hv')
              exact ⟨v'', hv'', s'.trans s''⟩

theorem enablesTrans_of_lawful {sem : Semantics S A} (hl : Lawful sem) : EnablesTrans sem := by
  intro a b c h1 h2
  unfold Semantics.enables at *
  split at h1
  · rename_i ca cb hca hcb
    rw [hcb] at h2
    split at h2
    · rename_i cb' cc hcb' hcc
      injection hcb' with hcb'
      subst hcb'
      rw [hca, hcc]
      simp only [Bool.and_eq_true] at h1 h2 ⊢
      exact ⟨⟨C14_trans _ hl.containsTrans _ _ _ h1.1.1 h2.1.1, hl.geTrans _ _ _ h1.1.2 h2.1.2⟩, Caveat.enables_trans h1.2 h2.2⟩
    · cases h2
  · cases h1

/-! ## Induction on chains -/

mutual
theorem Chain.indAux {P : Chain → Prop} (h : ∀ u ps r, (∀ p ∈ ps, P p) → P (.mk u ps r)) : ∀ c : Chain, P c
  | .mk u ps r => h u ps r (Chain.indAuxAll h ps)
theorem Chain.indAuxAll {P : Chain → Prop} (h : ∀ u ps r, (∀ p ∈ ps, P p) → P (.mk u ps r)) : ∀ cs : List Chain, ∀ p ∈ cs, P p
  | [] => fun _ hp => nomatch hp
  | c :: cs => List.forall_mem_cons.2 ⟨Chain.indAux h c, Chain.indAuxAll h cs⟩
end

theorem mem_of_getElem?' {α : Type} {l : List α} {i : Nat} {a : α} (h : l[i]? = some a) : a ∈ l := List.mem_of_getElem? h

theorem Spec.Separate.proof {D : Deps} {sem : Semantics S A} {c p : Chain} (h : Separate D sem c) (hp : p ∈ c.proofs) : Separate D sem p :=
  fun d hd => h d (.proof hp hd)

theorem Spec.InRange.proof {c p : Chain} (h : InRange c) (hp : p ∈ c.proofs) : InRange p := fun d hd => h d (.proof hp hd)

theorem grantedAll_eq (D : Deps) (sem : Semantics S A) (cs : List Chain) : GrantedAll D sem cs = cs.map (Granted D sem) := by
  induction cs with
  | nil => rfl
  | cons c cs ih => simp [GrantedAll, ih]

/-- A proof that is not redelegated grants to `o` something enabling `v`. -/
def Inherits (D : Deps) (sem : Semantics S A) (c : Chain) (v : View S A) (o : String) : Prop :=
  ∃ (k : Nat) (p : Chain) (v' : View S A), c.proofs[k]? = some p ∧ k ∉ c.redel ∧ Granted D sem p v' o ∧ sem.enables v' v = true

theorem granted_iff (D : Deps) (sem : Semantics S A) (c : Chain) (v : View S A) (o : String) : Granted D sem c v o ↔
    (Claimed D sem c.ucan v ∧ (Inherits D sem c v o ∨ (o = c.ucan.payload.iss ∧ ¬ ∃ o', Inherits D sem c v o'))) ∨
    ∃ (k : Nat) (p : Chain), k ∈ c.redel ∧ c.proofs[k]? = some p ∧ Granted D sem p v o := by
  obtain ⟨u, ps, r⟩ := c
  have key : ∀ o, (∃ (k : Nat) (G : View S A → String → Prop) (v' : View S A), (GrantedAll D sem ps)[k]? = some G ∧ k ∉ r ∧ G v' o ∧
      sem.enables v' v = true) ↔ Inherits D sem (.mk u ps r) v o := by
    intro o
    rw [grantedAll_eq]
    unfold Inherits
    simp only [List.getElem?_map, Option.map_eq_some_iff]
    constructor
    · rintro ⟨k, G, v', ⟨p, hp, rfl⟩, h1, h2, h3⟩
      exact ⟨k, p, v', hp, h1, h2, h3⟩
    · rintro ⟨k, p, v', hp, h1, h2, h3⟩
      exact ⟨k, _, v', ⟨p, hp, rfl⟩, h1, h2, h3⟩
  rw [Granted]
  apply or_congr
  · apply and_congr_right
    intro _
    apply or_congr (key o)
    apply and_congr_right
    intro _
    apply not_congr
    exact exists_congr key
  · rw [grantedAll_eq]
    simp only [List.getElem?_map, Option.map_eq_some_iff]
    constructor
    · rintro ⟨k, G, h1, ⟨p, hp, rfl⟩, h2⟩
      exact ⟨k, p, h1, hp, h2⟩
    · rintro ⟨k, p, h1, hp, h2⟩
      exact ⟨k, _, h1, ⟨p, hp, rfl⟩, h2⟩

theorem granted_flows (D : Deps) (sem : Semantics S A) : ∀ (c : Chain) (v : View S A) (o : String), Granted D sem c v o → Flows D sem c v o := by
  intro c
  induction c using Chain.indAux with
  | h u ps r ih =>
    intro v o h
    rw [granted_iff] at h
    rcases h with ⟨hc, ⟨k, p, v', hp, hk, hg, he⟩ | ⟨rfl, _⟩⟩ | ⟨k, p, hk, hp, hg⟩
    · exact .attenuated k hc hk hp (ih p (mem_of_getElem?' hp) v' o hg) he
    · exact .origin hc
    · exact .redelegated k hk hp (ih p (mem_of_getElem?' hp) v o hg)

theorem granted_offers (D : Deps) (sem : Semantics S A) : ∀ (c : Chain) (v : View S A) (o : String), Granted D sem c v o → Offers D sem c v := by
  intro c
  induction c using Chain.indAux with
  | h u ps r ih =>
    intro v o h
    rw [granted_iff] at h
    rcases h with ⟨hc, _⟩ | ⟨k, p, hk, hp, hg⟩
    · exact .claim hc
    · exact .redelegated k hk hp (ih p (mem_of_getElem?' hp) v o hg)

/-- Whatever is offered was granted by somebody. -/
theorem offers_granted (D : Deps) (sem : Semantics S A) {c : Chain} {v : View S A} (h : Offers D sem c v) : ∃ o, Granted D sem c v o := by
  induction h with
  | claim hc =>
    rename_i c v
    by_cases hi : ∃ o, Inherits D sem c v o
    · obtain ⟨o, ho⟩ := hi
      exact ⟨o, (granted_iff D sem c v o).2 (Or.inl ⟨hc, Or.inl ho⟩)⟩
    · exact ⟨_, (granted_iff D sem c v _).2 (Or.inl ⟨hc, Or.inr ⟨rfl, hi⟩⟩)⟩
  | redelegated k hk hp _ ih =>
    obtain ⟨o, ho⟩ := ih
    exact ⟨o, (granted_iff D sem _ _ o).2 (Or.inr ⟨k, _, hk, hp, ho⟩)⟩

namespace Reduce

/-! ## Claims -/

theorem mem_mapWhile {α β : Type} (f : α → Option β) (l : List α) (y : β) :
    y ∈ mapWhile f l ↔ ∃ pre x post, l = pre ++ x :: post ∧ (∀ z ∈ pre, f z ≠ none) ∧ f x = some y := by
  induction l with
  | nil => simp [mapWhile]
  | cons a l ih =>
    unfold mapWhile
    split
    · rename_i b hb
      rw [List.mem_cons, ih]
      constructor
      · rintro (rfl | ⟨pre, x, post, rfl, h1, h2⟩)
        · exact ⟨[], a, l, rfl, by simp, hb⟩
        · refine ⟨a :: pre, x, post, rfl, ?_, h2⟩
          intro z hz
          rcases List.mem_cons.1 hz with rfl | hz
          · rw [hb]; simp
          · exact h1 z hz
      · rintro ⟨pre, x, post, he, h1, h2⟩
        cases pre with
        | nil =>
          cases he
          rw [hb] at h2
          cases h2
          exact Or.inl rfl
        | cons z pre =>
          cases he
          exact Or.inr ⟨pre, x, post, rfl, fun z hz => h1 z (by simp [hz]), h2⟩
    · rename_i hb
      constructor
      · intro h; cases h
      · rintro ⟨pre, x, post, he, h1, h2⟩
        cases pre with
        | nil => cases he; rw [hb] at h2; cases h2
        | cons z pre => cases he; exact absurd hb (h1 a (by simp))

theorem mapWhile_all {α β : Type} (f : α → Option β) (good bad : List α) (hg : ∀ x ∈ good, f x ≠ none) (hb : ∀ x ∈ bad, f x = none) :
    mapWhile f (good ++ bad) = (good ++ bad).filterMap f := by
  induction good with
  | nil =>
    have : bad.filterMap f = [] := by
      rw [List.filterMap_eq_nil_iff]; exact hb
    rw [List.nil_append, this]
    cases bad with
    | nil => rfl
    | cons x bad => unfold mapWhile; rw [hb x (by simp)]
  | cons x good ih =>
    rw [List.cons_append, mapWhile, List.filterMap_cons]
    cases hx : f x with
    | none => exact absurd hx (hg x (by simp))
    | some y => simp only; rw [ih (fun x hx => hg x (by simp [hx]))]

/-! ## Originators of a claim -/

theorem mem_gather (sem : Semantics S A) (v : View S A) (l : List (Info S A)) : ∀ (acc : BSet String) (o : String),
    o ∈ gather sem v acc l ↔ o ∈ acc ∨ ∃ i ∈ l, sem.enables i.capability v = true ∧ o ∈ i.originators := by
  induction l with
  | nil => intro acc o; simp [gather]
  | cons i l ih =>
    intro acc o
    unfold gather
    split
    · rename_i h
      rw [ih, BSet.mem_extend]
      constructor
      · rintro ((h1 | h1) | ⟨j, hj, h2, h3⟩)
        · exact Or.inl h1
        · exact Or.inr ⟨i, by simp, h, h1⟩
        · exact Or.inr ⟨j, by simp [hj], h2, h3⟩
      · rintro (h1 | ⟨j, hj, h2, h3⟩)
        · exact Or.inl (Or.inl h1)
        · rcases List.mem_cons.1 hj with rfl | hj
          · exact Or.inl (Or.inr h3)
          · exact Or.inr ⟨j, hj, h2, h3⟩
    · rename_i h
      rw [ih]
      constructor
      · rintro (h1 | ⟨j, hj, h2, h3⟩)
        · exact Or.inl h1
        · exact Or.inr ⟨j, by simp [hj], h2, h3⟩
      · rintro (h1 | ⟨j, hj, h2, h3⟩)
        · exact Or.inl h1
        · rcases List.mem_cons.1 hj with rfl | hj
          · exact absurd h2 h
          · exact Or.inr ⟨j, hj, h2, h3⟩

theorem mem_originators (sem : Semantics S A) (u : Ucan) (anc : List (Info S A)) (v : View S A) (o : String) :
    o ∈ originators sem u anc v ↔ (∃ i ∈ anc, sem.enables i.capability v = true ∧ o ∈ i.originators) ∨
      (o = u.issuer ∧ ¬ ∃ o', ∃ i ∈ anc, sem.enables i.capability v = true ∧ o' ∈ i.originators) := by
  have hg : ∀ o, o ∈ gather sem v [] anc ↔ ∃ i ∈ anc, sem.enables i.capability v = true ∧ o ∈ i.originators := by
    intro o; rw [mem_gather]; simp
  unfold originators
  cases hl : gather sem v [] anc with
  | nil =>
    have hne : ¬ ∃ o', ∃ i ∈ anc, sem.enables i.capability v = true ∧ o' ∈ i.originators := by
      rintro ⟨o', h⟩
      have := (hg o').2 h
      rw [hl] at this
      cases this
    simp only [List.isEmpty_nil, if_true, List.mem_singleton]
    constructor
    · intro h; exact Or.inr ⟨h, hne⟩
    · rintro (h | ⟨h, _⟩)
      · exact absurd ⟨o, h⟩ hne
      · exact h
  | cons x xs =>
    simp only [List.isEmpty_cons, Bool.false_eq_true, if_false]
    rw [← hl, hg]
    constructor
    · exact Or.inl
    · rintro (h | ⟨_, h⟩)
      · exact h
      · exact absurd ⟨x, (hg x).1 (by rw [hl]; simp)⟩ h

theorem mem_selfInfos (D : Deps) (sem : Semantics S A) (u : Ucan) (n : Nat) (anc : List (Info S A)) (hn : n = 0 → anc = []) (i : Info S A) :
    i ∈ selfInfos D sem u n anc ↔ Claimed D sem u i.capability ∧ i.notBefore = u.payload.nbf ∧ i.expiresAt = u.payload.exp ∧
      i.originators = originators sem u anc i.capability := by
  unfold selfInfos
  simp only [List.mem_map, mem_mapWhile]
  have horig : ∀ v, (if n = 0 then [u.issuer] else originators sem u anc v) = originators sem u anc v := by
    intro v
    split
    · rename_i h
      rw [hn h]; rfl
    · rfl
  constructor
  · rintro ⟨v, hv, rfl⟩
    exact ⟨hv, rfl, rfl, horig v⟩
  · rintro ⟨hc, h1, h2, h3⟩
    refine ⟨i.capability, hc, ?_⟩
    obtain ⟨os, nb, ex, cap⟩ := i
    simp only at h1 h2 h3 ⊢
    rw [horig, h1, h2, h3]
    rfl

/-! ## Results of proofs -/

theorem reduceAll_eq (D : Deps) (sem : Semantics S A) (cs : List Chain) : reduceAll D sem cs = cs.map (reduce D sem) := by
  induction cs with
  | nil => rfl
  | cons c cs ih => simp [reduceAll, ih]

theorem mem_ancestral {α : Type} (redel : BSet Nat) (rs : List (Res (List α))) : ∀ (i : Nat) (l : List α), ancestral redel i rs = .ok l →
    (∀ x, x ∈ l ↔ ∃ (k : Nat) (lk : List α), rs[k]? = some (.ok lk) ∧ i + k ∉ redel ∧ x ∈ lk) ∧
    ∀ (k : Nat) (r : Res (List α)), rs[k]? = some r → i + k ∉ redel → ∃ lk, r = .ok lk := by
  induction rs with
  | nil =>
    intro i l h
    cases h
    simp
  | cons r rs ih =>
    intro i l h
    unfold ancestral at h
    split at h
    · rename_i hi
      obtain ⟨h1, h2⟩ := ih (i + 1) l h
      refine ⟨fun x => ?_, fun k r' hk hnot => ?_⟩
      · rw [h1]
        constructor
        · rintro ⟨k, lk, hk, hnot, hx⟩
          exact ⟨k + 1, lk, by simpa using hk, by rwa [show i + (k + 1) = i + 1 + k by omega], hx⟩
        · rintro ⟨k, lk, hk, hnot, hx⟩
          cases k with
          | zero => exact absurd hi hnot
          | succ k => exact ⟨k, lk, by simpa using hk, by rwa [show i + 1 + k = i + (k + 1) by omega], hx⟩
      · cases k with
        | zero => exact absurd hi hnot
        | succ k => exact h2 k r' (by simpa using hk) (by rwa [show i + 1 + k = i + (k + 1) by omega])
    · rename_i hi
      split at h
      · cases h
      · rename_i l0
        split at h
        · cases h
        · rename_i ls hls
          injection h with h
          subst h
          obtain ⟨h1, h2⟩ := ih (i + 1) ls hls
          refine ⟨fun x => ?_, fun k r' hk hnot => ?_⟩
          · rw [List.mem_append, h1]
            constructor
            · rintro (hx | ⟨k, lk, hk, hnot, hx⟩)
              · exact ⟨0, l0, rfl, hi, hx⟩
              · exact ⟨k + 1, lk, by simpa using hk, by rwa [show i + (k + 1) = i + 1 + k by omega], hx⟩
            · rintro ⟨k, lk, hk, hnot, hx⟩
              cases k with
              | zero => simp at hk; subst hk; exact Or.inl hx
              | succ k => exact Or.inr ⟨k, lk, by simpa using hk, by rwa [show i + 1 + k = i + (k + 1) by omega], hx⟩
          · cases k with
            | zero => simp at hk; exact ⟨l0, hk.symm⟩
            | succ k => exact h2 k r' (by simpa using hk) (by rwa [show i + 1 + k = i + (k + 1) by omega])

theorem ancestral_total {α : Type} (redel : BSet Nat) (rs : List (Res (List α))) (h : ∀ r ∈ rs, ∃ l, r = .ok l) :
    ∀ i, ∃ l, ancestral redel i rs = .ok l := by
  induction rs with
  | nil => intro i; exact ⟨[], rfl⟩
  | cons r rs ih =>
    intro i
    obtain ⟨l, rfl⟩ := h r (by simp)
    obtain ⟨ls, hls⟩ := ih (fun r hr => h r (by simp [hr])) (i + 1)
    unfold ancestral
    split
    · exact ⟨ls, hls⟩
    · exact ⟨l ++ ls, by rw [hls]⟩

theorem mem_redelegated {α : Type} (results : List (Res (List α))) (is : List Nat) : ∀ (l : List α), redelegated results is = .ok l →
    (∀ x, x ∈ l ↔ ∃ (k : Nat) (lk : List α), k ∈ is ∧ results[k]? = some (.ok lk) ∧ x ∈ lk) ∧
    ∀ k ∈ is, ∃ lk, results[k]? = some (.ok lk) := by
  induction is with
  | nil => intro l h; cases h; simp
  | cons i is ih =>
    intro l h
    unfold redelegated at h
    split at h
    · cases h
    · cases h
    · rename_i l0 h0
      split at h
      · cases h
      · rename_i ls hls
        injection h with h
        subst h
        obtain ⟨h1, h2⟩ := ih ls hls
        refine ⟨fun x => ?_, fun k hk => ?_⟩
        · rw [List.mem_append, h1]
          constructor
          · rintro (hx | ⟨k, lk, hk, hr, hx⟩)
            · exact ⟨i, l0, by simp, h0, hx⟩
            · exact ⟨k, lk, by simp [hk], hr, hx⟩
          · rintro ⟨k, lk, hk, hr, hx⟩
            rcases List.mem_cons.1 hk with rfl | hk
            · rw [h0] at hr; cases hr; exact Or.inl hx
            · exact Or.inr ⟨k, lk, hk, hr, hx⟩
        · rcases List.mem_cons.1 hk with rfl | hk
          · exact ⟨l0, h0⟩
          · exact h2 k hk

theorem redelegated_total {α : Type} (results : List (Res (List α))) (h : ∀ r ∈ results, ∃ l, r = .ok l) (is : List Nat)
    (his : ∀ i ∈ is, i < results.length) : ∃ l, redelegated results is = .ok l := by
  induction is with
  | nil => exact ⟨[], rfl⟩
  | cons i is ih =>
    have hi := his i (by simp)
    obtain ⟨l, hl⟩ := h results[i] (List.getElem_mem _)
    obtain ⟨ls, hls⟩ := ih (fun j hj => his j (by simp [hj]))
    refine ⟨l ++ ls, ?_⟩
    unfold redelegated
    rw [List.getElem?_eq_getElem hi, hl, hls]

/-! ## Merging -/

theorem absorb_some {sem : Semantics S A} {p : Info S A} : ∀ {l l' : List (Info S A)}, absorb sem p l = some l' →
    ∃ pre r post, l = pre ++ r :: post ∧ sem.enables r.capability p.capability = true ∧
      l' = pre ++ { r with originators := BSet.extend r.originators p.originators } :: post
  | [], l', h => by cases h
  | r :: rs, l', h => by
    unfold absorb at h
    split at h
    · rename_i he
      injection h with h
      exact ⟨[], r, rs, rfl, he, h.symm⟩
    · cases hrs : absorb sem p rs with
      | none => rw [hrs] at h; cases h
      | some l'' =>
        rw [hrs] at h
        injection h with h
        obtain ⟨pre, r', post, h1, h2, h3⟩ := absorb_some hrs
        exact ⟨r :: pre, r', post, by rw [h1]; rfl, h2, by rw [← h, h3]; rfl⟩

theorem absorb_none {sem : Semantics S A} {p : Info S A} : ∀ {l : List (Info S A)}, absorb sem p l = none →
    ∀ r ∈ l, sem.enables r.capability p.capability = false
  | [], _, r, hr => by cases hr
  | r :: rs, h, x, hx => by
    unfold absorb at h
    split at h
    · cases h
    · rename_i he
      cases hrs : absorb sem p rs with
      | some l'' => rw [hrs] at h; cases h
      | none =>
        rcases List.mem_cons.1 hx with rfl | hx
        · simpa using he
        · exact absorb_none hrs x hx

/-- The relation between the vector and the merged list, without fuel. -/
inductive Merged (sem : Semantics S A) : List (Info S A) → List (Info S A) → Prop
  | nil : Merged sem [] []
  | absorbed {l out pre post : List (Info S A)} {p r : Info S A} : l = pre ++ r :: post → sem.enables r.capability p.capability = true →
      Merged sem (pre ++ { r with originators := BSet.extend r.originators p.originators } :: post) out → Merged sem (l ++ [p]) out
  | kept {l out : List (Info S A)} {p : Info S A} : (∀ r ∈ l, sem.enables r.capability p.capability = false) → Merged sem l out →
      Merged sem (l ++ [p]) (p :: out)

theorem mergeLoop_merged (sem : Semantics S A) : ∀ (fuel : Nat) (l acc : List (Info S A)), l.length = fuel →
    ∃ out, mergeLoop sem fuel l acc = acc ++ out ∧ Merged sem l out
  | 0, l, acc, h => by
    have : l = [] := List.length_eq_zero_iff.1 h
    subst this
    exact ⟨[], by simp [mergeLoop], .nil⟩
  | fuel + 1, l, acc, h => by
    have hne : l ≠ [] := by intro e; subst e; cases h
    obtain ⟨p, hp⟩ : ∃ p, l.getLast? = some p := ⟨l.getLast hne, List.getLast?_eq_some_getLast hne⟩
    have hl : l = l.dropLast ++ [p] := by
      have := List.dropLast_concat_getLast hne
      rw [List.getLast?_eq_some_getLast hne] at hp
      injection hp with hp
      rw [hp] at this
      exact this.symm
    have hlen : l.dropLast.length = fuel := by simp [h]
    unfold mergeLoop
    rw [hp]
    simp only
    cases ha : absorb sem p l.dropLast with
    | some rest =>
      obtain ⟨pre, r, post, h1, h2, h3⟩ := absorb_some ha
      have hlen' : rest.length = fuel := by
        rw [h3]; rw [h1] at hlen; simpa using hlen
      obtain ⟨out, ho, hm⟩ := mergeLoop_merged sem fuel rest acc hlen'
      refine ⟨out, ho, ?_⟩
      rw [hl]
      exact .absorbed h1 h2 (by rw [← h3]; exact hm)
    | none =>
      obtain ⟨out, ho, hm⟩ := mergeLoop_merged sem fuel l.dropLast (acc ++ [p]) hlen
      refine ⟨p :: out, by rw [ho]; simp, ?_⟩
      rw [hl]
      exact .kept (absorb_none ha) hm

theorem merge_merged (sem : Semantics S A) (l : List (Info S A)) : Merged sem l (merge sem l) := by
  obtain ⟨out, ho, hm⟩ := mergeLoop_merged sem l.length l [] rfl
  unfold merge
  rw [ho]
  exact hm

/-- Same capability and lifetime, no fewer originators. -/
def Extends (x i : Info S A) : Prop :=
  i.capability = x.capability ∧ i.notBefore = x.notBefore ∧ i.expiresAt = x.expiresAt ∧ ∀ o ∈ x.originators, o ∈ i.originators

/-- Every merged info comes from one of the vector. -/
theorem Merged.source {sem : Semantics S A} {l out : List (Info S A)} (h : Merged sem l out) : ∀ i ∈ out, ∃ x ∈ l, Extends x i := by
  induction h with
  | nil => intro i hi; cases hi
  | absorbed hl he _ ih =>
    intro i hi
    obtain ⟨x, hx, h1, h2, h3, h4⟩ := ih i hi
    subst hl
    simp only [List.mem_append, List.mem_cons] at hx
    rcases hx with hx | rfl | hx
    · exact ⟨x, by simp [hx], h1, h2, h3, h4⟩
    · rename_i r _
      exact ⟨r, by simp, h1, h2, h3, fun o ho => h4 o (BSet.mem_extend.2 (Or.inl ho))⟩
    · exact ⟨x, by simp [hx], h1, h2, h3, h4⟩
  | kept _ _ ih =>
    intro i hi
    rcases List.mem_cons.1 hi with rfl | hi
    · exact ⟨i, by simp, rfl, rfl, rfl, fun _ h => h⟩
    · obtain ⟨x, hx, h⟩ := ih i hi
      exact ⟨x, by simp [hx], h⟩

/-- Where an originator comes from, for any preorder that contains enabling between the capabilities at hand. -/
theorem Merged.origin {sem : Semantics S A} {R : View S A → View S A → Prop} (hr : ∀ a, R a a) (ht : ∀ a b c, R a b → R b c → R a c)
    {l out : List (Info S A)} (h : Merged sem l out) :
    (∀ x ∈ l, ∀ y ∈ l, sem.enables x.capability y.capability = true → R x.capability y.capability) →
    ∀ i ∈ out, ∀ o ∈ i.originators, ∃ x ∈ l, R i.capability x.capability ∧ o ∈ x.originators := by
  induction h with
  | nil => intro _ i hi; cases hi
  | absorbed hl he _ ih =>
    rename_i l out pre post p r _
    subst hl
    intro hR i hi o ho
    obtain ⟨x, hx, h1, h2⟩ := ih (by
      intro x hx y hy hxy
      have lift : ∀ z, z ∈ pre ++ { r with originators := BSet.extend r.originators p.originators } :: post →
          ∃ z' ∈ (pre ++ r :: post) ++ [p], z'.capability = z.capability := by
        intro z hz
        simp only [List.mem_append, List.mem_cons] at hz
        rcases hz with hz | rfl | hz
        · exact ⟨z, by simp [hz], rfl⟩
        · exact ⟨r, by simp, rfl⟩
        · exact ⟨z, by simp [hz], rfl⟩
      obtain ⟨x', hx', ex⟩ := lift x hx
      obtain ⟨y', hy', ey⟩ := lift y hy
      rw [← ex, ← ey] at hxy ⊢
      exact hR x' hx' y' hy' hxy) i hi o ho
    simp only [List.mem_append, List.mem_cons] at hx
    rcases hx with hx | rfl | hx
    · exact ⟨x, by simp [hx], h1, h2⟩
    · rcases BSet.mem_extend.1 h2 with h2 | h2
      · exact ⟨r, by simp, h1, h2⟩
      · exact ⟨p, by simp, ht _ _ _ h1 (hR r (by simp) p (by simp) he), h2⟩
    · exact ⟨x, by simp [hx], h1, h2⟩
  | kept _ _ ih =>
    intro hR i hi o ho
    rcases List.mem_cons.1 hi with rfl | hi
    · exact ⟨i, by simp, hr _, ho⟩
    · obtain ⟨x, hx, h⟩ := ih (fun x hx y hy => hR x (by simp [hx]) y (by simp [hy])) i hi o ho
      exact ⟨x, by simp [hx], h⟩

/-- Nothing is lost by merging. -/
theorem Merged.cover {sem : Semantics S A} {R : View S A → View S A → Prop} (hr : ∀ a, R a a) (ht : ∀ a b c, R a b → R b c → R a c)
    {l out : List (Info S A)} (h : Merged sem l out) :
    (∀ x ∈ l, ∀ y ∈ l, sem.enables x.capability y.capability = true → R x.capability y.capability) →
    ∀ x ∈ l, ∃ i ∈ out, R i.capability x.capability ∧ ∀ o ∈ x.originators, o ∈ i.originators := by
  induction h with
  | nil => intro _ i hi; cases hi
  | absorbed hl he _ ih =>
    rename_i l out pre post p r _
    subst hl
    intro hR x hx
    have ih := ih (by
      intro x hx y hy hxy
      have lift : ∀ z, z ∈ pre ++ { r with originators := BSet.extend r.originators p.originators } :: post →
          ∃ z' ∈ (pre ++ r :: post) ++ [p], z'.capability = z.capability := by
        intro z hz
        simp only [List.mem_append, List.mem_cons] at hz
        rcases hz with hz | rfl | hz
        · exact ⟨z, by simp [hz], rfl⟩
        · exact ⟨r, by simp, rfl⟩
        · exact ⟨z, by simp [hz], rfl⟩
      obtain ⟨x', hx', ex⟩ := lift x hx
      obtain ⟨y', hy', ey⟩ := lift y hy
      rw [← ex, ← ey] at hxy ⊢
      exact hR x' hx' y' hy' hxy)
    obtain ⟨i, hi, h1, h2⟩ := ih { r with originators := BSet.extend r.originators p.originators } (by simp)
    simp only [List.mem_append, List.mem_cons, List.not_mem_nil, or_false] at hx
    rcases hx with (hx | rfl | hx) | rfl
    · exact ih x (by simp [hx])
    · exact ⟨i, hi, h1, fun o ho => h2 o (BSet.mem_extend.2 (Or.inl ho))⟩
    · exact ih x (by simp [hx])
    · exact ⟨i, hi, ht _ _ _ h1 (hR r (by simp) x (by simp) he), fun o ho => h2 o (BSet.mem_extend.2 (Or.inr ho))⟩
  | kept _ _ ih =>
    rename_i l out p _ _
    intro hR x hx
    rcases List.mem_append.1 hx with hx | hx
    · obtain ⟨i, hi, h⟩ := ih (fun x hx y hy => hR x (by simp [hx]) y (by simp [hy])) x hx
      exact ⟨i, by simp [hi], h⟩
    · have : x = p := by simpa using hx
      subst this
      exact ⟨x, by simp, hr _, fun _ h => h⟩

/-- Nothing in the merged list is enabled by something after it. -/
theorem Merged.pairwise {sem : Semantics S A} {l out : List (Info S A)} (h : Merged sem l out) :
    out.Pairwise fun a b => sem.enables b.capability a.capability = false := by
  induction h with
  | nil => exact List.Pairwise.nil
  | absorbed _ _ _ ih => exact ih
  | kept hn hm ih =>
    refine List.Pairwise.cons (fun i hi => ?_) ih
    obtain ⟨x, hx, h1, _⟩ := hm.source i hi
    rw [h1]
    exact hn x hx

/-- Originators stay sets. -/
theorem Merged.sorted {sem : Semantics S A} {l out : List (Info S A)} (h : Merged sem l out) :
    (∀ x ∈ l, BSet.Sorted x.originators) → ∀ i ∈ out, BSet.Sorted i.originators := by
  induction h with
  | nil => intro _ i hi; cases hi
  | absorbed hl _ _ ih =>
    rename_i l out pre post p r _ _
    subst hl
    intro hs
    apply ih
    intro x hx
    simp only [List.mem_append, List.mem_cons] at hx
    rcases hx with hx | rfl | hx
    · exact hs x (by simp [hx])
    · exact BSet.sorted_extend (hs r (by simp)) _
    · exact hs x (by simp [hx])
  | kept _ _ ih =>
    intro hs i hi
    rcases List.mem_cons.1 hi with rfl | hi
    · exact hs i (by simp)
    · exact ih (fun x hx => hs x (by simp [hx])) i hi

/-! ## The whole reduction -/

/-- What the vector before merging holds. -/
structure Collected (D : Deps) (sem : Semantics S A) (c : Chain) (anc l : List (Info S A)) : Prop where
  ancestors : ∀ x, x ∈ anc ↔ ∃ (k : Nat) (p : Chain) (lp : List (Info S A)), c.proofs[k]? = some p ∧ k ∉ c.redel ∧ reduce D sem p = .ok lp ∧ x ∈ lp
  members : ∀ x, x ∈ l ↔
    (Claimed D sem c.ucan x.capability ∧ x.notBefore = c.ucan.payload.nbf ∧ x.expiresAt = c.ucan.payload.exp ∧
      x.originators = originators sem c.ucan anc x.capability) ∨
    ∃ (k : Nat) (p : Chain) (lp : List (Info S A)) (y : Info S A), k ∈ c.redel ∧ c.proofs[k]? = some p ∧ reduce D sem p = .ok lp ∧ y ∈ lp ∧
      x = relifetime c.ucan y
  proofsOk : ∀ (k : Nat) (p : Chain), c.proofs[k]? = some p → ∃ lp, reduce D sem p = .ok lp

theorem reduce_ok {D : Deps} {sem : Semantics S A} {c : Chain} {out : List (Info S A)} (h : reduce D sem c = .ok out) :
    ∃ anc l, Collected D sem c anc l ∧ Merged sem l out := by
  obtain ⟨u, ps, r⟩ := c
  rw [reduce] at h
  unfold combine at h
  split at h
  · cases h
  · rename_i anc hanc
    split at h
    · cases h
    · rename_i red hred
      injection h with h
      subst h
      obtain ⟨a1, a2⟩ := mem_ancestral r _ 0 anc hanc
      obtain ⟨r1, r2⟩ := mem_redelegated _ _ red hred
      rw [reduceAll_eq] at a1 a2 r1 r2
      have hres : ∀ (k : Nat) (x : Res (List (Info S A))), (ps.map (reduce D sem))[k]? = some x ↔ ∃ p, ps[k]? = some p ∧ reduce D sem p = x := by
        intro k x
        simp only [List.getElem?_map, Option.map_eq_some_iff]
      have hanc' : ∀ x, x ∈ anc ↔ ∃ (k : Nat) (p : Chain) (lp : List (Info S A)), ps[k]? = some p ∧ k ∉ r ∧ reduce D sem p = .ok lp ∧ x ∈ lp := by
        intro x
        rw [a1]
        constructor
        · rintro ⟨k, lk, hk, hnot, hx⟩
          obtain ⟨p, hp, hr⟩ := (hres _ _).1 hk
          exact ⟨k, p, lk, hp, by simpa using hnot, hr, hx⟩
        · rintro ⟨k, p, lk, hp, hnot, hr, hx⟩
          exact ⟨k, lk, (hres _ _).2 ⟨p, hp, hr⟩, by simpa using hnot, hx⟩
      refine ⟨anc, _, ⟨hanc', fun x => ?_, fun k p hp => ?_⟩, merge_merged _ _⟩
      · rw [List.mem_append]
        apply or_congr
        · rw [mem_selfInfos]
          · rfl
          · intro hn
            have : ps = [] := by
              rw [reduceAll_eq, List.length_map] at hn
              exact List.length_eq_zero_iff.1 hn
            subst this
            cases anc with
            | nil => rfl
            | cons x anc =>
              obtain ⟨k, p, lp, hp, _⟩ := (hanc' x).1 (by simp)
              simp at hp
        · rw [List.mem_map]
          constructor
          · rintro ⟨y, hy, rfl⟩
            obtain ⟨k, lk, hk, hr, hx⟩ := (r1 y).1 hy
            obtain ⟨p, hp, hr⟩ := (hres _ _).1 hr
            exact ⟨k, p, lk, y, hk, hp, hr, hx, rfl⟩
          · rintro ⟨k, p, lk, y, hk, hp, hr, hx, rfl⟩
            exact ⟨y, (r1 y).2 ⟨k, lk, hk, (hres _ _).2 ⟨p, hp, hr⟩, hx⟩, rfl⟩
      · by_cases hk : k ∈ r
        · obtain ⟨lk, hlk⟩ := r2 k hk
          obtain ⟨p', hp', hr⟩ := (hres _ _).1 hlk
          have : p = p' := by
            have : some p = some p' := (show ps[k]? = some p from hp).symm.trans hp'
            injection this
          rw [this]
          exact ⟨lk, hr⟩
        · exact a2 k _ ((hres _ _).2 ⟨p, hp, rfl⟩) (by simpa using hk)

theorem reduce_total (D : Deps) (sem : Semantics S A) : ∀ c : Chain, InRange c → ∃ out, reduce D sem c = .ok out := by
  intro c
  induction c using Chain.indAux with
  | h u ps r ih =>
    intro hin
    have hres : ∀ x ∈ reduceAll D sem ps, ∃ l, x = .ok l := by
      intro x hx
      rw [reduceAll_eq, List.mem_map] at hx
      obtain ⟨p, hp, rfl⟩ := hx
      exact ih p hp (hin.proof hp)
    rw [reduce]
    unfold combine
    obtain ⟨anc, hanc⟩ := ancestral_total r _ hres 0
    obtain ⟨red, hred⟩ := redelegated_total _ hres r (by
      intro i hi
      rw [reduceAll_eq, List.length_map]
      exact hin _ (.self _) i hi)
    rw [hanc, hred]
    exact ⟨_, rfl⟩

end Reduce
end Verif
