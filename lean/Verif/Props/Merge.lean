import Verif.Spec.Merge
import Verif.Props.ReduceExamples

/-! # Exactly what is reported (C31, C34, C35) -/

namespace Verif
open Spec Chain Reduce

variable {S A : Type}

namespace Merge

/-- A report without its time bounds. -/
def view (i : Info S A) : Attribution S A := (i.capability, fun o => o ∈ i.originators)

/-- Like `Leads`, as long as the entries passed are not before `n`. -/
inductive LeadsFrom (sem : Semantics S A) (L : List (Attribution S A)) (n : Nat) : Nat → Nat → Prop
  | here (j : Nat) : LeadsFrom sem L n j j
  | up {m k j : Nat} : n ≤ m → FirstEnabler sem L m k → LeadsFrom sem L n k j → LeadsFrom sem L n m j

theorem Leads.ge {sem : Semantics S A} {L : List (Attribution S A)} {m j : Nat} (h : Leads sem L m j) : j ≤ m := by
  induction h with
  | here => exact Nat.le_refl _
  | up h _ ih => have := h.1; omega

theorem leadsFrom_last {sem : Semantics S A} {L : List (Attribution S A)} {m j : Nat} : LeadsFrom sem L (j + 1) m j ↔ Leads sem L m j := by
  constructor
  · generalize j + 1 = n
    intro h
    induction h with
    | here => exact .here _
    | up _ h _ ih => exact .up h ih
  · intro h
    induction h with
    | here => exact .here _
    | @up m k j h h' ih =>
      have := Leads.ge h'
      exact .up (by have := h.1; omega) h ih

theorem LeadsFrom.low {sem : Semantics S A} {L : List (Attribution S A)} {n m j : Nat} (h : LeadsFrom sem L n m j) (hm : m < n) : m = j := by
  cases h with
  | here => rfl
  | up h => omega

theorem LeadsFrom.mono {sem : Semantics S A} {L : List (Attribution S A)} {n m j : Nat} (h : LeadsFrom sem L (n + 1) m j) : LeadsFrom sem L n m j := by
  induction h with
  | here => exact .here _
  | up h h' _ ih => exact .up (by omega) h' ih

theorem LeadsFrom.snoc {sem : Semantics S A} {L : List (Attribution S A)} {n m k : Nat} (h : LeadsFrom sem L n m k) {j : Nat} (hk : n ≤ k)
    (hj : FirstEnabler sem L k j) : LeadsFrom sem L n m j := by
  induction h with
  | here => exact .up hk hj (.here _)
  | up h h' _ ih => exact .up h h' (ih hk hj)

theorem leadsFrom_step {sem : Semantics S A} {L : List (Attribution S A)} {n m j : Nat} :
    LeadsFrom sem L n m j ↔ LeadsFrom sem L (n + 1) m j ∨ (LeadsFrom sem L (n + 1) m n ∧ FirstEnabler sem L n j) := by
  constructor
  · intro h
    induction h with
    | here => exact Or.inl (.here _)
    | @up m k j h h' _ ih =>
      by_cases hm : m = n
      · subst hm
        have hk := h'.1
        rcases ih with h1 | ⟨h1, _⟩
        · have := h1.low (by omega)
          subst this
          exact Or.inr ⟨.here _, h'⟩
        · have := h1.low (by omega)
          omega
      · rcases ih with h1 | ⟨h1, h2⟩
        · exact Or.inl (.up (by omega) h' h1)
        · exact Or.inr ⟨.up (by omega) h' h1, h2⟩
  · rintro (h | ⟨h, h'⟩)
    · exact h.mono
    · exact h.mono.snoc (Nat.le_refl _) h'

/-- The loop's vector `cur` of `n` entries, in the terms of the vector `L` it started with. -/
structure State (sem : Semantics S A) (L : List (Attribution S A)) (n : Nat) (cur : List (Info S A)) : Prop where
  le : n ≤ L.length
  length : cur.length = n
  caps : cur.map (·.capability) = (L.take n).map (·.1)
  ids : ∀ (j : Nat) (i : Info S A), cur[j]? = some i → ∀ o, o ∈ i.originators ↔ ∃ m x, LeadsFrom sem L n m j ∧ L[m]? = some x ∧ x.2 o

theorem State.start (sem : Semantics S A) (l : List (Info S A)) : State sem (l.map view) l.length l where
  le := by simp
  length := rfl
  caps := by
    have : List.take l.length (l.map view) = l.map view := List.take_of_length_le (by simp)
    rw [this, List.map_map]
    rfl
  ids := by
    intro j i hj o
    have hlt : j < l.length := (List.getElem?_eq_some_iff.1 hj).1
    constructor
    · intro h
      exact ⟨j, view i, .here _, by rw [List.getElem?_map, hj]; rfl, h⟩
    · rintro ⟨m, x, h, hx, ho⟩
      have hm : m < l.length := by
        have := (List.getElem?_eq_some_iff.1 hx).1
        simpa using this
      have := h.low hm
      subst this
      rw [List.getElem?_map, hj] at hx
      cases hx
      exact ho

/-- What is left to report from the first `n` entries. -/
def rest (sem : Semantics S A) (L : List (Attribution S A)) (n : Nat) : List (Attribution S A) :=
  ((List.range n).filter (unenabled sem L)).reverse.filterMap fun j =>
    L[j]?.map fun e => (e.1, fun o => ∃ m x, Leads sem L m j ∧ L[m]? = some x ∧ x.2 o)

theorem State.cap {sem : Semantics S A} {L : List (Attribution S A)} {n : Nat} {cur : List (Info S A)} (h : State sem L n cur) {j : Nat}
    {i : Info S A} (hj : cur[j]? = some i) : ∃ e, L[j]? = some e ∧ e.1 = i.capability := by
  have hlt : j < cur.length := (List.getElem?_eq_some_iff.1 hj).1
  have h1 := congrArg (fun l => l[j]?) h.caps
  simp only [List.getElem?_map, hj, Option.map_some] at h1
  rw [List.getElem?_take_of_lt (by rw [← h.length]; exact hlt)] at h1
  cases he : L[j]? with
  | none => rw [he] at h1; cases h1
  | some e =>
    rw [he] at h1
    injection h1 with h1
    exact ⟨e, rfl, h1.symm⟩

theorem take_append_of {α : Type} {l xs : List α} {x : α} {n : Nat} (h : l.take (n + 1) = xs ++ [x]) (hn : xs.length = n) : l.take n = xs := by
  have := congrArg (List.take n) h
  rw [List.take_take, Nat.min_eq_left (by omega)] at this
  rw [this, List.take_left' hn]

theorem State.pop {sem : Semantics S A} {L : List (Attribution S A)} {n : Nat} {l : List (Info S A)} {p : Info S A}
    (h : State sem L (n + 1) (l ++ [p])) : l.length = n ∧ l.map (·.capability) = (L.take n).map (·.1) ∧
      (∃ e, L[n]? = some e ∧ e.1 = p.capability) ∧
      (∀ (o : String), o ∈ p.originators ↔ ∃ m x, Leads sem L m n ∧ L[m]? = some x ∧ x.2 o) := by
  have hl : l.length = n := by
    have := h.length
    simp at this
    exact this
  have hp : (l ++ [p])[n]? = some p := by rw [← hl]; simp
  refine ⟨hl, ?_, h.cap hp, ?_⟩
  · have := h.caps
    rw [List.map_append, List.map_take] at this
    have := take_append_of this.symm (by simpa using hl)
    rw [List.map_take, this]
  · intro o
    rw [h.ids n p hp]
    simp only [leadsFrom_last]

theorem unenabled_iff {sem : Semantics S A} {L : List (Attribution S A)} {j : Nat} {e : Attribution S A} (h : L[j]? = some e) :
    unenabled sem L j = true ↔ ∀ v ∈ (L.take j).map (·.1), sem.enables v e.1 = false := by
  unfold unenabled
  rw [h]
  simp only [List.all_eq_true, List.mem_map]
  constructor
  · rintro h' v ⟨x, hx, rfl⟩
    simpa using h' x hx
  · intro h' x hx
    simpa using h' x.1 ⟨x, hx, rfl⟩

theorem absorb_first {sem : Semantics S A} {p : Info S A} : ∀ {l l' : List (Info S A)}, absorb sem p l = some l' →
    ∃ pre r post, l = pre ++ r :: post ∧ sem.enables r.capability p.capability = true ∧ (∀ x ∈ pre, sem.enables x.capability p.capability = false) ∧
      l' = pre ++ { r with originators := BSet.extend r.originators p.originators } :: post
  | [], l', h => by cases h
  | r :: rs, l', h => by
    unfold absorb at h
    split at h
    · rename_i he
      injection h with h
      exact ⟨[], r, rs, rfl, he, by simp, h.symm⟩
    · rename_i he
      cases hrs : absorb sem p rs with
      | none => rw [hrs] at h; cases h
      | some l'' =>
        rw [hrs] at h
        injection h with h
        obtain ⟨pre, r', post, h1, h2, h3, h4⟩ := absorb_first hrs
        refine ⟨r :: pre, r', post, by rw [h1]; rfl, h2, ?_, by rw [← h, h4]; rfl⟩
        intro x hx
        rcases List.mem_cons.1 hx with rfl | hx
        · simpa using he
        · exact h3 x hx

theorem rest_succ (sem : Semantics S A) (L : List (Attribution S A)) (n : Nat) : rest sem L (n + 1) =
    (if unenabled sem L n then (L[n]?.map fun e => (e.1, fun o => ∃ m x, Leads sem L m n ∧ L[m]? = some x ∧ x.2 o)).toList else []) ++
      rest sem L n := by
  unfold rest
  rw [List.range_succ, List.filter_append, List.reverse_append, List.filterMap_append]
  congr 1
  cases hu : unenabled sem L n
  · simp [List.filter, hu]
  · simp only [List.filter, hu, List.reverse_cons, List.reverse_nil, List.nil_append, List.filterMap_cons, List.filterMap_nil, if_true]
    cases L[n]? <;> rfl

theorem loop (sem : Semantics S A) (L : List (Attribution S A)) : ∀ (n : Nat) (cur acc : List (Info S A)), State sem L n cur →
    (mergeLoop sem n cur acc).map view = acc.map view ++ rest sem L n := by
  intro n
  induction n with
  | zero => intro cur acc _; simp [mergeLoop, rest]
  | succ n ih =>
    intro cur acc h
    have hne : cur ≠ [] := by intro e; have := h.length; rw [e] at this; cases this
    obtain ⟨l, p, rfl⟩ : ∃ l p, cur = l ++ [p] := ⟨cur.dropLast, cur.getLast hne, (List.dropLast_concat_getLast hne).symm⟩
    obtain ⟨hl, hcaps, ⟨e, he, hep⟩, hids⟩ := h.pop
    have hid : ∀ (j : Nat) (i : Info S A), l[j]? = some i → ∀ o, o ∈ i.originators ↔ ∃ m x, LeadsFrom sem L (n + 1) m j ∧ L[m]? = some x ∧ x.2 o := by
      intro j i hj o
      have hlt : j < l.length := (List.getElem?_eq_some_iff.1 hj).1
      exact h.ids j i (by rw [List.getElem?_append_left hlt]; exact hj) o
    rw [mergeLoop, List.getLast?_concat, List.dropLast_concat, rest_succ]
    simp only
    have htake : ∀ v ∈ (L.take n).map (·.1), ∃ r ∈ l, r.capability = v := by
      intro v hv
      rw [← hcaps] at hv
      simpa using hv
    have hnle : n ≤ L.length := by have := h.le; omega
    split
    · rename_i l' hab
      obtain ⟨pre, r, post, e1, h2, h3, e2⟩ := absorb_first hab
      have hr : l[pre.length]? = some r := by rw [e1]; simp
      have hrl : pre.length < n := by rw [← hl, e1]; simp
      have hpre : (L.take pre.length).map (·.1) = pre.map (·.capability) := by
        have := congrArg (List.take pre.length) hcaps
        rw [← List.map_take, ← List.map_take, List.take_take, Nat.min_eq_left (by omega), e1, List.take_left' rfl] at this
        exact this.symm
      have hre : ∃ er, L[pre.length]? = some er ∧ er.1 = r.capability :=
        h.cap (j := pre.length) (by rw [List.getElem?_append_left (by omega)]; exact hr)
      obtain ⟨er, her, herc⟩ := hre
      have hfe : FirstEnabler sem L n pre.length := by
        refine ⟨hrl, er, e, her, he, by rw [herc, hep]; exact h2, ?_⟩
        intro x hx
        have : x.1 ∈ (L.take pre.length).map (·.1) := List.mem_map_of_mem hx
        rw [hpre] at this
        obtain ⟨y, hy, hyx⟩ := List.mem_map.1 this
        rw [hep, ← hyx]
        exact h3 y hy
      have huniq : ∀ k, FirstEnabler sem L n k → k = pre.length := by
        rintro k ⟨hk, a, b, ha, hb, hen, hno⟩
        rw [he] at hb
        cases hb
        rcases Nat.lt_trichotomy k pre.length with hlt | heq | hgt
        · have : a.1 ∈ (L.take pre.length).map (·.1) := by
            refine List.mem_map_of_mem (List.mem_of_getElem? (i := k) ?_)
            rw [List.getElem?_take_of_lt hlt]; exact ha
          rw [hpre] at this
          obtain ⟨y, hy, hyx⟩ := List.mem_map.1 this
          rw [← hyx, hep, h3 y hy] at hen
          cases hen
        · exact heq
        · have := hno er (List.mem_of_getElem? (i := pre.length) (by rw [List.getElem?_take_of_lt hgt]; exact her))
          rw [herc, hep, h2] at this
          cases this
      have hun : unenabled sem L n = false := by
        rw [Bool.eq_false_iff]
        intro hu
        have := (unenabled_iff he).1 hu er.1 (List.mem_map_of_mem (List.mem_of_getElem? (i := pre.length) (by rw [List.getElem?_take_of_lt hrl]; exact her)))
        rw [herc, hep, h2] at this
        cases this
      rw [hun, if_neg (by simp), List.nil_append]
      refine ih l' acc ⟨hnle, by rw [e2, ← hl, e1]; simp, ?_, ?_⟩
      · rw [← hcaps, e2, e1]; simp
      · intro j i hj o
        simp only [leadsFrom_step (n := n) (j := j), or_and_right, exists_or]
        by_cases hjr : j = pre.length
        · subst hjr
          rw [e2] at hj
          simp at hj
          subst hj
          rw [BSet.mem_extend, hid _ r hr o, hids o]
          apply or_congr_right
          simp only [← leadsFrom_last]
          constructor
          · rintro ⟨m, x, h1, h2⟩; exact ⟨m, x, ⟨h1, hfe⟩, h2⟩
          · rintro ⟨m, x, ⟨h1, _⟩, h2⟩; exact ⟨m, x, h1, h2⟩
        · have hj' : l[j]? = some i := by
            rw [e2] at hj
            rw [e1]
            rcases Nat.lt_or_ge j pre.length with hlt | hge
            · rwa [List.getElem?_append_left hlt] at hj ⊢
            · rw [List.getElem?_append_right hge] at hj ⊢
              obtain ⟨t, ht⟩ : ∃ t, j - pre.length = t + 1 := ⟨j - pre.length - 1, by omega⟩
              rw [ht] at hj ⊢
              simpa using hj
          rw [hid j i hj' o]
          constructor
          · exact Or.inl
          · rintro (h1 | ⟨m, x, ⟨_, hf⟩, _⟩)
            · exact h1
            · exact absurd (huniq j hf) hjr
    · rename_i hab
      have hnone := absorb_none hab
      have hun : unenabled sem L n = true := by
        rw [unenabled_iff he]
        intro v hv
        obtain ⟨r, hr, rfl⟩ := htake v hv
        rw [hep]
        exact hnone r hr
      have hno : ∀ k, ¬ FirstEnabler sem L n k := by
        rintro k ⟨hk, a, b, ha, hb, hen, _⟩
        have := (unenabled_iff hb).1 hun a.1 (List.mem_map_of_mem (List.mem_of_getElem? (i := k) (by rw [List.getElem?_take_of_lt hk]; exact ha)))
        rw [hen] at this
        cases this
      rw [hun, if_pos rfl, he]
      rw [ih l (acc ++ [p]) ⟨hnle, hl, hcaps, ?_⟩]
      · rw [List.map_append, List.append_assoc]
        congr 2
        simp only [List.map_cons, List.map_nil, Option.map_some, Option.toList]
        congr 1
        unfold view
        rw [hep]
        congr 1
        funext o
        exact propext (hids o)
      · intro j i hj o
        rw [hid j i hj o]
        simp only [leadsFrom_step (n := n) (j := j)]
        constructor
        · rintro ⟨m, x, h1, h2⟩; exact ⟨m, x, Or.inl h1, h2⟩
        · rintro ⟨m, x, h1 | ⟨_, h1⟩, h2⟩
          · exact ⟨m, x, h1, h2⟩
          · exact absurd h1 (hno j)

theorem merge_view (sem : Semantics S A) (l : List (Info S A)) : (merge sem l).map view = collect sem (l.map view) := by
  unfold merge
  rw [loop sem (l.map view) l.length l [] (State.start sem l)]
  simp [rest, collect]

theorem mapWhile_eq {α β : Type} (f : α → Option β) (l : List α) : mapWhile f l = (l.takeWhile fun x => (f x).isSome).filterMap f := by
  induction l with
  | nil => rfl
  | cons x l ih =>
    unfold mapWhile
    cases h : f x with
    | none => simp [List.takeWhile, h]
    | some y => simp [List.takeWhile, h, ih]

theorem redelegated_eq {α : Type} (results : List (Res (List α))) (f : Nat → List α) (hf : ∀ k l, results[k]? = some (.ok l) → f k = l) :
    ∀ (is : List Nat) (l : List α), redelegated results is = .ok l → l = is.flatMap f := by
  intro is
  induction is with
  | nil => intro l h; cases h; rfl
  | cons i is ih =>
    intro l h
    unfold redelegated at h
    split at h
    · cases h
    · cases h
    · rename_i li hi
      split at h
      · cases h
      · rename_i ls hls
        injection h with h
        rw [List.flatMap_cons, hf i li hi, ← ih ls hls, h]

theorem attributedAll_eq (D : Deps) (sem : Semantics S A) (cs : List Chain) : attributedAll D sem cs = cs.map (attributed D sem) := by
  induction cs with
  | nil => rfl
  | cons c cs ih => rw [attributedAll, ih]; rfl

end Merge

open Merge

/-- C31, C34, C35, exactly: which capabilities are reported, in which order, and whom each is attributed to. -/
theorem C31_closed_form (D : Deps) (sem : Semantics S A) : ∀ (c : Chain) (out : List (Info S A)), reduce D sem c = .ok out →
    out.map (fun i => (i.capability, fun o => o ∈ i.originators)) = attributed D sem c := by
  intro c
  induction c using Chain.indAux with
  | h u ps r ih =>
    intro out h
    have hproofs := (reduce_ok h).choose_spec.choose_spec.1.proofsOk
    rw [reduce] at h
    unfold combine at h
    split at h
    · cases h
    · rename_i anc hanc
      split at h
      · cases h
      · rename_i red hred
        injection h with h
        subst h
        have hres : ∀ (k : Nat) (l : List (Info S A)), (reduceAll D sem ps)[k]? = some (.ok l) ↔ ∃ p, ps[k]? = some p ∧ reduce D sem p = .ok l := by
          intro k x
          simp only [reduceAll_eq, List.getElem?_map, Option.map_eq_some_iff]
        have hatt : ∀ (k : Nat) (p : Chain) (l : List (Info S A)), ps[k]? = some p → reduce D sem p = .ok l →
            (attributedAll D sem ps)[k]? = some (l.map view) := by
          intro k p l hp hl
          rw [attributedAll_eq, List.getElem?_map, hp, Option.map_some, ← ih p (mem_of_getElem?' hp) l hl]
          rfl
        have hanc' : ∀ x, x ∈ anc ↔ ∃ (k : Nat) (p : Chain) (lp : List (Info S A)), ps[k]? = some p ∧ k ∉ r ∧ reduce D sem p = .ok lp ∧ x ∈ lp := by
          intro x
          rw [(mem_ancestral r _ 0 anc hanc).1]
          constructor
          · rintro ⟨k, lk, hk, hnot, hx⟩
            obtain ⟨p, hp, hr⟩ := (hres _ _).1 hk
            exact ⟨k, p, lk, hp, by simpa using hnot, hr, hx⟩
          · rintro ⟨k, p, lk, hp, hnot, hr, hx⟩
            exact ⟨k, lk, (hres _ _).2 ⟨p, hp, hr⟩, by simpa using hnot, hx⟩
        show (merge sem _).map view = _
        rw [merge_view, attributed, entries, List.map_append]
        congr 2
        · unfold selfInfos understood
          rw [mapWhile_eq, List.map_map]
          apply List.map_congr_left
          intro v _
          show ((v, fun o => o ∈ _) : Attribution S A) = _
          congr 1
          funext o
          apply propext
          have horig : (if (reduceAll D sem ps).length = 0 then [u.issuer] else originators sem u anc v) = originators sem u anc v := by
            split
            · rename_i hn
              have : ps = [] := by
                rw [reduceAll_eq, List.length_map] at hn
                exact List.length_eq_zero_iff.1 hn
              subst this
              have : anc = [] := by cases hanc; rfl
              rw [this]; rfl
            · rfl
          show o ∈ (if (reduceAll D sem ps).length = 0 then [u.issuer] else originators sem u anc v) ↔ _
          rw [horig, mem_originators]
          have hex : ∀ o, (∃ i ∈ anc, sem.enables i.capability v = true ∧ o ∈ i.originators) ↔
              ∃ (k : Nat) (rp : List (Attribution S A)) (a : Attribution S A), (attributedAll D sem ps)[k]? = some rp ∧ k ∉ r ∧ a ∈ rp ∧
                sem.enables a.1 v = true ∧ a.2 o := by
            intro o
            constructor
            · rintro ⟨i, hi, h1, h2⟩
              obtain ⟨k, p, lp, hp, hk, hr, hx⟩ := (hanc' i).1 hi
              exact ⟨k, _, view i, hatt k p lp hp hr, hk, List.mem_map_of_mem hx, h1, h2⟩
            · rintro ⟨k, rp, a, hk, hnot, ha, h1, h2⟩
              obtain ⟨p, hp, hrp⟩ : ∃ p, ps[k]? = some p ∧ attributed D sem p = rp := by
                rw [attributedAll_eq, List.getElem?_map, Option.map_eq_some_iff] at hk
                exact hk
              obtain ⟨lp, hlp⟩ := hproofs k p hp
              have := hatt k p lp hp hlp
              rw [hk] at this
              injection this with this
              subst this
              obtain ⟨i, hi, rfl⟩ := List.mem_map.1 ha
              exact ⟨i, (hanc' i).2 ⟨k, p, lp, hp, hnot, hlp, hi⟩, h1, h2⟩
          unfold claimants
          rw [hex o]
          apply or_congr_right
          show o = u.payload.iss ∧ _ ↔ _
          simp only [hex]
        · rw [List.map_map]
          have : ∀ (k : Nat) (l : List (Info S A)), (reduceAll D sem ps)[k]? = some (.ok l) → ((attributedAll D sem ps)[k]?.getD []) = l.map view := by
            intro k l hk
            obtain ⟨p, hp, hl⟩ := (hres k l).1 hk
            rw [hatt k p l hp hl]; rfl
          have e := redelegated_eq (reduceAll D sem ps) (fun k => match (reduceAll D sem ps)[k]? with | some (.ok l) => l | _ => [])
            (by intro k l hk; simp only [hk]) r red hred
          have hin := (mem_redelegated _ _ red hred).2
          rw [e, List.map_flatMap]
          have hfm : ∀ (f g : Nat → List (Attribution S A)), (∀ k ∈ r, f k = g k) → r.flatMap f = r.flatMap g := by
            intro f g hfg
            rw [List.flatMap_def, List.flatMap_def, List.map_congr_left hfg]
          apply hfm
          intro k hk
          obtain ⟨l, hl⟩ := hin k hk
          rw [this k l hl, hl]
          rfl

/-- C35, exactly: the capabilities reported are, last first, the entries that no earlier entry enables; the entries are the claims
up to the first foreign one and then what the redelegated proofs report. -/
theorem C35_reported (D : Deps) (sem : Semantics S A) (u : Ucan) (ps : List Chain) (r : BSet Nat) (out : List (Info S A))
    (h : reduce D sem (.mk u ps r) = .ok out) :
    let L := entries D sem u r (ps.map (attributed D sem))
    out.map (·.capability) = ((List.range L.length).filter (unenabled sem L)).reverse.filterMap fun j => L[j]?.map (·.1) := by
  intro L
  have h1 := congrArg (List.map (·.1)) (C31_closed_form D sem _ out h)
  rw [List.map_map, attributed, attributedAll_eq] at h1
  rw [show out.map (·.capability) = _ from h1, collect, List.map_filterMap]
  simp only [Option.map_map]
  rfl

/-- C35, exactly: something redundant is reported iff some entry that is kept is enabled by a later one that is kept. -/
theorem C35_irredundant_iff (D : Deps) (sem : Semantics S A) (u : Ucan) (ps : List Chain) (r : BSet Nat) (out : List (Info S A))
    (h : reduce D sem (.mk u ps r) = .ok out) :
    let L := entries D sem u r (ps.map (attributed D sem))
    (out.Pairwise fun a b => sem.enables a.capability b.capability = false ∧ sem.enables b.capability a.capability = false) ↔
      ∀ (j k : Nat) (a b : Attribution S A), j < k → L[j]? = some a → L[k]? = some b → unenabled sem L j = true → unenabled sem L k = true →
        sem.enables b.1 a.1 = false := by
  intro L
  have h1 := C35_reported D sem u ps r out h
  simp only at h1
  have h2 : (out.Pairwise fun a b => sem.enables a.capability b.capability = false ∧ sem.enables b.capability a.capability = false) ↔
      (out.map (·.capability)).Pairwise fun a b => sem.enables a b = false ∧ sem.enables b a = false := by
    rw [List.pairwise_map]
  rw [h2, h1, List.pairwise_filterMap, List.pairwise_reverse, List.pairwise_filter, List.pairwise_iff_getElem]
  simp only [List.getElem_range, List.length_range, Option.map_eq_some_iff]
  constructor
  · intro h j k a b hjk ha hb hj hk
    exact (h j k (List.getElem?_eq_some_iff.1 ha).1 (List.getElem?_eq_some_iff.1 hb).1 hjk hj hk b.1 ⟨b, hb, rfl⟩ a.1 ⟨a, ha, rfl⟩).1
  · rintro h j k _ _ hjk hj hk _ ⟨b, hb, rfl⟩ _ ⟨a, ha, rfl⟩
    refine ⟨h j k a b hjk ha hb hj hk, ?_⟩
    refine (unenabled_iff hb).1 hk a.1 (List.mem_map_of_mem (List.mem_of_getElem? (i := j) ?_))
    rw [List.getElem?_take_of_lt hjk]; exact ha

/-- C35 (partial): a token without redelegations that never claims something broader after something narrower gets irredundant reports. -/
theorem C35_broad_first_partial (D : Deps) (sem : Semantics S A) (u : Ucan) (ps : List Chain) (out : List (Info S A))
    (h : reduce D sem (.mk u ps []) = .ok out) (ho : (understood D sem u).Pairwise fun a b => sem.enables b a = false) :
    out.Pairwise fun a b => sem.enables a.capability b.capability = false ∧ sem.enables b.capability a.capability = false := by
  refine (C35_irredundant_iff D sem u ps [] out h).2 ?_
  intro j k a b hjk ha hb _ _
  have hm : (entries D sem u [] (ps.map (attributed D sem))).map (·.1) = understood D sem u := by
    simp [entries, List.map_map, Function.comp_def]
  rw [← hm, List.pairwise_map, List.pairwise_iff_getElem] at ho
  obtain ⟨hj, ea⟩ := List.getElem?_eq_some_iff.1 ha
  obtain ⟨hk, eb⟩ := List.getElem?_eq_some_iff.1 hb
  have := ho j k hj hk hjk
  rwa [ea, eb] at this

theorem related_proof {D : Deps} {sem : Semantics S A} {c p : Chain} (hp : p ∈ c.proofs) {v w : View S A} (h : Related D sem p v w) : Related D sem c v w := by
  induction h with
  | refl v => exact .refl v
  | enables h1 h2 h3 h4 h5 => exact .enables (.proof hp h1) (.proof hp h2) h3 h4 h5
  | symm _ ih => exact .symm ih
  | trans _ _ ih1 ih2 => exact .trans ih1 ih2

/-- C31: misattribution has a limit. Whoever is listed for a capability claimed, in a token of their own, one that is connected to it by
comparisons between capabilities offered in the chain. -/
theorem C31_related (D : Deps) (sem : Semantics S A) : ∀ (c : Chain) (out : List (Info S A)), reduce D sem c = .ok out →
    ∀ i ∈ out, ∀ o ∈ i.originators, ∃ d, Sub d c ∧ d.ucan.payload.iss = o ∧ ∃ v, Claimed D sem d.ucan v ∧ Related D sem c i.capability v := by
  intro c
  induction c using Chain.indAux with
  | h u ps r ih =>
    intro out h i hi o ho
    obtain ⟨anc, l, hc, hm⟩ := reduce_ok h
    have hoff := Reduce.collected_offers hc
    obtain ⟨x, hx, hR, hox⟩ := hm.origin (R := Related D sem (.mk u ps r)) .refl (fun _ _ _ => .trans)
      (fun x hx y hy he => .enables (.self _) (.self _) (hoff x hx) (hoff y hy) he) i hi o ho
    rcases (hc.members x).1 hx with ⟨hcl, _, _, e⟩ | ⟨k, p, lp, y, hk, hp, hr, hy, rfl⟩
    · rw [e, mem_originators] at hox
      rcases hox with ⟨a, ha, hen, hoa⟩ | ⟨e, _⟩
      · obtain ⟨k, p, lp, hp, _, hr, hy⟩ := (hc.ancestors a).1 ha
        have hpm : p ∈ (Chain.mk u ps r).proofs := mem_of_getElem?' hp
        obtain ⟨d, hd, hiss, v, hv, hrel⟩ := ih p hpm lp hr a hy o hoa
        refine ⟨d, .proof hpm hd, hiss, v, hv, .trans hR (.trans (.symm ?_) (related_proof hpm hrel))⟩
        exact .enables (.proof hpm (.self _)) (.self _) (C28_offered D sem p lp hr a hy) (.claim hcl) hen
      · exact ⟨_, .self _, e.symm, _, hcl, hR⟩
    · have hpm : p ∈ (Chain.mk u ps r).proofs := mem_of_getElem?' hp
      obtain ⟨d, hd, hiss, v, hv, hrel⟩ := ih p hpm lp hr y hy o hox
      exact ⟨d, .proof hpm hd, hiss, v, hv, .trans hR (related_proof hpm hrel)⟩

/-- C31: so a property of capabilities that enabling preserves in both directions, among those offered, confines it. -/
theorem C31_confined (D : Deps) (sem : Semantics S A) (c : Chain) (P : View S A → Prop)
    (hP : ∀ d e a b, Sub d c → Sub e c → Offers D sem d a → Offers D sem e b → sem.enables a b = true → (P a ↔ P b))
    (out : List (Info S A)) (h : reduce D sem c = .ok out) (i : Info S A) (hi : i ∈ out) (hPi : P i.capability) (o : String) (ho : o ∈ i.originators) :
    ∃ d, Sub d c ∧ d.ucan.payload.iss = o ∧ ∃ v, Claimed D sem d.ucan v ∧ P v := by
  obtain ⟨d, hd, hiss, v, hv, hrel⟩ := C31_related D sem c out h i hi o ho
  have : ∀ {a b}, Related D sem c a b → (P a ↔ P b) := by
    intro a b hab
    induction hab with
    | refl v => exact Iff.rfl
    | enables h1 h2 h3 h4 h5 => exact hP _ _ _ _ h1 h2 h3 h4 h5
    | symm _ ih => exact ih.symm
    | trans _ _ ih1 ih2 => exact ih1.trans ih2
  exact ⟨d, hd, hiss, v, hv, (this hrel).1 hPi⟩

/-- C34, exactly: a capability is covered by the reports iff something the chain offers covers it. Foreign claims matter only through
what `Offers` says: claims behind one are not offered. -/
theorem C34_exact (D : Deps) (sem : Semantics S A) (hl : Lawful sem) (c : Chain) (out : List (Info S A)) (h : reduce D sem c = .ok out)
    (v : View S A) : (∃ i ∈ out, CoveredBy sem i.capability v) ↔ ∃ w, Offers D sem c w ∧ CoveredBy sem w v := by
  have ht := enablesTrans_of_lawful hl
  constructor
  · rintro ⟨i, hi, hc⟩
    exact ⟨_, C28_offered D sem c out h i hi, hc⟩
  · rintro ⟨w, hw, hc⟩
    obtain ⟨i, hi, hiw⟩ := C33_offered_covered D sem hl c out h w hw
    refine ⟨i, hi, ?_⟩
    rcases hiw with e | hiw
    · rw [e]; exact hc
    · rcases hc with e | hc
      · rw [← e]; exact Or.inr hiw
      · exact Or.inr (ht _ _ _ hiw hc)

/-! ## Instances -/

namespace Ex

/-- Beside the closed form: the chain of `C31_escalation`, in which an identity is listed for more than it granted. -/
example (D : Deps) : (attributed D mailSem (chain3 D capA capB capC)).map (·.1) = [mail "c@d" 1] ∧
    ∀ a ∈ attributed D mailSem (chain3 D capA capB capC), a.2 (did 1) ∧ a.2 (did 2) := by
  rw [← C31_closed_form D mailSem _ _ (escalation_reduce D)]
  refine ⟨rfl, ?_⟩
  intro a ha
  rw [List.map_cons, List.map_nil, List.mem_singleton] at ha
  subst ha
  exact ⟨List.mem_cons_self, List.mem_cons_of_mem _ List.mem_cons_self⟩

/-- Beside `C31_related`: the identity listed too much, key 1, claimed `a@b`, which `*` connects with `c@d`. -/
example (D : Deps) : ∃ d, Sub d (chain3 D capA capB capC) ∧ d.ucan.payload.iss = did 1 ∧ ∃ v, Claimed D mailSem d.ucan v ∧
    Related D mailSem (chain3 D capA capB capC) (mail "c@d" 1) v :=
  C31_related D mailSem _ _ (escalation_reduce D) _ (List.mem_singleton.2 rfl) (did 1) List.mem_cons_self

/-- Beside `C35_reported`: `m/1` and then `m/2` are both kept, the broader one first. -/
example (D : Deps) : ∃ out, reduce D mailSem (.mk (tok1 D capTwo) [] []) = .ok out ∧ out.map (·.capability) = [mail "a@b" 2, mail "a@b" 1] :=
  ⟨_, rfl, rfl⟩

/-- Beside `C35_broad_first_partial`: two claims, neither broader. -/
example (D : Deps) : (understood D mailSem (tok1 D (capsOf [("mailto:a@b", ["m/1"]), ("mailto:c@d", ["m/2"])]))).Pairwise
    fun a b => mailSem.enables b a = false :=
  List.Pairwise.cons (fun b hb => by rw [List.mem_singleton.1 hb]; rfl) (List.Pairwise.cons (fun _ h => by cases h) List.Pairwise.nil)

/-- Beside `C34_exact`: behind a foreign claim nothing is covered, because nothing is offered. -/
example (D : Deps) : ¬ ∃ w, Offers D mailSem (.mk (tok1 D capHidden) [] []) w ∧ CoveredBy mailSem w (mail "a@b" 1) := by
  rw [← C34_exact D mailSem mailSem_lawful _ [] rfl]
  rintro ⟨i, hi, _⟩
  cases hi

/-- Beside `C31_confined`. -/
example (D : Deps) : ∃ d, Sub d (chain3 D capA capA capA) ∧ d.ucan.payload.iss = did 1 ∧ ∃ v, Claimed D mailSem d.ucan v ∧ v.ability = 1 :=
  C31_confined D mailSem _ (fun v => v.ability = 1)
    (fun d e a b hd he ha hb _ => by
      have : ∀ d v, Sub d (chain3 D capA capA capA) → Offers D mailSem d v → v.ability = 1 := by
        intro d v hd ho
        have hx : d.redel = [] ∧ d.ucan.payload.cap = capA := by
          rcases sub3 hd with rfl | rfl | rfl <;> exact ⟨rfl, rfl⟩
        cases ho with
        | claim h =>
          obtain ⟨pre, c, post, e, _, hp⟩ := h
          have hc : c ∈ d.ucan.payload.cap.iter := by rw [e]; simp
          rw [hx.2] at hc
          have : c = ⟨"mailto:a@b", "m/1", .obj []⟩ := by simpa [capA, capsOf, Capabilities.iter] using hc
          subst this
          rw [← Option.some.inj hp]
        | redelegated k hk => rw [hx.1] at hk; cases hk
      simp [this d a hd ha, this e b he hb])
    _ (passed_reduce D) _ (List.mem_singleton.2 rfl) rfl (did 1) (List.mem_singleton.2 rfl)

end Ex
end Verif
