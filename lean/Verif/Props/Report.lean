import Verif.Props.Depends

/-! # Property C85: what the reported capabilities depend on -/

namespace Verif
open Spec Chain Reduce

variable {S A : Type}

namespace Report

/-- A report without its bounds. -/
def key (i : Info S A) : BSet String × View S A := (i.originators, i.capability)

/-- The same reports but for the bounds. -/
def Keys (l l' : List (Info S A)) : Prop := l.map key = l'.map key

/-- The same outcome but for the bounds. -/
def KeysR : Res (List (Info S A)) → Res (List (Info S A)) → Prop
  | .ok l, .ok l' => Keys l l'
  | .error e, .error e' => e = e'
  | _, _ => False

theorem Keys.append {a a' b b' : List (Info S A)} (h : Keys a a') (h' : Keys b b') : Keys (a ++ b) (a' ++ b') := by
  unfold Keys at *
  rw [List.map_append, List.map_append, h, h']

theorem Keys.length {l l' : List (Info S A)} (h : Keys l l') : l.length = l'.length := by
  have := congrArg List.length h
  simpa using this

theorem gather_keys (sem : Semantics S A) (v : View S A) : ∀ (l l' : List (Info S A)) (acc : BSet String), Keys l l' →
    gather sem v acc l = gather sem v acc l'
  | [], [], _, _ => rfl
  | [], _ :: _, _, h => by simp [Keys] at h
  | _ :: _, [], _, h => by simp [Keys] at h
  | i :: is, j :: js, acc, h => by
    obtain ⟨h1, h2⟩ := List.cons.inj h
    obtain ⟨e1, e2⟩ := Prod.mk.inj h1
    rw [gather, gather, e1, e2]
    split
    · exact gather_keys sem v is js _ h2
    · exact gather_keys sem v is js _ h2

theorem absorb_keys (sem : Semantics S A) (p p' : Info S A) (hp : key p = key p') : ∀ l l' : List (Info S A), Keys l l' →
    (absorb sem p l).map (List.map key) = (absorb sem p' l').map (List.map key)
  | [], [], _ => rfl
  | [], _ :: _, h => by simp [Keys] at h
  | _ :: _, [], h => by simp [Keys] at h
  | i :: is, j :: js, h => by
    obtain ⟨h1, h2⟩ := List.cons.inj h
    obtain ⟨e1, e2⟩ := Prod.mk.inj h1
    obtain ⟨p1, p2⟩ := Prod.mk.inj hp
    rw [absorb, absorb, e2, p2]
    split
    · simp only [Option.map_some, List.map_cons, Option.some.injEq]
      rw [h2]
      congr 1
      simp only [key, e1, p1]
    · have := absorb_keys sem p p' hp is js h2
      cases hx : absorb sem p is <;> cases hy : absorb sem p' js <;> rw [hx, hy] at this <;> simp at this ⊢
      exact ⟨h1, this⟩

theorem mergeLoop_keys (sem : Semantics S A) : ∀ (fuel : Nat) (l l' acc acc' : List (Info S A)), Keys l l' → Keys acc acc' →
    Keys (mergeLoop sem fuel l acc) (mergeLoop sem fuel l' acc')
  | 0, _, _, _, _, _, h => h
  | fuel + 1, l, l', acc, acc', h, ha => by
    have hl : l.getLast?.map key = l'.getLast?.map key := by
      rw [← List.getLast?_map, ← List.getLast?_map, h]
    have hd : Keys l.dropLast l'.dropLast := by
      unfold Keys
      rw [List.map_dropLast, List.map_dropLast, h]
    rw [mergeLoop, mergeLoop]
    cases hx : l.getLast? with
    | none =>
      cases hy : l'.getLast? with
      | none => exact ha
      | some q => rw [hx, hy] at hl; cases hl
    | some p =>
      cases hy : l'.getLast? with
      | none => rw [hx, hy] at hl; cases hl
      | some q =>
        rw [hx, hy] at hl
        have hk : key p = key q := Option.some.inj hl
        have hab := absorb_keys sem p q hk _ _ hd
        simp only
        cases ha1 : absorb sem p l.dropLast with
        | none =>
          cases ha2 : absorb sem q l'.dropLast with
          | none =>
            refine mergeLoop_keys sem fuel _ _ _ _ hd (ha.append ?_)
            show [key p] = [key q]
            rw [hk]
          | some r => rw [ha1, ha2] at hab; cases hab
        | some r =>
          cases ha2 : absorb sem q l'.dropLast with
          | none => rw [ha1, ha2] at hab; cases hab
          | some r' =>
            rw [ha1, ha2] at hab
            exact mergeLoop_keys sem fuel _ _ _ _ (Option.some.inj hab) ha

theorem merge_keys (sem : Semantics S A) {l l' : List (Info S A)} (h : Keys l l') : Keys (merge sem l) (merge sem l') := by
  unfold merge
  rw [h.length]
  exact mergeLoop_keys sem _ _ _ _ _ h rfl

theorem selfInfos_keys (D : Deps) (sem : Semantics S A) {u u' : Ucan} (hi : u.payload.iss = u'.payload.iss) (hc : u.payload.cap.iter = u'.payload.cap.iter)
    (n : Nat) {anc anc' : List (Info S A)} (ha : Keys anc anc') : Keys (selfInfos D sem u n anc) (selfInfos D sem u' n anc') := by
  unfold Keys selfInfos Ucan.capabilities
  rw [hc, List.map_map, List.map_map]
  refine List.map_congr_left fun v _ => ?_
  simp only [Function.comp, key, Ucan.issuer, originators, hi, gather_keys sem v anc anc' [] ha]

theorem relifetime_keys (u u' : Ucan) {l l' : List (Info S A)} (h : Keys l l') : Keys (l.map (relifetime u)) (l'.map (relifetime u')) := by
  unfold Keys at *
  rw [List.map_map, List.map_map]
  exact h

/-- Pairwise the same outcomes. -/
inductive KeysAll : List (Res (List (Info S A))) → List (Res (List (Info S A))) → Prop
  | nil : KeysAll [] []
  | cons {r r' : Res (List (Info S A))} {rs rs' : List (Res (List (Info S A)))} : KeysR r r' → KeysAll rs rs' → KeysAll (r :: rs) (r' :: rs')

theorem KeysAll.length {rs rs' : List (Res (List (Info S A)))} (h : KeysAll rs rs') : rs.length = rs'.length := by
  induction h with
  | nil => rfl
  | cons _ _ ih => simp [ih]

theorem KeysAll.get {rs rs' : List (Res (List (Info S A)))} (h : KeysAll rs rs') (i : Nat) :
    (rs[i]? = none ∧ rs'[i]? = none) ∨ ∃ r r', rs[i]? = some r ∧ rs'[i]? = some r' ∧ KeysR r r' := by
  induction h generalizing i with
  | nil => exact Or.inl ⟨rfl, rfl⟩
  | cons hr _ ih =>
    cases i with
    | zero => exact Or.inr ⟨_, _, rfl, rfl, hr⟩
    | succ i => simpa using ih i

theorem KeysR.cases {r r' : Res (List (Info S A))} (h : KeysR r r') : (∃ e, r = .error e ∧ r' = .error e) ∨ ∃ l l', r = .ok l ∧ r' = .ok l' ∧ Keys l l' := by
  cases r <;> cases r'
  · exact Or.inl ⟨_, rfl, congrArg _ (show _ = _ from h).symm⟩
  · exact h.elim
  · exact h.elim
  · exact Or.inr ⟨_, _, rfl, rfl, h⟩

theorem ancestral_keys (redel : BSet Nat) {rs rs' : List (Res (List (Info S A)))} (h : KeysAll rs rs') :
    ∀ i, KeysR (ancestral redel i rs) (ancestral redel i rs') := by
  induction h with
  | nil => intro i; exact rfl
  | cons hr _ ih =>
    intro i
    by_cases hi : i ∈ redel
    · simp only [ancestral, if_pos hi]
      exact ih (i + 1)
    · rcases hr.cases with ⟨e, rfl, rfl⟩ | ⟨l, l', rfl, rfl, hl⟩
      · simp only [ancestral, if_neg hi]
        exact rfl
      · rcases (ih (i + 1)).cases with ⟨e, h1, h2⟩ | ⟨m, m', h1, h2, hm⟩
        · simp only [ancestral, if_neg hi, h1, h2]; exact rfl
        · simp only [ancestral, if_neg hi, h1, h2]; exact hl.append hm

theorem redelegated_keys {rs rs' : List (Res (List (Info S A)))} (h : KeysAll rs rs') :
    ∀ is : List Nat, KeysR (redelegated rs is) (redelegated rs' is)
  | [] => rfl
  | i :: is => by
    rw [redelegated, redelegated]
    rcases h.get i with ⟨h1, h2⟩ | ⟨r, r', h1, h2, hr⟩
    · rw [h1, h2]; exact rfl
    · rw [h1, h2]
      rcases hr.cases with ⟨e, rfl, rfl⟩ | ⟨l, l', rfl, rfl, hl⟩
      · exact rfl
      · rcases (redelegated_keys h is).cases with ⟨e, h3, h4⟩ | ⟨m, m', h3, h4, hm⟩
        · simp only [h3, h4]; exact rfl
        · simp only [h3, h4]; exact hl.append hm

theorem combine_keys (D : Deps) (sem : Semantics S A) {u u' : Ucan} (hi : u.payload.iss = u'.payload.iss) (hc : u.payload.cap.iter = u'.payload.cap.iter)
    (redel : BSet Nat) {rs rs' : List (Res (List (Info S A)))} (h : KeysAll rs rs') : KeysR (combine D sem u redel rs) (combine D sem u' redel rs') := by
  unfold combine
  rcases (ancestral_keys redel h 0).cases with ⟨e, h1, h2⟩ | ⟨a, a', h1, h2, ha⟩
  · rw [h1, h2]; exact rfl
  · rw [h1, h2]
    rcases (redelegated_keys h redel).cases with ⟨e, h3, h4⟩ | ⟨m, m', h3, h4, hm⟩
    · simp only [h3, h4]; exact rfl
    · simp only [h3, h4]
      rw [← h.length]
      exact merge_keys sem ((selfInfos_keys D sem hi hc _ ha).append (relifetime_keys u u' hm))

mutual
theorem reduce_keys (D : Deps) (sem : Semantics S A) : ∀ c c' : Chain, SameAuthority c c' → KeysR (reduce D sem c) (reduce D sem c')
  | .mk u ps r, .mk u' ps' r', h => by
    rw [SameAuthority] at h
    obtain ⟨hi, hc, rfl, hs⟩ := h
    rw [reduce, reduce]
    exact combine_keys D sem hi hc r (reduceAll_keys D sem ps ps' hs)
theorem reduceAll_keys (D : Deps) (sem : Semantics S A) : ∀ cs cs' : List Chain, SameAuthorities cs cs' →
    KeysAll (reduceAll D sem cs) (reduceAll D sem cs')
  | [], [], _ => .nil
  | [], _ :: _, h => by rw [SameAuthorities] at h; exact h.elim; all_goals simp
  | _ :: _, [], h => by rw [SameAuthorities] at h; exact h.elim; all_goals simp
  | c :: cs, c' :: cs', h => by
    rw [SameAuthorities] at h
    rw [reduceAll, reduceAll]
    exact .cons (reduce_keys D sem c c' h.1) (reduceAll_keys D sem cs cs' h.2)
end

theorem keys_eq {l l' : List (Info S A)} (h : Keys l l') {n e : Option UInt64} (h1 : ∀ i ∈ l, i.notBefore = n ∧ i.expiresAt = e)
    (h2 : ∀ i ∈ l', i.notBefore = n ∧ i.expiresAt = e) : l = l' := by
  induction l generalizing l' with
  | nil =>
    cases l' with
    | nil => rfl
    | cons => simp [Keys] at h
  | cons i is ih =>
    cases l' with
    | nil => simp [Keys] at h
    | cons j js =>
      obtain ⟨e0, e1⟩ := List.cons.inj h
      obtain ⟨k1, k2⟩ := Prod.mk.inj e0
      have a := h1 i (by simp)
      have b := h2 j (by simp)
      rw [ih e1 (fun x hx => h1 x (by simp [hx])) fun x hx => h2 x (by simp [hx])]
      congr 1
      obtain ⟨i1, i2, i3, i4⟩ := i
      obtain ⟨j1, j2, j3, j4⟩ := j
      simp only at k1 k2 a b
      rw [k1, k2, a.1, a.2, b.1, b.2]

theorem mergeLoop_length (sem : Semantics S A) : ∀ (fuel : Nat) (l acc : List (Info S A)), (mergeLoop sem fuel l acc).length ≤ acc.length + fuel
  | 0, _, acc => Nat.le_refl _
  | fuel + 1, l, acc => by
    rw [mergeLoop]
    split
    · omega
    · split
      · have := mergeLoop_length sem fuel (by assumption) acc; omega
      · rename_i p _ _ _
        have := mergeLoop_length sem fuel l.dropLast (acc ++ [p])
        simp at this
        omega

theorem mapWhile_length {α β : Type} (f : α → Option β) : ∀ l : List α, (mapWhile f l).length ≤ l.length
  | [] => Nat.le_refl _
  | x :: xs => by
    rw [mapWhile]
    split
    · have := mapWhile_length f xs; simpa using this
    · simp

theorem redelegated_length {rs : List (Res (List (Info S A)))} {ns : List Nat}
    (h : ∀ (i : Nat) (l : List (Info S A)), rs[i]? = some (.ok l) → l.length ≤ (ns[i]?).getD 0) :
    ∀ (is : List Nat) (out : List (Info S A)), redelegated rs is = .ok out → out.length ≤ (is.map fun i => (ns[i]?).getD 0).sum
  | [], out, e => by cases e; simp
  | i :: is, out, e => by
    rw [redelegated] at e
    split at e
    · cases e
    · cases e
    · rename_i l hl
      split at e
      · cases e
      · rename_i ls hls
        cases e
        have h1 := h i l hl
        have h2 := redelegated_length h is ls hls
        simp only [List.length_append, List.map_cons, List.sum_cons]
        omega

mutual
theorem reduce_length (D : Deps) (sem : Semantics S A) : ∀ (c : Chain) (out : List (Info S A)), reduce D sem c = .ok out → out.length ≤ claimCount c
  | .mk u ps r, out, h => by
    rw [reduce, combine] at h
    rw [claimCount]
    split at h
    · cases h
    · rename_i anc _
      split at h
      · cases h
      · rename_i red hred
        cases h
        have h1 := redelegated_length (ns := claimCounts ps) (fun i l hl => reduceAll_length D sem ps i l hl) r red hred
        have h2 := mapWhile_length (sem.parseCapability D) u.capabilities.iter
        have h3 := mergeLoop_length sem (selfInfos D sem u (reduceAll D sem ps).length anc ++ red.map (relifetime u)).length
          (selfInfos D sem u (reduceAll D sem ps).length anc ++ red.map (relifetime u)) []
        unfold merge
        rw [List.length_append, List.length_map] at h3
        rw [List.length_append, List.length_map]
        have h4 : (selfInfos D sem u (reduceAll D sem ps).length anc).length = (mapWhile (sem.parseCapability D) u.capabilities.iter).length := by
          simp [selfInfos]
        simp only [List.length_nil] at h3
        have : u.capabilities.iter.length = u.payload.cap.iter.length := rfl
        omega
theorem reduceAll_length (D : Deps) (sem : Semantics S A) : ∀ (cs : List Chain) (i : Nat) (l : List (Info S A)),
    (reduceAll D sem cs)[i]? = some (.ok l) → l.length ≤ ((claimCounts cs)[i]?).getD 0
  | [], _, _, h => by simp [reduceAll] at h
  | c :: cs, 0, l, h => by
    rw [reduceAll] at h
    rw [claimCounts]
    exact reduce_length D sem c l (Option.some.inj h)
  | c :: cs, i + 1, l, h => by
    rw [reduceAll, List.getElem?_cons_succ] at h
    rw [claimCounts, List.getElem?_cons_succ]
    exact reduceAll_length D sem cs i l h
end

end Report

open Report

/-- C85: the reports depend on the issuers, claims and redelegations of the tokens of the chain and on the bounds of its root, and on nothing else, for every semantics. -/
theorem C85_depends (D : Deps) (sem : Semantics S A) (c c' : Chain) (h : SameAuthority c c') (hn : c.ucan.payload.nbf = c'.ucan.payload.nbf)
    (he : c.ucan.payload.exp = c'.ucan.payload.exp) : reduce D sem c = reduce D sem c' := by
  rcases (reduce_keys D sem c c' h).cases with ⟨e, h1, h2⟩ | ⟨l, l', h1, h2, hk⟩
  · rw [h1, h2]
  · rw [h1, h2]
    congr 1
    refine keys_eq hk (C29_lifetime D sem c l h1) fun i hi => ?_
    rw [hn, he]
    exact C29_lifetime D sem c' l' h2 i hi

/-- C85: and the bounds of the root have no influence on what is reported and on its originators. -/
theorem C85_bounds (D : Deps) (sem : Semantics S A) (c c' : Chain) (h : SameAuthority c c') (out : List (Info S A)) (ho : reduce D sem c = .ok out) :
    reduce D sem c' = .ok (out.map fun i => ⟨i.originators, c'.ucan.payload.nbf, c'.ucan.payload.exp, i.capability⟩) := by
  rcases (reduce_keys D sem c c' h).cases with ⟨e, h1, _⟩ | ⟨l, l', h1, h2, hk⟩
  · rw [ho] at h1; cases h1
  · rw [ho] at h1
    cases h1
    rw [h2]
    congr 1
    refine keys_eq ?_ (C29_lifetime D sem c' l' h2) fun i hi => ?_
    · unfold Keys at *
      rw [← hk, List.map_map]
      rfl
    · obtain ⟨j, _, rfl⟩ := List.mem_map.1 hi
      exact ⟨rfl, rfl⟩

/-- C85: there are never more reports than claims handed on: those of the token itself and of its redelegated proofs. -/
theorem C85_count (D : Deps) (sem : Semantics S A) (c : Chain) (out : List (Info S A)) (h : reduce D sem c = .ok out) : out.length ≤ claimCount c :=
  reduce_length D sem c out h

/-- C85: a token that redelegates nothing yields at most one report per claim, whatever its proofs. -/
theorem C85_count_own (D : Deps) (sem : Semantics S A) (c : Chain) (hr : c.redel = []) (out : List (Info S A)) (h : reduce D sem c = .ok out) :
    out.length ≤ c.ucan.payload.cap.iter.length := by
  have := reduce_length D sem c out h
  obtain ⟨u, ps, r⟩ := c
  have hr : r = [] := hr
  subst hr
  show out.length ≤ u.payload.cap.iter.length
  simpa [claimCount] using this

namespace Ex

/-- Beside C85: the fixture chain and one whose root and leaf differ in everything that does not matter. -/
example (D : Deps) : SameAuthority (chain D)
    (.mk { root D with header := ⟨"none", ""⟩, signature := [], signedData := [], payload := { (root D).payload with fct := some [], nnc := some "n", aud := "x", ucv := "" } }
      [.mk { leaf D with payload := { (leaf D).payload with exp := none, nbf := none, aud := "y" } } [] []] [0]) := by
  refine ⟨rfl, rfl, rfl, ⟨rfl, rfl, rfl, trivial⟩, trivial⟩

example (D : Deps) : claimCount (chain D) = 2 := by
  simp [chain, leafChain, claimCount, claimCounts, root, leaf, ucan, payload, caps, Capabilities.iter]

end Ex
end Verif
