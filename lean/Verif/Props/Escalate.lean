import Verif.Props.Split

/-! # C31: how far reports can be led astray -/

namespace Verif
open Spec Chain Reduce Depends

variable {S A : Type}

/-- C31: it is not only some chain for which somebody is reported who did not grant (`C31_escalation`). Whoever holds a token that has anything reported for anybody can
issue one for which everything that enables it is reported for them as well: it is enough to claim the greater capability before the one that was granted. -/
theorem C31_always (D : Deps) (sem : Semantics S A) (c p : Chain) (hp : c.proofs = [p]) (hr : c.redel = []) (lp : List (Info S A)) (hlp : reduce D sem p = .ok lp)
    (j : Info S A) (hj : j ∈ lp) (whole part : View S A) (hu : understood D sem c.ucan = [whole, part]) (he : sem.enables whole part = true)
    (hg : sem.enables j.capability part = true) (out : List (Info S A)) (h : reduce D sem c = .ok out) :
    ∃ i, out = [i] ∧ i.capability = whole ∧ i.notBefore = c.ucan.payload.nbf ∧ i.expiresAt = c.ucan.payload.exp ∧ ∀ o ∈ j.originators, o ∈ i.originators := by
  obtain ⟨anc, hcol, e, hz⟩ := reduce_invoking hr h
  have hanc : j ∈ anc := (hcol.ancestors j).2 ⟨0, p, lp, by rw [hp]; rfl, by rw [hr]; simp, hlp, hj⟩
  have em : mapWhile (sem.parseCapability D) c.ucan.capabilities.iter = understood D sem c.ucan := Merge.mapWhile_eq _ _
  rw [selfInfos_eq D sem _ _ _ hz, em, hu] at e
  simp only [List.map_cons, List.map_nil, merge, mergeLoop, List.length_cons, List.length_nil, List.getLast?_cons_cons, List.getLast?_singleton, List.dropLast_cons_cons,
    List.dropLast_singleton, absorb, he, if_true, List.nil_append] at e
  refine ⟨_, e, rfl, rfl, rfl, fun o ho => ?_⟩
  exact BSet.mem_extend.2 (Or.inr ((mem_originators sem _ _ _ _).2 (Or.inl ⟨j, hanc, hg, ho⟩)))

/-- C31: whoever does so is reported along with those they mislead about, unless the greater capability was granted to them after all; a service that insists on a sole
originator is not misled. -/
theorem C31_always_marked (D : Deps) (sem : Semantics S A) (c p : Chain) (hp : c.proofs = [p]) (hr : c.redel = []) (lp : List (Info S A)) (hlp : reduce D sem p = .ok lp)
    (whole part : View S A) (hu : understood D sem c.ucan = [whole, part]) (he : sem.enables whole part = true) (i : Info S A) (h : reduce D sem c = .ok [i])
    (hnot : ∀ x ∈ lp, sem.enables x.capability whole = false) : c.ucan.payload.iss ∈ i.originators := by
  obtain ⟨anc, hcol, e, hz⟩ := reduce_invoking hr h
  have em : mapWhile (sem.parseCapability D) c.ucan.capabilities.iter = understood D sem c.ucan := Merge.mapWhile_eq _ _
  rw [selfInfos_eq D sem _ _ _ hz, em, hu] at e
  simp only [List.map_cons, List.map_nil, merge, mergeLoop, List.length_cons, List.length_nil, List.getLast?_cons_cons, List.getLast?_singleton, List.dropLast_cons_cons,
    List.dropLast_singleton, absorb, he, if_true, List.nil_append, List.cons.injEq, and_true] at e
  rw [e]
  refine BSet.mem_extend.2 (Or.inl ((mem_originators sem _ _ _ _).2 (Or.inr ⟨rfl, ?_⟩)))
  rintro ⟨_, x, hx, hen, _⟩
  obtain ⟨k, q, l, hk, _, hl, hm⟩ := (hcol.ancestors x).1 hx
  rw [hp] at hk
  cases k with
  | zero =>
    cases hk
    rw [hlp] at hl
    cases hl
    rw [hnot x hm] at hen
    cases hen
  | succ k => simp at hk

/-- C31: in particular a party that granted nothing but one capability to one holder is from then on reported, if the holder so wishes, for every greater one that
can be written before it. -/
theorem C31_always_leaf (D : Deps) (sem : Semantics S A) (c : Chain) (g : Ucan) (hp : c.proofs = [.mk g [] []]) (hr : c.redel = []) (whole part : View S A)
    (hg : understood D sem g = [part]) (hu : understood D sem c.ucan = [whole, part]) (he : sem.enables whole part = true) (hrefl : sem.enables part part = true)
    (out : List (Info S A)) (h : reduce D sem c = .ok out) :
    ∃ i, out = [i] ∧ i.capability = whole ∧ g.payload.iss ∈ i.originators := by
  obtain ⟨lp, hlp⟩ := (reduce_ok h).choose_spec.choose_spec.1.proofsOk 0 (.mk g [] []) (by rw [hp]; rfl)
  obtain ⟨anc, ha, e⟩ := Split.report rfl hlp (by show NoneEnablesLater sem (understood D sem g); rw [hg]; exact List.pairwise_singleton _ _)
  have e : lp = ((understood D sem g).map fun v => (⟨originators sem g anc v, g.payload.nbf, g.payload.exp, v⟩ : Info S A)).reverse := e
  rw [hg] at e
  have hj : (⟨originators sem g anc part, g.payload.nbf, g.payload.exp, part⟩ : Info S A) ∈ lp := by rw [e]; exact List.mem_singleton.2 rfl
  obtain ⟨i, h1, h2, _, _, h3⟩ := C31_always D sem c _ hp hr lp hlp _ hj whole part hu he hrefl out h
  refine ⟨i, h1, h2, h3 _ ((mem_originators sem _ _ _ _).2 (Or.inr ⟨rfl, ?_⟩))⟩
  rintro ⟨_, x, hx, _⟩
  obtain ⟨q, hq, _⟩ := (ha x).1 hx
  cases hq

namespace Ex

/-- Beside C31_always and C31_always_marked: key 3 holds, through key 2, one address that key 1 granted, and claims all mail before it; the chain is accepted. -/
example (D : Deps) : ∃ w', Built D (still (dags3 D capA capA) 7) none world w' (chain3 D capA capA capAllA) ∧
    understood D mailSem (chain3 D capA capA capAllA).ucan = [mailAll 1, mail "a@b" 1] ∧ mailSem.enables (mailAll 1) (mail "a@b" 1) = true ∧
    mailSem.enables (mail "a@b" 1) (mailAll 1) = false ∧ (chain3 D capA capA capAllA).redel = [] ∧ reduce D mailSem (.mk (tok2 D capA) [.mk (tok1 D capA) [] []] []) = .ok [⟨[did 1], some 5, some 20, mail "a@b" 1⟩] := by
  obtain ⟨w', hb⟩ := built3 D capA_plain capA_plain capAllA_plain capA_noRedel capA_noRedel capAllA_noRedel
  exact ⟨w', hb, rfl, by decide, by decide, rfl, rfl⟩

end Ex
end Verif
