import Verif.Props.Capability

/-! # C14, C15: what enables each other is the same -/

namespace Verif
open Spec

variable {S A : Type}

/-- C14: resources that contain each other are the same, whenever this is so for scopes. -/
theorem C14_antisymm (c : S → S → Bool) (ha : ∀ s t, c s t = true → c t s = true → s = t) (r r' : Resource S)
    (h1 : r.contains c r' = true) (h2 : r'.contains c r = true) : r = r' := by
  rw [C14_contains_iff] at h1 h2
  obtain ⟨f, c1⟩ := h1
  obtain ⟨_, c2⟩ := h2
  have hk : kind r = kind r' := by
    rcases c1 with u | ⟨s, t, e1, e2, h⟩
    · rcases c2 with u' | ⟨s', t', _, e, _⟩
      · rw [u, u']
      · rw [u] at e; cases e
    · rcases c2 with u' | ⟨s', t', e1', e2', h'⟩
      · rw [u'] at e2; cases e2
      · rw [e2] at e1'; cases e1'
        rw [e1] at e2'; cases e2'
        rw [e1, e2, ha _ _ h h']
  cases r <;> cases r' <;> simp [form, kind] at f hk ⊢
  all_goals first | exact hk | exact ⟨f, hk⟩

/-- C15: capabilities that enable each other have the same resource and ability and the same caveat, whenever scopes that contain each other and abilities that
are at least each other are the same. So each step of a delegation that changes anything but a caveat's way of writing gives something up for good. -/
theorem C15_antisymm (sem : Semantics S A) (hs : ∀ s t, sem.contains s t = true → sem.contains t s = true → s = t)
    (hg : ∀ a b, sem.ge a b = true → sem.ge b a = true → a = b) (a b : View S A) (ha : ObjCaveat a) (hb : ObjCaveat b) (h1 : sem.enables a b = true)
    (h2 : sem.enables b a = true) : a.resource = b.resource ∧ a.ability = b.ability ∧ Same a.caveat b.caveat := by
  obtain ⟨ma, hma, hsa⟩ := ha
  obtain ⟨mb, hmb, hsb⟩ := hb
  have wa : ∀ m, a.caveat = .obj m → BMap.Sorted m := by intro m' h'; rw [hma] at h'; cases h'; exact hsa
  have wb : ∀ m, b.caveat = .obj m → BMap.Sorted m := by intro m' h'; rw [hmb] at h'; cases h'; exact hsb
  rw [C15_enables_iff sem _ _ wb] at h1
  rw [C15_enables_iff sem _ _ wa] at h2
  obtain ⟨ca, cb, e1, e2, r1, g1, k1⟩ := h1
  obtain ⟨cb', ca', e3, e4, r2, g2, k2⟩ := h2
  rw [hma] at e1 e4; rw [hmb] at e2 e3
  cases e1; cases e2; cases e3; cases e4
  refine ⟨C14_antisymm _ hs _ _ ((C14_contains_iff _ _ _).2 r1) ((C14_contains_iff _ _ _).2 r2), hg _ _ g1 g2, ?_⟩
  rw [hma, hmb]
  exact C13_antisymm hsa hsb ((C13_caveat_enables_iff hsb).2 k1) ((C13_caveat_enables_iff hsa).2 k2)

theorem enables_later (sem : Semantics S A) (hl : Lawful sem) (L : List (View S A)) (ho : ∀ v ∈ L, ObjCaveat v)
    (hc : ∀ (i : Nat) v w, L[i]? = some v → L[i + 1]? = some w → sem.enables v w = true) : L.Pairwise fun v w => sem.enables v w = true := by
  induction L with
  | nil => exact .nil
  | cons a L ih =>
    have hp := ih (fun v hv => ho v (List.mem_cons_of_mem _ hv)) fun i v w h h' => hc (i + 1) v w (by simpa using h) (by simpa using h')
    refine .cons ?_ hp
    cases L with
    | nil => intro w hw; cases hw
    | cons b L =>
      have hab := hc 0 a b rfl rfl
      intro w hw
      rcases List.mem_cons.1 hw with rfl | hw
      · exact hab
      · exact C15_trans sem hl a b w (ho b (by simp)) (ho w (by simp [hw])) hab ((List.pairwise_cons.1 hp).1 w hw)

/-- C15: a sequence of attenuations that comes back to where it began has changed nothing on the way. -/
theorem C15_circle (sem : Semantics S A) (hl : Lawful sem) (hs : ∀ s t, sem.contains s t = true → sem.contains t s = true → s = t)
    (hg : ∀ a b, sem.ge a b = true → sem.ge b a = true → a = b) (a : View S A) (l : List (View S A)) (ho : ∀ v ∈ a :: l, ObjCaveat v)
    (hc : ∀ (i : Nat) v w, (a :: l ++ [a])[i]? = some v → (a :: l ++ [a])[i + 1]? = some w → sem.enables v w = true) (v : View S A) (hv : v ∈ l) :
    a.resource = v.resource ∧ a.ability = v.ability ∧ Same a.caveat v.caveat := by
  have hp := enables_later sem hl (a :: l ++ [a]) (by
    intro v hv
    rcases List.mem_append.1 hv with hv | hv
    · exact ho v hv
    · exact ho v (by simp_all)) hc
  have h1 := (List.pairwise_cons.1 hp).1 v (List.mem_append_left _ hv)
  have h2 := (List.pairwise_append.1 hp).2.2 v (List.mem_cons_of_mem _ hv) a (List.mem_singleton_self _)
  exact C15_antisymm sem hs hg a v (ho a List.mem_cons_self) (ho v (List.mem_cons_of_mem _ hv)) h1 h2

/-- Beside C14 and C15: an order meeting the hypotheses, two capabilities whose caveats differ as written that enable each other, and two that do not. -/
example : (∀ s t, natSem.contains s t = true → natSem.contains t s = true → s = t) ∧ (∀ a b, natSem.ge a b = true → natSem.ge b a = true → a = b) ∧
    let a : View Nat Nat := ⟨.my (.scoped 1), 5, .obj [("x", .float ⟨0⟩)]⟩
    let b : View Nat Nat := ⟨.my (.scoped 1), 5, .obj [("x", .float ⟨2 ^ 63⟩)]⟩
    let c : View Nat Nat := ⟨.my (.scoped 2), 5, .obj [("x", .float ⟨0⟩)]⟩
    natSem.enables a b = true ∧ natSem.enables b a = true ∧ natSem.enables a c = true ∧ natSem.enables c a = false := by
  refine ⟨fun s t => ?_, fun a b => ?_, by decide +kernel⟩ <;> simp only [natSem, decide_eq_true_eq] <;> omega

end Verif
