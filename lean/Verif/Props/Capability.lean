import Verif.Spec.Capability

/-! # Properties C13-C17 of caveats, resources and capabilities -/

namespace Verif
open Spec

variable {S A : Type}

/-! ## C13 Caveat attenuation -/

theorem F64.eqv_iff (a b : F64) : a.eqv b = true ↔ a = b ∨ Spec.Zero a ∧ Spec.Zero b := by
  obtain ⟨a⟩ := a
  obtain ⟨b⟩ := b
  have e : (2 : UInt64) ^ 63 = 9223372036854775808 := by decide +kernel
  simp [F64.eqv, F64.isZero, Spec.Zero, e]

namespace Json

theorem eqvList_iff {l : List Json} (ih : ∀ x ∈ l, ∀ b, x.eqv b = true ↔ Same x b) : ∀ l', eqvList l l' = true ↔
    l.length = l'.length ∧ ∀ (i : Nat) x y, l[i]? = some x → l'[i]? = some y → Same x y := by
  induction l with
  | nil =>
    intro l'
    cases l' <;> simp [eqvList]
  | cons a l ihl =>
    intro l'
    cases l' with
    | nil => simp [eqvList]
    | cons b l' =>
      rw [eqvList, Bool.and_eq_true, ih a (by simp) b, ihl (fun x hx => ih x (by simp [hx])) l']
      constructor
      · rintro ⟨h1, h2, h3⟩
        refine ⟨by simp [h2], fun i x y hx hy => ?_⟩
        cases i with
        | zero => simp at hx hy; rw [← hx, ← hy]; exact h1
        | succ i => exact h3 i x y (by simpa using hx) (by simpa using hy)
      · rintro ⟨h2, h3⟩
        exact ⟨h3 0 a b rfl rfl, by simpa using h2, fun i x y hx hy => h3 (i + 1) x y (by simpa using hx) (by simpa using hy)⟩

theorem eqvMembers_iff' {m : List (String × Json)} (ih : ∀ e ∈ m, ∀ b, e.2.eqv b = true ↔ Same e.2 b) : ∀ m', eqvMembers m m' = true ↔
    m.length = m'.length ∧ (∀ (i : Nat) x y, m[i]? = some x → m'[i]? = some y → x.1 = y.1) ∧
      ∀ (i : Nat) x y, m[i]? = some x → m'[i]? = some y → Same x.2 y.2 := by
  induction m with
  | nil =>
    intro m'
    cases m' <;> simp [eqvMembers]
  | cons a m ihm =>
    obtain ⟨k, a⟩ := a
    intro m'
    cases m' with
    | nil => simp [eqvMembers]
    | cons b m' =>
      obtain ⟨k', b⟩ := b
      rw [eqvMembers, Bool.and_eq_true, Bool.and_eq_true, beq_iff_eq, ih (k, a) (by simp) b, ihm (fun x hx => ih x (by simp [hx])) m']
      constructor
      · rintro ⟨h0, h1, h2, h3, h4⟩
        refine ⟨by simp [h2], fun i x y hx hy => ?_, fun i x y hx hy => ?_⟩
        · cases i with
          | zero => simp at hx hy; rw [← hx, ← hy]; exact h0
          | succ i => exact h3 i x y (by simpa using hx) (by simpa using hy)
        · cases i with
          | zero => simp at hx hy; rw [← hx, ← hy]; exact h1
          | succ i => exact h4 i x y (by simpa using hx) (by simpa using hy)
      · rintro ⟨h2, h3, h4⟩
        exact ⟨h3 0 _ _ rfl rfl, h4 0 _ _ rfl rfl, by simpa using h2, fun i x y hx hy => h3 (i + 1) x y (by simpa using hx) (by simpa using hy),
          fun i x y hx hy => h4 (i + 1) x y (by simpa using hx) (by simpa using hy)⟩

theorem eqv_iff (a : Json) : ∀ b, a.eqv b = true ↔ Same a b := by
  induction a using Json.induct with
  | null => intro b; cases b <;> simp [eqv] <;> first | exact .null | exact fun h => nomatch h
  | bool x =>
    intro b
    constructor
    · intro h; cases b <;> simp [eqv] at h; subst h; exact .bool
    · intro h; cases h; simp [eqv]
  | int x =>
    intro b
    constructor
    · intro h; cases b <;> simp [eqv] at h; subst h; exact .int
    · intro h; cases h; simp [eqv]
  | float x =>
    intro b
    constructor
    · intro h
      cases b <;> simp only [eqv, Bool.false_eq_true] at h
      rcases (F64.eqv_iff _ _).1 h with h | ⟨h1, h2⟩
      · subst h; exact .float
      · exact .zero h1 h2
    · intro h
      cases h with
      | float => simp [eqv, F64.eqv_iff]
      | zero h1 h2 => rw [eqv, F64.eqv_iff]; exact Or.inr ⟨h1, h2⟩
  | str x =>
    intro b
    constructor
    · intro h; cases b <;> simp [eqv] at h; subst h; exact .str
    · intro h; cases h; simp [eqv]
  | arr l ih =>
    intro b
    constructor
    · intro h
      cases b <;> simp only [eqv, Bool.false_eq_true] at h
      rw [eqvList_iff ih] at h
      exact .arr h.1 h.2
    · intro h
      cases h with
      | arr h1 h2 => rw [eqv, eqvList_iff ih]; exact ⟨h1, h2⟩
  | obj m ih =>
    intro b
    constructor
    · intro h
      cases b <;> simp only [eqv, Bool.false_eq_true] at h
      rw [eqvMembers_iff' ih] at h
      exact .obj h.1 h.2.1 h.2.2
    · intro h
      cases h with
      | obj h1 h2 h3 => rw [eqv, eqvMembers_iff' ih]; exact ⟨h1, h2, h3⟩

theorem eqvMembers_iff (a b : List (String × Json)) : eqvMembers a b = true ↔ Same (.obj a) (.obj b) := by
  rw [← eqv_iff, eqv]

end Json

theorem Spec.Same.refl (a : Json) : Same a a := by
  induction a using Json.induct with
  | null => exact .null
  | bool _ => exact .bool
  | int _ => exact .int
  | float _ => exact .float
  | str _ => exact .str
  | arr l ih => exact .arr rfl fun i x y hx hy => by rw [hx] at hy; cases hy; exact ih x (List.mem_of_getElem? hx)
  | obj m ih =>
    exact .obj rfl (fun i x y hx hy => by rw [hx] at hy; cases hy; rfl)
      fun i x y hx hy => by rw [hx] at hy; cases hy; exact ih x (List.mem_of_getElem? hx)

theorem Spec.Same.symm {a b : Json} (h : Same a b) : Same b a := by
  induction h with
  | null => exact .null
  | bool => exact .bool
  | int => exact .int
  | float => exact .float
  | zero h1 h2 => exact .zero h2 h1
  | str => exact .str
  | arr h1 _ ih => exact .arr h1.symm fun i x y hx hy => ih i y x hy hx
  | obj h1 h2 _ ih => exact .obj h1.symm (fun i x y hx hy => (h2 i y x hy hx).symm) fun i x y hx hy => ih i y x hy hx

theorem getElem?_of_length {α β : Type} {l : List α} {l' : List β} (h : l.length = l'.length) {i : Nat} {x : α} (hx : l[i]? = some x) :
    ∃ y, l'[i]? = some y := by
  have := (List.getElem?_eq_some_iff.1 hx).1
  exact ⟨l'[i], List.getElem?_eq_getElem (by omega)⟩

theorem Spec.Same.trans {a b : Json} (h : Same a b) : ∀ {c}, Same b c → Same a c := by
  induction h with
  | null => exact id
  | bool => exact id
  | int => exact id
  | float => exact id
  | zero h1 h2 =>
    intro c h
    cases h with
    | float => exact .zero h1 h2
    | zero _ h4 => exact .zero h1 h4
  | str => exact id
  | arr h1 _ ih =>
    intro c h
    cases h with
    | arr h2 h3 =>
      refine .arr (h1.trans h2) fun i x z hx hz => ?_
      obtain ⟨y, hy⟩ := getElem?_of_length h1 hx
      exact ih i x y hx hy (h3 i y z hy hz)
  | obj h1 hk _ ih =>
    intro c h
    cases h with
    | obj h2 hk' h3 =>
      refine .obj (h1.trans h2) (fun i x z hx hz => ?_) fun i x z hx hz => ?_
      · obtain ⟨y, hy⟩ := getElem?_of_length h1 hx
        exact (hk i x y hx hy).trans (hk' i y z hy hz)
      · obtain ⟨y, hy⟩ := getElem?_of_length h1 hx
        exact ih i x y hx hy (h3 i y z hy hz)

theorem Spec.Keeps.refl (a : List (String × Json)) : Keeps a a := fun _ v h => ⟨v, h, .refl v⟩

theorem Spec.Keeps.trans {a b c : List (String × Json)} (h1 : Keeps a b) (h2 : Keeps b c) : Keeps a c := by
  intro k v h
  obtain ⟨v', h', s'⟩ := h1 k v h
  obtain ⟨v'', h'', s''⟩ := h2 k v' h'
  exact ⟨v'', h'', s'.trans s''⟩

theorem keeps_of_same {a b : List (String × Json)} (h : Same (.obj a) (.obj b)) : Keeps a b := by
  cases h with
  | obj h1 h2 h3 =>
    intro k v hm
    obtain ⟨i, hi⟩ := List.getElem?_of_mem hm
    obtain ⟨⟨k', v'⟩, hy⟩ := getElem?_of_length h1 hi
    have := h2 i _ _ hi hy
    simp only at this
    subst this
    exact ⟨v', List.mem_of_getElem? hy, h3 i _ _ hi hy⟩

theorem allIn_iff {a b : Caveat} (hb : BMap.Sorted b) : Caveat.allIn a b = true ↔ Keeps a b := by
  induction a with
  | nil => simp [Caveat.allIn, Keeps]
  | cons e a ih =>
    obtain ⟨k, v⟩ := e
    have hk : Keeps ((k, v) :: a) b ↔ (∃ v', (k, v') ∈ b ∧ Same v v') ∧ Keeps a b := by
      simp only [Keeps, List.mem_cons]
      constructor
      · intro h; exact ⟨h k v (Or.inl rfl), fun k' v' h' => h k' v' (Or.inr h')⟩
      · rintro ⟨h1, h2⟩ k' v' (h | h)
        · cases h; exact h1
        · exact h2 k' v' h
    rw [hk]
    simp only [Caveat.allIn]
    split
    · rename_i v' hv'
      rw [BMap.get?_eq_some_iff hb] at hv'
      split
      · rename_i heq
        rw [ih]
        exact ⟨fun h => ⟨⟨v', hv', (Json.eqv_iff _ _).1 heq⟩, h⟩, fun h => h.2⟩
      · rename_i hne
        simp only [Bool.false_eq_true, false_iff, not_and]
        rintro ⟨v'', h, hs⟩
        have h1 := BMap.get?_of_mem hb h
        have h2 := BMap.get?_of_mem hb hv'
        rw [h1] at h2
        cases h2
        exact absurd ((Json.eqv_iff _ _).2 hs) hne
    · rename_i hn
      simp only [Bool.false_eq_true, false_iff, not_and]
      rintro ⟨v'', h, _⟩
      rw [BMap.get?_of_mem hb h] at hn
      cases hn

/-- C13: a caveat enables another exactly when the other keeps all its constraints. -/
theorem C13_caveat_enables_iff {a b : Caveat} (hb : BMap.Sorted b) : a.enables b = true ↔ Keeps a b := by
  unfold Caveat.enables
  split
  · rename_i h
    have : a = [] := by simpa using h
    simp [this, Keeps]
  · rename_i ha
    have ha : a ≠ [] := by simpa using ha
    split
    · rename_i h
      have : b = [] := by simpa using h
      subst this
      simp only [Bool.false_eq_true, Keeps, List.not_mem_nil, false_and, exists_false, imp_false, false_iff]
      intro h
      obtain ⟨e, a', rfl⟩ := List.exists_cons_of_ne_nil ha
      exact h e.1 e.2 (by simp)
    · split
      · rename_i h
        exact ⟨fun _ => keeps_of_same ((Json.eqvMembers_iff _ _).1 h), fun _ => rfl⟩
      · exact allIn_iff hb

/-- C13: no constraints enable everything. -/
theorem C13_empty (b : Caveat) : Caveat.enables [] b = true := rfl

theorem C13_refl (a : Caveat) (ha : BMap.Sorted a) : a.enables a = true := (C13_caveat_enables_iff ha).2 (.refl a)

theorem C13_trans {a b c : Caveat} (hb : BMap.Sorted b) (hc : BMap.Sorted c) (h1 : a.enables b = true) (h2 : b.enables c = true) :
    a.enables c = true := by
  rw [C13_caveat_enables_iff hb] at h1
  rw [C13_caveat_enables_iff hc] at h2
  rw [C13_caveat_enables_iff hc]
  exact h1.trans h2

/-- C13: caveats that enable each other are the same: they have the same keys with the same values. -/
theorem C13_antisymm {a b : Caveat} (ha : BMap.Sorted a) (hb : BMap.Sorted b) (h1 : a.enables b = true) (h2 : b.enables a = true) :
    Same (.obj a) (.obj b) := by
  rw [C13_caveat_enables_iff hb] at h1
  rw [C13_caveat_enables_iff ha] at h2
  have hkeys : ∀ k, k ∈ a.map Prod.fst ↔ k ∈ b.map Prod.fst := by
    intro k
    simp only [List.mem_map]
    constructor
    · rintro ⟨⟨k, v⟩, h, rfl⟩
      obtain ⟨v', h', _⟩ := h1 k v h
      exact ⟨_, h', rfl⟩
    · rintro ⟨⟨k, v⟩, h, rfl⟩
      obtain ⟨v', h', _⟩ := h2 k v h
      exact ⟨_, h', rfl⟩
  have hs : a.map (fun e => (e.1, ())) = b.map (fun e => (e.1, ())) := by
    refine BMap.ext (List.pairwise_map.2 ha) (List.pairwise_map.2 hb) fun k => ?_
    have key : ∀ l : List (String × Json), BMap.Sorted l → (BMap.get? (l.map fun e => (e.1, ())) k = some () ↔ k ∈ l.map Prod.fst) := by
      intro l hl
      have hl' : BMap.Sorted (l.map fun e => (e.1, ())) := List.pairwise_map.2 hl
      rw [BMap.get?_eq_some_iff hl']
      simp
    cases h : BMap.get? (a.map fun e => (e.1, ())) k with
    | some u => exact ((key b hb).2 ((hkeys k).1 ((key a ha).1 h))).symm
    | none =>
      cases h' : BMap.get? (b.map fun e => (e.1, ())) k with
      | none => rfl
      | some u =>
        have := (key a ha).2 ((hkeys k).2 ((key b hb).1 h'))
        rw [h] at this
        cases this
  have hl : a.length = b.length := by simpa using congrArg List.length hs
  have hi : ∀ (i : Nat) x y, a[i]? = some x → b[i]? = some y → x.1 = y.1 := by
    intro i x y hx hy
    have := congrArg (fun l => l[i]?) hs
    simpa [hx, hy] using this
  refine .obj hl hi fun i x y hx hy => ?_
  obtain ⟨v, hv, hsame⟩ := h1 x.1 x.2 (List.mem_of_getElem? hx)
  have hk := hi i x y hx hy
  have e1 := BMap.get?_of_mem hb hv
  have e2 := BMap.get?_of_mem hb (show (y.1, y.2) ∈ b from List.mem_of_getElem? hy)
  rw [hk, e2] at e1
  cases e1
  exact hsame

/-- Beside C13: two caveats that meet the hypotheses, one enabling the other but not back. -/
example : let a : Caveat := [("x", .bool true)]
    let b : Caveat := [("x", .bool true), ("z", .int 1)]
    BMap.Sorted a ∧ BMap.Sorted b ∧ a.enables b = true ∧ b.enables a = false := by
  refine ⟨by simp [BMap.Sorted], ?_, by decide +kernel, by decide +kernel⟩
  simp only [BMap.Sorted, List.pairwise_cons, List.mem_singleton, forall_eq, List.not_mem_nil, false_implies, implies_true,
    List.Pairwise.nil, and_true]
  show bytesLt (strBytes "x") (strBytes "z") = true
  decide +kernel

/-- Beside C13: zeros of either sign are the same constraint, an integer zero is another one. -/
example : Caveat.enables [("x", .float ⟨0⟩)] [("x", .float ⟨2 ^ 63⟩)] = true ∧ Caveat.enables [("x", .float ⟨2 ^ 63⟩)] [("x", .float ⟨0⟩)] = true ∧
    Caveat.enables [("x", .float ⟨0⟩)] [("x", .int 0)] = false := by decide +kernel

/-! ## C14 Resource containment -/

/-- C14: containment is exactly same form (and DID) and coverage of the scopes. -/
theorem C14_contains_iff (c : S → S → Bool) (r r' : Resource S) :
    r.contains c r' = true ↔ ResContains (fun s t => c s t = true) r r' := by
  have hk : ∀ k k' : ResourceUri S, k.contains c k' = true ↔ Covers (fun s t => c s t = true) k k' := by
    intro k k'
    cases k <;> cases k' <;> simp [ResourceUri.contains, Covers]
  cases r <;> cases r' <;> simp [Resource.contains, ResContains, form, kind, hk]

/-- C14: plain, `my:` and `as:` resources never contain one another, and `as:` only within a DID. -/
theorem C14_forms (c : S → S → Bool) (r r' : Resource S) (h : form r ≠ form r') : r.contains c r' = false := by
  cases hc : r.contains c r' with
  | false => rfl
  | true => exact absurd ((C14_contains_iff c r r').1 hc).1 h

/-- C14: the wildcard of a form contains every resource of that form. -/
theorem C14_unscoped (c : S → S → Bool) (r r' : Resource S) (h : form r = form r') (hu : kind r = .unscoped) :
    r.contains c r' = true := (C14_contains_iff c r r').2 ⟨h, Or.inl hu⟩

/-- C14: nothing but the wildcard contains the wildcard. -/
theorem C14_unscoped_only (c : S → S → Bool) (r r' : Resource S) (hu : kind r' = .unscoped) (h : r.contains c r' = true) :
    kind r = .unscoped := by
  rcases ((C14_contains_iff c r r').1 h).2 with h | ⟨s, t, _, ht, _⟩
  · exact h
  · rw [hu] at ht; cases ht

theorem C14_refl (c : S → S → Bool) (hr : ∀ s, c s s = true) (r : Resource S) : r.contains c r = true := by
  rw [C14_contains_iff]
  refine ⟨rfl, ?_⟩
  cases h : kind r with
  | unscoped => exact Or.inl rfl
  | «scoped» s => exact Or.inr ⟨s, s, rfl, rfl, hr s⟩

theorem C14_trans (c : S → S → Bool) (ht : ∀ s t u, c s t = true → c t u = true → c s u = true) (r r' r'' : Resource S)
    (h1 : r.contains c r' = true) (h2 : r'.contains c r'' = true) : r.contains c r'' = true := by
  rw [C14_contains_iff] at *
  refine ⟨h1.1.trans h2.1, ?_⟩
  rcases h1.2 with h | ⟨s, t, hs, ht', hc⟩
  · exact Or.inl h
  · rcases h2.2 with h | ⟨s', t', hs', ht'', hc'⟩
    · rw [ht'] at h; cases h
    · rw [ht'] at hs'; cases hs'
      exact Or.inr ⟨s, t', hs, ht'', ht s t t' hc hc'⟩

/-- Beside C14: a scope order meeting the hypotheses, with a strict containment and two foreign forms. -/
example : (∀ s : Nat, decide (s ≤ s) = true) ∧
    (Resource.my (.scoped 1)).contains (fun s t : Nat => decide (s ≤ t)) (.my (.scoped 2)) = true ∧
    (Resource.my (.scoped 2)).contains (fun s t : Nat => decide (s ≤ t)) (.my (.scoped 1)) = false ∧
    (Resource.as_ "a" .unscoped).contains (fun s t : Nat => decide (s ≤ t)) (.as_ "b" .unscoped) = false := by
  refine ⟨fun s => by simp, by decide, by decide, by decide⟩

/-! ## C15 Enabling of capabilities -/

/-- C15: `enables` is exactly attenuation. -/
theorem C15_enables_iff (sem : Semantics S A) (a b : View S A) (hb : ∀ m, b.caveat = .obj m → BMap.Sorted m) :
    sem.enables a b = true ↔ Attenuates sem a b := by
  unfold Semantics.enables Attenuates
  constructor
  · intro h
    split at h
    · rename_i c c' hc hc'
      have hca : a.caveat = .obj c := by
        cases ha : a.caveat <;> rw [ha] at hc <;> simp [Caveat.ofValue] at hc
        rw [hc]
      have hcb : b.caveat = .obj c' := by
        cases hb : b.caveat <;> rw [hb] at hc' <;> simp [Caveat.ofValue] at hc'
        rw [hc']
      simp only [Bool.and_eq_true] at h
      exact ⟨c, c', hca, hcb, (C14_contains_iff _ _ _).1 h.1.1, h.1.2, (C13_caveat_enables_iff (hb c' hcb)).1 h.2⟩
    · cases h
  · rintro ⟨ca, cb, hca, hcb, hr, hg, hk⟩
    rw [hca, hcb]
    simp only [Caveat.ofValue, Bool.and_eq_true]
    exact ⟨⟨(C14_contains_iff _ _ _).2 hr, hg⟩, (C13_caveat_enables_iff (hb cb hcb)).2 hk⟩

/-- C15: reflexive on object caveats. -/
theorem C15_refl (sem : Semantics S A) (hl : Lawful sem) (a : View S A) (ha : ObjCaveat a) : sem.enables a a = true := by
  obtain ⟨m, hm, hs⟩ := ha
  rw [C15_enables_iff sem a a (by intro m' h'; rw [hm] at h'; cases h'; exact hs)]
  exact ⟨m, m, hm, hm, (C14_contains_iff _ _ _).1 (C14_refl _ hl.containsRefl _), hl.geRefl _, .refl m⟩

/-- C15: transitive, so attenuation cannot be laundered through an intermediate step. -/
theorem C15_trans (sem : Semantics S A) (hl : Lawful sem) (a b c : View S A) (hb : ObjCaveat b) (hc : ObjCaveat c)
    (h1 : sem.enables a b = true) (h2 : sem.enables b c = true) : sem.enables a c = true := by
  obtain ⟨mb, hmb, hsb⟩ := hb
  obtain ⟨mc, hmc, hsc⟩ := hc
  have wb : ∀ m, b.caveat = .obj m → BMap.Sorted m := by intro m' h'; rw [hmb] at h'; cases h'; exact hsb
  have wc : ∀ m, c.caveat = .obj m → BMap.Sorted m := by intro m' h'; rw [hmc] at h'; cases h'; exact hsc
  rw [C15_enables_iff sem _ _ wb] at h1
  rw [C15_enables_iff sem _ _ wc] at h2 ⊢
  obtain ⟨ca, cb, e1, e2, r1, g1, k1⟩ := h1
  obtain ⟨cb', cc, e3, e4, r2, g2, k2⟩ := h2
  rw [e2] at e3; cases e3
  refine ⟨ca, cc, e1, e4, ?_, hl.geTrans _ _ _ g1 g2, k1.trans k2⟩
  exact (C14_contains_iff _ _ _).1
    (C14_trans _ hl.containsTrans _ _ _ ((C14_contains_iff _ _ _).2 r1) ((C14_contains_iff _ _ _).2 r2))

/-- C15: a capability whose caveat is not an object neither enables nor is enabled by anything. -/
theorem C15_non_object (sem : Semantics S A) (a b : View S A) (h : (∀ m, a.caveat ≠ .obj m) ∨ ∀ m, b.caveat ≠ .obj m) :
    sem.enables a b = false := by
  have key : ∀ v : Json, (∀ m, v ≠ .obj m) → Caveat.ofValue v = none := by
    intro v hv; cases v <;> first | rfl | exact absurd rfl (hv _)
  unfold Semantics.enables
  split
  · rename_i c c' hc hc'
    rcases h with h | h
    · rw [key _ h] at hc; cases hc
    · rw [key _ h] at hc'; cases hc'
  · rfl

/-- A semantics with numbers as scopes and abilities, used in examples. -/
def natSem : Semantics Nat Nat where
  parseScope _ := none
  parseAction _ := none
  scopeStr _ := ""
  actionStr _ := ""
  contains s t := decide (s ≤ t)
  ge a b := decide (b ≤ a)

theorem natSem_lawful : Lawful natSem where
  containsRefl s := by simp [natSem]
  containsTrans s t u := by simp only [natSem, decide_eq_true_eq]; omega
  geRefl s := by simp [natSem]
  geTrans a b c := by simp only [natSem, decide_eq_true_eq]; omega

/-- Beside C15: a strict attenuation in all three dimensions. -/
example : natSem.enables ⟨.resource (.scoped 1), 5, .obj []⟩ ⟨.resource (.scoped 2), 4, .obj [("x", .null)]⟩ = true ∧
    natSem.enables ⟨.resource (.scoped 2), 4, .obj [("x", .null)]⟩ ⟨.resource (.scoped 1), 5, .obj []⟩ = false := by
  decide +kernel

/-! ## C16 From a list of capabilities to a map -/

namespace Capabilities

/-- Every resource has an ability and every ability a caveat. -/
def NoEmpty (m : Capabilities) : Prop := ∀ r ∈ m, r.2 ≠ [] ∧ ∀ a ∈ r.2, a.2 ≠ []

/-- Caveats stored for a resource and ability. -/
def at_ (m : Capabilities) (r a : String) : List Json := (((BMap.get? m r).getD []).get? a).getD []

theorem at_eq (m : Capabilities) (r a : String) : at_ m r a = (BMap.get? ((BMap.get? m r).getD []) a).getD [] := rfl

theorem filter_key_flatMap {ν β : Type} {m : BMap String ν} (hm : BMap.Sorted m) (f : String × ν → List β) (key : β → String)
    (hf : ∀ e, ∀ x ∈ f e, key x = e.1) (k : String) :
    (m.flatMap f).filter (fun x => decide (key x = k)) = match BMap.get? m k with | some v => f (k, v) | none => [] := by
  induction m with
  | nil => simp [BMap.get?]
  | cons e m ih =>
    obtain ⟨k', v⟩ := e
    have hm' : BMap.Sorted m := List.Pairwise.of_cons hm
    have hlt : ∀ e ∈ m, OrdKey.lt k' e.1 = true := (List.pairwise_cons.1 hm).1
    simp only [List.flatMap_cons, List.filter_append, BMap.get?]
    by_cases h : k' = k
    · subst h
      rw [if_pos rfl, ih hm']
      have : BMap.get? m k' = none := BMap.get?_eq_none_of_lt hlt
      rw [this]
      simp only [List.append_nil]
      rw [List.filter_eq_self]
      intro x hx
      simp [hf _ x hx]
    · rw [if_neg h, ih hm']
      have : (f (k', v)).filter (fun x => decide (key x = k)) = [] := by
        rw [List.filter_eq_nil_iff]
        intro x hx
        simp [hf _ x hx, h]
      rw [this]
      rfl

theorem claims_iter {m : Capabilities} (hm : CapsSorted m) (r a : String) :
    claims r a (iter m) = (at_ m r a).map fun c => ⟨r, a, c⟩ := by
  have h1 : claims r a (iter m) = ((iter m).filter fun c => decide (c.resource = r)).filter fun c => decide (c.ability = a) := by
    unfold claims
    rw [List.filter_filter]
    congr 1
    funext c
    rw [Bool.and_comm]
  rw [h1]
  unfold iter
  rw [filter_key_flatMap hm.1 (key := Capability.resource)]
  · cases hg : BMap.get? m r with
    | none => simp [at_, hg, BMap.get?]
    | some abil =>
      have hs := hm.2 (r, abil) (BMap.mem_of_get? hg)
      show List.filter _ (List.flatMap _ abil) = _
      rw [filter_key_flatMap hs (key := Capability.ability)]
      · simp only [at_, hg, Option.getD_some]
        cases BMap.get? abil a with
        | none => rfl
        | some l => rfl
      · rintro ⟨k, l⟩ x hx
        obtain ⟨c, _, rfl⟩ := List.mem_map.1 hx
        rfl
  · rintro ⟨k, l⟩ x hx
    obtain ⟨e, _, hx⟩ := List.mem_flatMap.1 hx
    obtain ⟨c, _, rfl⟩ := List.mem_map.1 hx
    rfl

theorem isObject_iff (v : Json) : isObject v = true ↔ IsObj v := by
  cases v <;> simp [isObject, IsObj]

theorem add_ok {m m' : Capabilities} {c : Capability} (hm : CapsSorted m) (h : add m c = .ok m') :
    CapsSorted m' ∧ IsObj c.caveat ∧
      (∀ r a, at_ m' r a = at_ m r a ++ if c.resource = r ∧ c.ability = a then [c.caveat] else []) ∧
      (∀ e ∈ m', e.2 ≠ [] ∨ e ∈ m) ∧ (NoEmpty m → NoEmpty m') := by
  have hsub : BMap.Sorted ((BMap.get? m c.resource).getD []) := by
    cases hg : BMap.get? m c.resource with
    | none => simp [BMap.Sorted]
    | some x => exact hm.2 _ (BMap.mem_of_get? hg)
  have key : ∀ l, m' = BMap.insert m c.resource (BMap.insert ((BMap.get? m c.resource).getD []) c.ability (l ++ [c.caveat])) →
      l = at_ m c.resource c.ability → CapsSorted m' ∧
      (∀ r a, at_ m' r a = at_ m r a ++ if c.resource = r ∧ c.ability = a then [c.caveat] else []) ∧
      (∀ e ∈ m', e.2 ≠ [] ∨ e ∈ m) ∧ (NoEmpty m → NoEmpty m') := by
    rintro l rfl hl
    refine ⟨⟨BMap.sorted_insert hm.1 _ _, ?_⟩, ?_, ?_, ?_⟩
    · intro e he
      rcases BMap.mem_insert_imp he with rfl | he
      · exact BMap.sorted_insert hsub _ _
      · exact hm.2 e he
    · intro r a
      rw [at_eq, at_eq m r a, BMap.get?_insert]
      by_cases hr : c.resource = r
      · subst hr
        simp only [if_true, Option.getD_some, BMap.get?_insert, true_and]
        by_cases ha : c.ability = a
        · subst ha
          simp only [if_true, Option.getD_some]
          rw [hl, at_eq]
        · simp [ha]
      · simp [hr]
    · intro e he
      rcases BMap.mem_insert_imp he with rfl | he
      · exact Or.inl (BMap.insert_ne_nil _ _ _)
      · exact Or.inr he
    · intro hn e he
      rcases BMap.mem_insert_imp he with rfl | he
      · refine ⟨BMap.insert_ne_nil _ _ _, ?_⟩
        intro a ha
        rcases BMap.mem_insert_imp ha with rfl | ha
        · simp
        · cases hg : BMap.get? m c.resource with
          | none => rw [hg] at ha; cases ha
          | some x => rw [hg] at ha; exact (hn _ (BMap.mem_of_get? hg)).2 a ha
      · exact hn e he
  unfold add at h
  simp only at h
  split at h
  · rename_i ho
    have ho' := (isObject_iff _).1 ho
    split at h
    · rename_i l hl
      injection h with h
      have := key l h.symm (by rw [at_eq, hl]; rfl)
      exact ⟨this.1, ho', this.2⟩
    · rename_i hl
      injection h with h
      have := key [] (by simpa using h.symm) (by rw [at_eq, hl]; rfl)
      exact ⟨this.1, ho', this.2⟩
  · cases h

theorem add_total {m : Capabilities} {c : Capability} (h : IsObj c.caveat) : ∃ m', add m c = .ok m' := by
  unfold add
  rw [if_pos ((isObject_iff _).2 h)]
  split <;> exact ⟨_, rfl⟩

theorem addAll_ok {m m' : Capabilities} {l : List Capability} (hm : CapsSorted m) (h : addAll m l = .ok m') :
    CapsSorted m' ∧ (∀ c ∈ l, IsObj c.caveat) ∧ (∀ r a, at_ m' r a = at_ m r a ++ (claims r a l).map Capability.caveat) ∧
      (∀ e ∈ m', e.2 ≠ [] ∨ e ∈ m) ∧ (NoEmpty m → NoEmpty m') := by
  induction l generalizing m with
  | nil =>
    simp only [addAll] at h
    injection h with h
    subst h
    exact ⟨hm, by simp, by simp [claims], fun e he => Or.inr he, id⟩
  | cons c l ih =>
    simp only [addAll] at h
    split at h
    · rename_i m1 h1
      obtain ⟨a1, a2, a3, a4, a5⟩ := add_ok hm h1
      obtain ⟨b1, b2, b3, b4, b5⟩ := ih a1 h
      refine ⟨b1, ?_, ?_, ?_, fun hn => b5 (a5 hn)⟩
      · intro x hx
        rcases List.mem_cons.1 hx with rfl | hx
        · exact a2
        · exact b2 x hx
      · intro r a
        rw [b3, a3]
        simp only [claims, List.filter_cons, Bool.and_eq_true, decide_eq_true_eq, List.append_assoc]
        by_cases hk : c.resource = r ∧ c.ability = a
        · simp [hk]
        · simp [hk]
      · intro e he
        rcases b4 e he with h | h
        · exact Or.inl h
        · exact a4 e h
    · cases h

theorem addAll_total {m : Capabilities} {l : List Capability} (h : ∀ c ∈ l, IsObj c.caveat) : ∃ m', addAll m l = .ok m' := by
  induction l generalizing m with
  | nil => exact ⟨m, rfl⟩
  | cons c l ih =>
    obtain ⟨m1, h1⟩ := add_total (m := m) (h c (by simp))
    simp only [addAll, h1]
    exact ih fun x hx => h x (by simp [hx])

theorem capsSorted_nil : CapsSorted [] := ⟨by simp [BMap.Sorted], by simp⟩

theorem ofVec_ok {l : List Capability} {m : Capabilities} (h : ofVec l = .ok m) :
    CapsSorted m ∧ (∀ c ∈ l, IsObj c.caveat) ∧ (∀ r a, at_ m r a = (claims r a l).map Capability.caveat) ∧ NoEmpty m := by
  unfold ofVec at h
  split at h
  · rename_i m1 h1
    obtain ⟨a1, a2, a3, a4, a5⟩ := addAll_ok capsSorted_nil h1
    have hne : NoEmpty m1 := a5 (by intro e he; cases he)
    unfold ofMap at h
    split at h
    · injection h with h
      subst h
      exact ⟨a1, a2, by simpa [at_, BMap.get?] using a3, hne⟩
    · cases h
  · cases h

theorem ofVec_total {l : List Capability} (h : ∀ c ∈ l, IsObj c.caveat) : ∃ m, ofVec l = .ok m := by
  obtain ⟨m, hm⟩ := addAll_total (m := []) h
  obtain ⟨_, _, _, a4, _⟩ := addAll_ok capsSorted_nil hm
  refine ⟨m, ?_⟩
  unfold ofVec
  rw [hm]
  simp only [ofMap]
  rw [if_pos]
  simp only [List.all_eq_true, Bool.not_eq_true', List.isEmpty_eq_false_iff]
  intro e he
  rcases a4 e he with h | h
  · exact h
  · cases h

theorem iter_sorted {m : Capabilities} (hm : CapsSorted m) : (iter m).Pairwise KeyLe := by
  unfold iter
  rw [List.pairwise_flatMap]
  refine ⟨?_, ?_⟩
  · intro r hr
    rw [List.pairwise_flatMap]
    refine ⟨?_, ?_⟩
    · intro a _
      rw [List.pairwise_map]
      exact List.Pairwise.imp (fun _ => Or.inr ⟨rfl, Or.inr rfl⟩) (List.pairwise_of_forall (R := fun _ _ => True) (fun _ _ => trivial))
    · refine List.Pairwise.imp ?_ (hm.2 r hr)
      intro a b hab x hx y hy
      obtain ⟨_, _, rfl⟩ := List.mem_map.1 hx
      obtain ⟨_, _, rfl⟩ := List.mem_map.1 hy
      exact Or.inr ⟨rfl, Or.inl hab⟩
  · refine List.Pairwise.imp ?_ hm.1
    intro a b hab x hx y hy
    obtain ⟨_, _, hx⟩ := List.mem_flatMap.1 hx
    obtain ⟨_, _, hy⟩ := List.mem_flatMap.1 hy
    obtain ⟨_, _, rfl⟩ := List.mem_map.1 hx
    obtain ⟨_, _, rfl⟩ := List.mem_map.1 hy
    exact Or.inl hab

theorem perm_of_claims {l l' : List Capability} (h : ∀ r a, claims r a l = claims r a l') : l.Perm l' := by
  rw [List.perm_iff_count]
  intro c
  have key : ∀ l, List.count c l = List.count c (claims c.resource c.ability l) := by
    intro l
    unfold claims
    rw [List.count_filter]
    simp
  rw [key, key l', h]

end Capabilities

open Capabilities

/-- C16: the conversion succeeds exactly when every caveat is an object. -/
theorem C16_accepts (l : List Capability) : (∃ m, ofVec l = .ok m) ↔ ∀ c ∈ l, IsObj c.caveat :=
  ⟨fun ⟨_, h⟩ => (ofVec_ok h).2.1, ofVec_total⟩

/-- C16: for every resource and ability the claims come back unchanged and in the original order. -/
theorem C16_stable {l : List Capability} {m : Capabilities} (h : ofVec l = .ok m) (r a : String) :
    claims r a (iter m) = claims r a l := by
  obtain ⟨h1, _, h3, _⟩ := ofVec_ok h
  rw [claims_iter h1, h3, List.map_map]
  have : ∀ c ∈ claims r a l, ((fun v => (⟨r, a, v⟩ : Capability)) ∘ Capability.caveat) c = id c := by
    intro c hc
    simp only [claims, List.mem_filter, Bool.and_eq_true, decide_eq_true_eq] at hc
    obtain ⟨_, rfl, rfl⟩ := hc
    rfl
  rw [List.map_congr_left this, List.map_id]

/-- C16: nothing is lost, nothing is added. -/
theorem C16_permutation {l : List Capability} {m : Capabilities} (h : ofVec l = .ok m) : (iter m).Perm l :=
  perm_of_claims (C16_stable h)

/-- C16: iteration is ordered by resource, then ability. -/
theorem C16_ordered {l : List Capability} {m : Capabilities} (h : ofVec l = .ok m) : (iter m).Pairwise KeyLe :=
  iter_sorted (ofVec_ok h).1

/-- Beside C16: a list out of order with a repeated key. -/
example : ∃ m, ofVec [⟨"b", "w", .obj []⟩, ⟨"a", "r", .obj []⟩, ⟨"b", "w", .obj [("x", .null)]⟩] = .ok m ∧
    iter m = [⟨"a", "r", .obj []⟩, ⟨"b", "w", .obj []⟩, ⟨"b", "w", .obj [("x", .null)]⟩] := by
  refine ⟨_, rfl, ?_⟩
  decide +kernel

/-! ## C17 Laws of the capability map -/

/-- C17: iteration yields exactly the triples of the map. -/
theorem C17_iter_mem (m : Capabilities) (r a : String) (c : Json) :
    (⟨r, a, c⟩ : Capability) ∈ iter m ↔ ∃ abilities caveats, (r, abilities) ∈ m ∧ (a, caveats) ∈ abilities ∧ c ∈ caveats := by
  unfold iter
  simp only [List.mem_flatMap, List.mem_map, Capability.mk.injEq, Prod.exists]
  constructor
  · rintro ⟨r', ab, h1, a', l, h2, c', h3, rfl, rfl, rfl⟩
    exact ⟨ab, l, h1, h2, h3⟩
  · rintro ⟨ab, l, h1, h2, h3⟩
    exact ⟨r, ab, h1, a, l, h2, c, h3, rfl, rfl, rfl⟩

/-- C17: a resource and ability contribute exactly their caveat list, in order; an empty list contributes nothing. -/
theorem C17_iter_claims {m : Capabilities} (hm : CapsSorted m) {r a : String} {abilities : BMap String (List Json)}
    {caveats : List Json} (hr : (r, abilities) ∈ m) (ha : (a, caveats) ∈ abilities) :
    claims r a (iter m) = caveats.map fun c => ⟨r, a, c⟩ := by
  rw [claims_iter hm, at_eq, BMap.get?_of_mem hm.1 hr]
  simp only [Option.getD_some]
  rw [BMap.get?_of_mem (hm.2 _ hr) ha]
  rfl

theorem caps_ext {m n : Capabilities} (hm : CapsSorted m) (hn : CapsSorted n) (em : NoEmpty m) (en : NoEmpty n)
    (h : ∀ r a, at_ m r a = at_ n r a) : m = n := by
  have key : ∀ {m n : Capabilities}, CapsSorted m → CapsSorted n → NoEmpty m → NoEmpty n → (∀ r a, at_ m r a = at_ n r a) →
      ∀ r abil, BMap.get? m r = some abil → BMap.get? n r = some abil := by
    intro m n hm hn em en h r abil hg
    have hmem := BMap.mem_of_get? hg
    obtain ⟨hne, hall⟩ := em _ hmem
    have one : ∀ a l, (a, l) ∈ abil → ∃ abil', BMap.get? n r = some abil' ∧ BMap.get? abil' a = some l := by
      intro a l hal
      have h1 : at_ m r a = l := by
        rw [at_eq, hg]
        simp only [Option.getD_some]
        rw [BMap.get?_of_mem (hm.2 _ hmem) hal]
        rfl
      rw [h, at_eq] at h1
      have hl : l ≠ [] := hall _ hal
      cases hn' : BMap.get? n r with
      | none => rw [hn'] at h1; simp [BMap.get?] at h1; exact absurd h1 hl
      | some x =>
        refine ⟨x, rfl, ?_⟩
        rw [hn'] at h1
        simp only [Option.getD_some] at h1
        cases hx : BMap.get? x a with
        | none => rw [hx] at h1; simp at h1; exact absurd h1 hl
        | some y => rw [hx] at h1; simp at h1; rw [h1]
    obtain ⟨e, abil', rfl⟩ := List.exists_cons_of_ne_nil hne
    obtain ⟨x, hx, _⟩ := one e.1 e.2 (by simp)
    rw [hx]
    congr 1
    have hxm := BMap.mem_of_get? hx
    apply BMap.ext (hn.2 _ hxm) (hm.2 _ hmem)
    intro a
    cases ha : BMap.get? (e :: abil') a with
    | some l =>
      obtain ⟨x', hx', hxa⟩ := one a l (BMap.mem_of_get? ha)
      rw [hx] at hx'; cases hx'
      exact hxa
    | none =>
      cases hxa : BMap.get? x a with
      | none => rfl
      | some l =>
        have hl : l ≠ [] := (en _ hxm).2 _ (BMap.mem_of_get? hxa)
        have h2 := h r a
        rw [at_eq, at_eq, hg, hx] at h2
        simp only [Option.getD_some] at h2
        rw [ha, hxa] at h2
        simp at h2
        exact absurd h2 hl
  apply BMap.ext hm.1 hn.1
  intro r
  cases h1 : BMap.get? m r with
  | some abil => exact (key hm hn em en h r abil h1).symm
  | none =>
    cases h2 : BMap.get? n r with
    | none => rfl
    | some abil =>
      have := key hn hm en em (fun r a => (h r a).symm) r abil h2
      rw [h1] at this; cases this

/-- C17: rebuilding from the iteration restores the map. -/
theorem C17_rebuild {m : Capabilities} (hm : CapsSorted m) (hne : NoEmpty m) (ho : ∀ c ∈ iter m, IsObj c.caveat) :
    ofVec (iter m) = .ok m := by
  obtain ⟨m', h⟩ := ofVec_total ho
  obtain ⟨h1, _, h3, h4⟩ := ofVec_ok h
  rw [h]
  congr 1
  apply caps_ext h1 hm h4 hne
  intro r a
  rw [h3, claims_iter hm, List.map_map]
  exact List.map_id _

/-- The JSON text form of a capability map: objects of objects of arrays. -/
def Spec.capsShape (m : Capabilities) : Json := .obj (m.map fun r => (r.1, .obj (r.2.map fun a => (a.1, .arr a.2))))

theorem abilitiesOfMembers_ok {acc res : BMap String (List Json)} {m : List (String × Json)} :
    abilitiesOfMembers acc m = .ok res ↔ ∃ l : List (String × List Json), m = l.map (fun a => (a.1, .arr a.2)) ∧
      (∀ a ∈ l, ∀ c ∈ a.2, IsObj c) ∧ res = l.foldl (fun m e => BMap.insert m e.1 e.2) acc := by
  induction m generalizing acc with
  | nil =>
    simp only [abilitiesOfMembers, Except.ok.injEq]
    constructor
    · rintro rfl; exact ⟨[], rfl, by simp, rfl⟩
    · rintro ⟨l, hl, _, h⟩
      cases l with
      | nil => exact h.symm
      | cons _ _ => cases hl
  | cons e m ih =>
    obtain ⟨k, v⟩ := e
    simp only [abilitiesOfMembers]
    constructor
    · intro h
      split at h
      · rename_i l hl
        obtain ⟨l', rfl, ho, hr⟩ := ih.1 h
        have hv : v = .arr l ∧ ∀ c ∈ l, IsObj c := by
          cases v <;> simp only [caveatsOfValue] at hl <;> try (cases hl; done)
          split at hl
          · rename_i hall
            cases hl
            simp only [List.all_eq_true, isObject_iff] at hall
            exact ⟨rfl, hall⟩
          · cases hl
        refine ⟨(k, l) :: l', by simp [hv.1], ?_, hr⟩
        intro a ha
        rcases List.mem_cons.1 ha with rfl | ha
        · exact hv.2
        · exact ho a ha
      · cases h
    · rintro ⟨l, hl, ho, hr⟩
      cases l with
      | nil => cases hl
      | cons a l =>
        simp only [List.map_cons, List.cons.injEq, Prod.mk.injEq] at hl
        obtain ⟨⟨rfl, rfl⟩, rfl⟩ := hl
        have : caveatsOfValue (.arr a.2) = .ok a.2 := by
          simp only [caveatsOfValue]
          rw [if_pos]
          simp only [List.all_eq_true, isObject_iff]
          exact ho a (by simp)
        rw [this]
        exact ih.2 ⟨l, rfl, fun x hx => ho x (by simp [hx]), hr⟩

theorem resourcesOfMembers_ok {acc res : Capabilities} {m : List (String × Json)} :
    resourcesOfMembers acc m = .ok res ↔ ∃ l : List (String × List (String × List Json)),
      m = l.map (fun r => (r.1, .obj (r.2.map fun a => (a.1, .arr a.2)))) ∧ (∀ r ∈ l, ∀ a ∈ r.2, ∀ c ∈ a.2, IsObj c) ∧
      res = l.foldl (fun m e => BMap.insert m e.1 (BMap.ofList e.2)) acc := by
  induction m generalizing acc with
  | nil =>
    simp only [resourcesOfMembers, Except.ok.injEq]
    constructor
    · rintro rfl; exact ⟨[], rfl, by simp, rfl⟩
    · rintro ⟨l, hl, _, h⟩
      cases l with
      | nil => exact h.symm
      | cons _ _ => cases hl
  | cons e m ih =>
    obtain ⟨k, v⟩ := e
    constructor
    · intro h
      cases v <;> simp only [resourcesOfMembers] at h <;> try (cases h; done)
      rename_i ab
      split at h
      · rename_i a ha
        obtain ⟨la, rfl, hoa, rfl⟩ := abilitiesOfMembers_ok.1 ha
        obtain ⟨l, rfl, ho, hr⟩ := ih.1 h
        refine ⟨(k, la) :: l, by simp, ?_, hr⟩
        intro r hr'
        rcases List.mem_cons.1 hr' with rfl | hr'
        · exact hoa
        · exact ho r hr'
      · cases h
    · rintro ⟨l, hl, ho, hr⟩
      cases l with
      | nil => cases hl
      | cons r l =>
        simp only [List.map_cons, List.cons.injEq, Prod.mk.injEq] at hl
        obtain ⟨⟨rfl, rfl⟩, rfl⟩ := hl
        simp only [resourcesOfMembers]
        have : abilitiesOfMembers [] (r.2.map fun a => (a.1, Json.arr a.2)) = .ok (BMap.ofList r.2) :=
          abilitiesOfMembers_ok.2 ⟨r.2, rfl, ho r (by simp), rfl⟩
        rw [this]
        exact ih.2 ⟨l, rfl, fun x hx => ho x (by simp [hx]), hr⟩

/-- C17: the JSON constructor accepts exactly objects of non-empty objects of arrays of objects, and keeps their content. The
hypothesis says that the maps inside the value are sorted, as every `serde_json` map is. -/
theorem C17_ofValue_iff {v : Json} {m : Capabilities} (hv : ∀ o, v = .obj o → BMap.Sorted o ∧
      ∀ e ∈ o, ∀ o', e.2 = .obj o' → BMap.Sorted o') :
    ofValue v = .ok m ↔ v = Spec.capsShape m ∧ (∀ r ∈ m, r.2 ≠ []) ∧ (∀ r ∈ m, ∀ a ∈ r.2, ∀ c ∈ a.2, IsObj c) := by
  have fold_eq : ∀ l : List (String × List (String × List Json)),
      (∀ e ∈ l, BMap.Sorted e.2) → BMap.Sorted l → l.foldl (fun m e => BMap.insert m e.1 (BMap.ofList e.2)) [] = l := by
    intro l h1 h2
    have : ∀ (l : List (String × List (String × List Json))) acc, (∀ e ∈ l, BMap.Sorted e.2) →
        l.foldl (fun m e => BMap.insert m e.1 (BMap.ofList e.2)) acc = l.foldl (fun m e => BMap.insert m e.1 e.2) acc := by
      intro l
      induction l with
      | nil => intros; rfl
      | cons e l ih =>
        intro acc h
        simp only [List.foldl_cons]
        rw [BMap.ofList_sorted (h e (by simp)), ih _ fun x hx => h x (by simp [hx])]
    rw [this l [] h1]
    exact BMap.ofList_sorted h2
  have srt : ∀ l : List (String × List (String × List Json)),
      v = .obj (l.map fun r => (r.1, .obj (r.2.map fun a => (a.1, .arr a.2)))) → (∀ e ∈ l, BMap.Sorted e.2) ∧ BMap.Sorted l := by
    intro l hl
    obtain ⟨h1, h2⟩ := hv _ hl
    refine ⟨?_, List.pairwise_map.1 h1⟩
    intro e he
    exact List.pairwise_map.1 (h2 _ (List.mem_map.2 ⟨e, he, rfl⟩) _ rfl)
  constructor
  · intro h
    unfold ofValue at h
    split at h
    · rename_i o
      split at h
      · rename_i r hr
        obtain ⟨l, rfl, ho, hr⟩ := resourcesOfMembers_ok.1 hr
        obtain ⟨s1, s2⟩ := srt l rfl
        rw [fold_eq l s1 s2] at hr
        subst hr
        unfold ofMap at h
        split at h
        · rename_i hall
          cases h
          simp only [List.all_eq_true, Bool.not_eq_true', List.isEmpty_eq_false_iff] at hall
          exact ⟨rfl, hall, ho⟩
        · cases h
      · cases h
    · cases h
  · rintro ⟨rfl, hne, ho⟩
    obtain ⟨s1, s2⟩ := srt m rfl
    unfold Spec.capsShape ofValue
    have : resourcesOfMembers [] (m.map fun r => (r.1, Json.obj (r.2.map fun a => (a.1, Json.arr a.2)))) = .ok m :=
      resourcesOfMembers_ok.2 ⟨m, rfl, ho, (fold_eq m s1 s2).symm⟩
    simp only [this, ofMap]
    rw [if_pos]
    simp only [List.all_eq_true, Bool.not_eq_true', List.isEmpty_eq_false_iff]
    exact hne

/-- C17: no conversion into a capability map panics, whatever the value or list. -/
theorem C17_no_panic (v : Json) (l : List Capability) (q : Panic) : ofValue v ≠ .error (.panic q) ∧ ofVec l ≠ .error (.panic q) := by
  have hm : ∀ m : Capabilities, ofMap m ≠ .error (.panic q) := by
    intro m h
    unfold ofMap at h
    split at h <;> cases h
  have hcav : ∀ v, caveatsOfValue v ≠ .error (.panic q) := by
    intro v h
    unfold caveatsOfValue at h
    split at h
    · split at h <;> cases h
    · cases h
  have hab : ∀ (m : List (String × Json)) (acc : BMap String (List Json)), abilitiesOfMembers acc m ≠ .error (.panic q) := by
    intro m
    induction m with
    | nil => intro acc h; cases h
    | cons x m ih =>
      intro acc h
      unfold abilitiesOfMembers at h
      split at h
      · exact ih _ h
      · rename_i e he
        cases h
        exact hcav _ he
  have hres : ∀ (m : List (String × Json)) (acc : Capabilities), resourcesOfMembers acc m ≠ .error (.panic q) := by
    intro m
    induction m with
    | nil => intro acc h; cases h
    | cons x m ih =>
      intro acc h
      unfold resourcesOfMembers at h
      split at h
      · split at h
        · exact ih _ h
        · rename_i e he
          cases h
          exact hab _ _ he
      · cases h
  have hadd : ∀ (l : List Capability) (m : Capabilities), addAll m l ≠ .error (.panic q) := by
    intro l
    induction l with
    | nil => intro m h; cases h
    | cons c l ih =>
      intro m h
      unfold addAll at h
      split at h
      · exact ih _ h
      · rename_i e he
        cases h
        unfold add at he
        simp only at he
        split at he
        · split at he <;> cases he
        · cases he
  constructor
  · intro h
    unfold ofValue at h
    split at h
    · split at h
      · exact hm _ h
      · rename_i e he
        cases h
        exact hres _ _ he
    · cases h
  · intro h
    unfold ofVec at h
    split at h
    · exact hm _ h
    · rename_i e he
      cases h
      exact hadd _ _ he

/-- Beside C17: a value with two resources is accepted, one without abilities is refused. -/
example : ofValue (.obj [("a", .obj [("r", .arr [.obj []])]), ("b", .obj [("w", .arr [])])]) =
      .ok [("a", [("r", [.obj []])]), ("b", [("w", [])])] ∧
    ofValue (.obj [("a", .obj [])]) = err .noAbilities ∧
    iter [("a", [("r", [.obj []])]), ("b", [("w", [])])] = [⟨"a", "r", .obj []⟩] := by
  refine ⟨?_, ?_, ?_⟩ <;> decide +kernel

end Verif
