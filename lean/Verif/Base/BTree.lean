import Verif.Base.Bytes

/-!
# Ordered maps and sets

`std::collections::BTreeMap` / `BTreeSet` as strictly sorted (association) lists. Rust orders
`String` and `Vec<u8>` keys bytewise lexicographically.
-/

set_option linter.unusedSectionVars false

namespace Verif

/-- Bytewise lexicographic order, the `Ord` of `String`, `Vec<u8>` and `[u8]` in Rust. -/
def bytesLt : Bytes → Bytes → Bool
  | [], [] => false
  | [], _ :: _ => true
  | _ :: _, [] => false
  | a :: as, b :: bs => decide (a < b) || (a == b && bytesLt as bs)

theorem bytesLt_irrefl : ∀ a, bytesLt a a = false
  | [] => rfl
  | a :: as => by simp [bytesLt, bytesLt_irrefl as, UInt8.lt_irrefl]

theorem bytesLt_trans : ∀ {a b c}, bytesLt a b = true → bytesLt b c = true → bytesLt a c = true
  | [], [], _, h, _ => by simp [bytesLt] at h
  | [], _ :: _, [], _, h => by simp [bytesLt] at h
  | [], _ :: _, _ :: _, _, _ => rfl
  | _ :: _, [], _, h, _ => by simp [bytesLt] at h
  | _ :: _, _ :: _, [], _, h => by simp [bytesLt] at h
  | a :: as, b :: bs, c :: cs, h1, h2 => by
    simp only [bytesLt, Bool.or_eq_true, decide_eq_true_eq, Bool.and_eq_true, beq_iff_eq] at *
    rcases h1 with h1 | ⟨rfl, h1⟩ <;> rcases h2 with h2 | ⟨rfl, h2⟩
    · exact Or.inl (UInt8.lt_trans h1 h2)
    · exact Or.inl h1
    · exact Or.inl h2
    · exact Or.inr ⟨rfl, bytesLt_trans h1 h2⟩

theorem bytesLt_tri : ∀ a b, bytesLt a b = false → bytesLt b a = false → a = b
  | [], [], _, _ => rfl
  | [], _ :: _, h, _ => by simp [bytesLt] at h
  | _ :: _, [], _, h => by simp [bytesLt] at h
  | a :: as, b :: bs, h1, h2 => by
    simp only [bytesLt, Bool.or_eq_false_iff, decide_eq_false_iff_not, UInt8.not_lt] at h1 h2
    have hab : a = b := UInt8.le_antisymm h2.1 h1.1
    subst hab
    simp at h1 h2
    rw [bytesLt_tri as bs h1 h2]

/-- A key type of an ordered map: a strict total order. -/
class OrdKey (κ : Type) where
  lt : κ → κ → Bool
  irrefl : ∀ a, lt a a = false
  trans : ∀ {a b c}, lt a b = true → lt b c = true → lt a c = true
  tri : ∀ {a b}, lt a b = false → lt b a = false → a = b

instance : OrdKey Bytes where
  lt := bytesLt
  irrefl := bytesLt_irrefl
  trans := bytesLt_trans
  tri := bytesLt_tri _ _

instance : OrdKey String where
  lt a b := bytesLt (strBytes a) (strBytes b)
  irrefl _ := bytesLt_irrefl _
  trans := bytesLt_trans
  tri h1 h2 := strBytes_inj (bytesLt_tri _ _ h1 h2)

instance : OrdKey Nat where
  lt a b := decide (a < b)
  irrefl a := by simp
  trans h1 h2 := by simp at *; omega
  tri h1 h2 := by simp at *; omega

namespace OrdKey
variable {κ : Type} [OrdKey κ]
theorem ne_of_lt {a b : κ} (h : lt a b = true) : a ≠ b := by
  rintro rfl; rw [irrefl] at h; cases h
theorem asymm {a b : κ} (h : lt a b = true) : lt b a = false := by
  cases hb : lt b a with
  | false => rfl
  | true => have := trans h hb; rw [irrefl] at this; cases this
end OrdKey

open OrdKey

/-- `BTreeMap<κ, ν>`: intended to be `BMap.Sorted`. -/
abbrev BMap (κ ν : Type) := List (κ × ν)

namespace BMap
variable {κ ν : Type} [OrdKey κ]

/-- The invariant of a `BTreeMap`: strictly increasing keys. -/
def Sorted (m : BMap κ ν) : Prop := m.Pairwise fun a b => lt a.1 b.1 = true

/-- `BTreeMap::get`. -/
def get? [DecidableEq κ] : BMap κ ν → κ → Option ν
  | [], _ => none
  | (k', v) :: m, k => if k' = k then some v else get? m k

/-- `BTreeMap::insert`. -/
def insert : BMap κ ν → κ → ν → BMap κ ν
  | [], k, v => [(k, v)]
  | (k', v') :: m, k, v =>
    if lt k k' then (k, v) :: (k', v') :: m
    else if lt k' k then (k', v') :: insert m k v
    else (k, v) :: m

theorem mem_insert_imp {m : BMap κ ν} {k v} {e : κ × ν} (h : e ∈ m.insert k v) :
    e = (k, v) ∨ e ∈ m := by
  induction m with
  | nil => simp [insert] at h; exact Or.inl h
  | cons p m ih =>
    obtain ⟨k', v'⟩ := p
    simp only [insert] at h
    split at h
    · simpa using h
    · split at h
      · simp only [List.mem_cons] at h ⊢
        rcases h with h | h
        · exact Or.inr (Or.inl h)
        · exact (ih h).imp_right Or.inr
      · simp only [List.mem_cons] at h ⊢
        exact h.imp_right Or.inr

theorem sorted_insert {m : BMap κ ν} (hm : m.Sorted) (k : κ) (v : ν) : (m.insert k v).Sorted := by
  induction m with
  | nil => simp [insert, Sorted]
  | cons p m ih =>
    obtain ⟨k', v'⟩ := p
    have hm' := List.pairwise_cons.1 hm
    simp only [insert]
    split
    · rename_i h
      refine List.pairwise_cons.2 ⟨fun e he => ?_, hm⟩
      rcases List.mem_cons.1 he with rfl | he
      · exact h
      · exact trans h (hm'.1 e he)
    · split
      · rename_i h
        refine List.pairwise_cons.2 ⟨fun e he => ?_, ih hm'.2⟩
        rcases mem_insert_imp he with rfl | he
        · exact h
        · exact hm'.1 e he
      · rename_i h1 h2
        have : k = k' := tri (by simpa using h1) (by simpa using h2)
        subst this
        exact List.pairwise_cons.2 ⟨hm'.1, hm'.2⟩

variable [DecidableEq κ]

theorem get?_insert (m : BMap κ ν) (k : κ) (v : ν) (k' : κ) :
    (m.insert k v).get? k' = if k = k' then some v else m.get? k' := by
  induction m with
  | nil => simp [insert, get?]
  | cons p m ih =>
    obtain ⟨a, b⟩ := p
    simp only [insert]
    split
    · simp [get?]
    · split
      · rename_i h
        simp only [get?, ih]
        by_cases h1 : a = k'
        · subst h1
          have : k ≠ a := fun e => OrdKey.ne_of_lt h e.symm
          simp [this]
        · simp [h1]
      · rename_i h1 h2
        have : k = a := tri (by simpa using h1) (by simpa using h2)
        subst this
        simp only [get?]
        by_cases h : k = k' <;> simp [h]

theorem get?_eq_none_of_lt {m : BMap κ ν} {k : κ} (h : ∀ e ∈ m, lt k e.1 = true) : m.get? k = none := by
  induction m with
  | nil => rfl
  | cons p m ih =>
    obtain ⟨a, b⟩ := p
    have : a ≠ k := fun e => OrdKey.ne_of_lt (h (a, b) (by simp)) e.symm
    simp [get?, this, ih (fun e he => h e (by simp [he]))]

theorem mem_of_get? {m : BMap κ ν} {k : κ} {v : ν} (h : m.get? k = some v) : (k, v) ∈ m := by
  induction m with
  | nil => cases h
  | cons p m ih =>
    obtain ⟨a, b⟩ := p
    simp only [get?] at h
    split at h
    · rename_i e; subst e; cases h; simp
    · exact List.mem_cons_of_mem _ (ih h)

theorem get?_of_mem {m : BMap κ ν} (hm : m.Sorted) {k : κ} {v : ν} (h : (k, v) ∈ m) :
    m.get? k = some v := by
  induction m with
  | nil => cases h
  | cons p m ih =>
    obtain ⟨a, b⟩ := p
    have hm' := List.pairwise_cons.1 hm
    rcases List.mem_cons.1 h with h | h
    · cases h; simp [get?]
    · have : a ≠ k := OrdKey.ne_of_lt (hm'.1 _ h)
      simp [get?, this, ih hm'.2 h]

theorem get?_eq_some_iff {m : BMap κ ν} (hm : m.Sorted) {k : κ} {v : ν} :
    m.get? k = some v ↔ (k, v) ∈ m := ⟨mem_of_get?, get?_of_mem hm⟩

theorem get?_eq_none_iff {m : BMap κ ν} {k : κ} : m.get? k = none ↔ ∀ e ∈ m, e.1 ≠ k := by
  induction m with
  | nil => simp [get?]
  | cons p m ih =>
    obtain ⟨a, b⟩ := p
    simp only [get?]
    split
    · rename_i h; simp [h]
    · rename_i h; simp [ih, h]

/-- Sorted maps with the same lookups are equal. -/
theorem ext {m n : BMap κ ν} (hm : m.Sorted) (hn : n.Sorted) (h : ∀ k, m.get? k = n.get? k) : m = n := by
  induction m generalizing n with
  | nil =>
    cases n with
    | nil => rfl
    | cons p n => have := h p.1; simp [get?] at this
  | cons p m ih =>
    obtain ⟨a, b⟩ := p
    cases n with
    | nil => have := h a; simp [get?] at this
    | cons q n =>
      obtain ⟨c, d⟩ := q
      have hm' := List.pairwise_cons.1 hm
      have hn' := List.pairwise_cons.1 hn
      have hac : a = c := by
        apply tri
        · cases hlt : lt a c with
          | false => rfl
          | true =>
            have h1 := h a
            have : get? ((c, d) :: n) a = none := get?_eq_none_of_lt (fun e he => by
              rcases List.mem_cons.1 he with rfl | he
              · exact hlt
              · exact trans hlt (hn'.1 e he))
            rw [this] at h1; simp [get?] at h1
        · cases hlt : lt c a with
          | false => rfl
          | true =>
            have h1 := h c
            have : get? ((a, b) :: m) c = none := get?_eq_none_of_lt (fun e he => by
              rcases List.mem_cons.1 he with rfl | he
              · exact hlt
              · exact trans hlt (hm'.1 e he))
            rw [this] at h1; simp [get?] at h1
      subst hac
      have hbd : b = d := by have := h a; simpa [get?] using this
      subst hbd
      have : m = n := ih hm'.2 hn'.2 (fun k => by
        have hk := h k
        simp only [get?] at hk
        split at hk
        · rename_i e; subst e
          rw [get?_eq_none_of_lt (fun e he => hm'.1 e he), get?_eq_none_of_lt (fun e he => hn'.1 e he)]
        · exact hk)
      rw [this]

theorem insert_comm {m : BMap κ ν} (hm : m.Sorted) {k1 k2 : κ} (h : k1 ≠ k2) (v1 v2 : ν) :
    (m.insert k1 v1).insert k2 v2 = (m.insert k2 v2).insert k1 v1 := by
  apply ext (sorted_insert (sorted_insert hm _ _) _ _) (sorted_insert (sorted_insert hm _ _) _ _)
  intro k
  simp only [get?_insert]
  by_cases h1 : k1 = k <;> by_cases h2 : k2 = k <;> simp [h1, h2]
  exact absurd (h1.trans h2.symm) h

theorem insert_insert {m : BMap κ ν} (hm : m.Sorted) (k : κ) (v1 v2 : ν) :
    (m.insert k v1).insert k v2 = m.insert k v2 := by
  apply ext (sorted_insert (sorted_insert hm _ _) _ _) (sorted_insert hm _ _)
  intro k'
  simp only [get?_insert]
  by_cases h : k = k' <;> simp [h]

omit [DecidableEq κ] in
theorem insert_ne_nil (m : BMap κ ν) (k : κ) (v : ν) : m.insert k v ≠ [] := by
  cases m with
  | nil => simp [insert]
  | cons p m =>
    simp only [insert]
    split
    · simp
    · split <;> simp

theorem get?_congr_key {m : BMap κ ν} {k k' : κ} (h : k = k') : m.get? k = m.get? k' := h ▸ rfl

/-- `iter().collect()` into a `BTreeMap` from pairs: later pairs win. -/
def ofList (l : List (κ × ν)) : BMap κ ν := l.foldl (fun m e => m.insert e.1 e.2) []

omit [DecidableEq κ] in
theorem sorted_foldl_insert (l : List (κ × ν)) {m : BMap κ ν} (hm : m.Sorted) :
    BMap.Sorted (l.foldl (fun m e => BMap.insert m e.1 e.2) m) := by
  induction l generalizing m with
  | nil => exact hm
  | cons e l ih => exact ih (sorted_insert hm _ _)

omit [DecidableEq κ] in
theorem sorted_ofList (l : List (κ × ν)) : (ofList l).Sorted := sorted_foldl_insert l (by simp [Sorted])

omit [DecidableEq κ] in
/-- Inserting a key above all others appends. -/
theorem insert_last {m : BMap κ ν} {k : κ} {v : ν} (h : ∀ e ∈ m, lt e.1 k = true) :
    m.insert k v = m ++ [(k, v)] := by
  induction m with
  | nil => rfl
  | cons p m ih =>
    obtain ⟨a, b⟩ := p
    have ha : lt a k = true := h (a, b) (by simp)
    simp only [insert, OrdKey.asymm ha, ha]
    simp [ih (fun e he => h e (by simp [he]))]

omit [DecidableEq κ] in
theorem foldl_insert_sorted {l m : List (κ × ν)} (h : BMap.Sorted (m ++ l)) :
    l.foldl (fun m e => BMap.insert m e.1 e.2) m = m ++ l := by
  induction l generalizing m with
  | nil => simp
  | cons e l ih =>
    simp only [List.foldl_cons]
    have h1 : BMap.insert m e.1 e.2 = m ++ [e] := by
      apply insert_last
      intro x hx
      exact (List.pairwise_append.1 h).2.2 x hx e (by simp)
    rw [h1, ih (by simpa using h)]
    simp

omit [DecidableEq κ] in
theorem ofList_sorted {l : List (κ × ν)} (h : BMap.Sorted l) : ofList l = l := by
  have := foldl_insert_sorted (l := l) (m := []) (by simpa using h)
  simpa [ofList] using this

end BMap

/-- `BTreeSet<κ>`. -/
abbrev BSet (κ : Type) := List κ

namespace BSet
variable {κ : Type} [OrdKey κ]

def Sorted (s : BSet κ) : Prop := s.Pairwise fun a b => lt a b = true

/-- `BTreeSet::insert`. -/
def insert : BSet κ → κ → BSet κ
  | [], k => [k]
  | k' :: s, k => if lt k k' then k :: k' :: s else if lt k' k then k' :: insert s k else k' :: s

/-- `BTreeSet::extend`. -/
def extend (s : BSet κ) (l : List κ) : BSet κ := l.foldl insert s

theorem mem_insert {s : BSet κ} {k x : κ} : x ∈ s.insert k ↔ x = k ∨ x ∈ s := by
  induction s with
  | nil => simp [insert]
  | cons a s ih =>
    simp only [insert]
    split
    · simp
    · split
      · simp only [List.mem_cons, ih]
        constructor
        · rintro (h | h | h) <;> simp [h]
        · rintro (h | h | h) <;> simp [h]
      · rename_i h1 h2
        have : k = a := tri (by simpa using h1) (by simpa using h2)
        subst this
        simp

theorem mem_extend {s : BSet κ} {l : List κ} {x : κ} : x ∈ s.extend l ↔ x ∈ s ∨ x ∈ l := by
  induction l generalizing s with
  | nil => simp [extend]
  | cons a l ih =>
    have : s.extend (a :: l) = (s.insert a).extend l := rfl
    rw [this, ih, mem_insert]
    simp only [List.mem_cons]
    constructor
    · rintro ((h | h) | h) <;> simp [h]
    · rintro (h | h | h) <;> simp [h]

theorem sorted_insert {s : BSet κ} (hs : s.Sorted) (k : κ) : (s.insert k).Sorted := by
  induction s with
  | nil => simp [insert, Sorted]
  | cons a s ih =>
    have hs' := List.pairwise_cons.1 hs
    simp only [insert]
    split
    · rename_i h
      refine List.pairwise_cons.2 ⟨fun e he => ?_, hs⟩
      rcases List.mem_cons.1 he with rfl | he
      · exact h
      · exact trans h (hs'.1 e he)
    · split
      · rename_i h
        refine List.pairwise_cons.2 ⟨fun e he => ?_, ih hs'.2⟩
        rcases mem_insert.1 he with rfl | he
        · exact h
        · exact hs'.1 e he
      · exact hs

theorem sorted_extend {s : BSet κ} (hs : s.Sorted) (l : List κ) : (s.extend l).Sorted := by
  induction l generalizing s with
  | nil => exact hs
  | cons a l ih => exact ih (sorted_insert hs a)

/-- Sorted sets with the same members are equal. -/
theorem ext {s t : BSet κ} (hs : s.Sorted) (ht : t.Sorted) (h : ∀ x, x ∈ s ↔ x ∈ t) : s = t := by
  induction s generalizing t with
  | nil =>
    cases t with
    | nil => rfl
    | cons b t => have := (h b).2 (by simp); simp at this
  | cons a s ih =>
    cases t with
    | nil => have := (h a).1 (by simp); simp at this
    | cons b t =>
      have hs' := List.pairwise_cons.1 hs
      have ht' := List.pairwise_cons.1 ht
      have hab : a = b := by
        rcases List.mem_cons.1 ((h a).1 (by simp)) with e | ha
        · exact e
        · rcases List.mem_cons.1 ((h b).2 (by simp)) with e | hb
          · exact e.symm
          · have h1 := ht'.1 a ha
            have h2 := hs'.1 b hb
            rw [OrdKey.asymm h1] at h2; cases h2
      subst hab
      rw [ih hs'.2 ht'.2 (fun x => by
        constructor
        · intro hx
          rcases List.mem_cons.1 ((h x).1 (by simp [hx])) with e | hx'
          · exact absurd e.symm (OrdKey.ne_of_lt (hs'.1 x hx))
          · exact hx'
        · intro hx
          rcases List.mem_cons.1 ((h x).2 (by simp [hx])) with e | hx'
          · exact absurd e.symm (OrdKey.ne_of_lt (ht'.1 x hx))
          · exact hx')]

end BSet
end Verif
