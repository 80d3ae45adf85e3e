import Verif.Spec.Wire
import Verif.Model.PayloadLemmas
import Verif.Model.UcanLemmas
import Verif.Props.Encoding
import Verif.Props.CidText
import Verif.Props.JsonText
import Verif.Props.Token

/-! # The token format (C72) -/

namespace Verif
open Spec

/-! ## Lists and members -/

namespace Codec

theorem mapAll_iff {α β : Type} (f : α → Option β) (l : List α) (r : List β) :
    mapAll f l = some r ↔ l.length = r.length ∧ ∀ (i : Nat) x y, l[i]? = some x → r[i]? = some y → f x = some y := by
  induction l generalizing r with
  | nil =>
    cases r with
    | nil => simp [mapAll]
    | cons y r => simp [mapAll]
  | cons x l ih =>
    rw [mapAll]
    constructor
    · intro h
      split at h
      · rename_i y ys h1 h2
        cases h
        obtain ⟨hl, hp⟩ := (ih ys).1 h2
        refine ⟨by simp [hl], ?_⟩
        intro i a b ha hb
        cases i with
        | zero => simp at ha hb; subst ha hb; exact h1
        | succ i => simp at ha hb; exact hp i a b ha hb
      · cases h
    · rintro ⟨hl, hp⟩
      cases r with
      | nil => simp at hl
      | cons y r =>
        have h1 := hp 0 x y rfl rfl
        have h2 := (ih r).2 ⟨by simpa using hl, fun i a b ha hb => hp (i + 1) a b (by simpa using ha) (by simpa using hb)⟩
        rw [h1, h2]

theorem mapAll_isSome {α β : Type} (f : α → Option β) (l : List α) : (∃ r, mapAll f l = some r) ↔ ∀ x ∈ l, ∃ y, f x = some y := by
  induction l with
  | nil => simp [mapAll]
  | cons x l ih =>
    rw [mapAll]
    constructor
    · rintro ⟨r, h⟩
      split at h
      · rename_i y ys h1 h2
        intro a ha
        rcases List.mem_cons.1 ha with rfl | ha
        · exact ⟨y, h1⟩
        · exact ih.1 ⟨ys, h2⟩ a ha
      · cases h
    · intro h
      obtain ⟨y, hy⟩ := h x (List.mem_cons_self ..)
      obtain ⟨ys, hys⟩ := ih.2 fun a ha => h a (List.mem_cons_of_mem _ ha)
      exact ⟨y :: ys, by rw [hy, hys]⟩

/-- Values mapped, keys kept. -/
def mapVals {α β : Type} (f : α → Option β) (m : List (String × α)) : Option (List (String × β)) :=
  mapAll (fun e => (f e.2).map fun y => (e.1, y)) m

theorem mapVals_cons {α β : Type} (f : α → Option β) (k : String) (x : α) (m : List (String × α)) (r : List (String × β)) :
    mapVals f ((k, x) :: m) = some r ↔ ∃ y r', f x = some y ∧ mapVals f m = some r' ∧ r = (k, y) :: r' := by
  unfold mapVals
  rw [mapAll]
  constructor
  · intro h
    split at h
    · rename_i y ys h1 h2
      cases h
      simp only [Option.map_eq_some_iff] at h1
      obtain ⟨z, hz, rfl⟩ := h1
      exact ⟨z, ys, hz, h2, rfl⟩
    · cases h
  · rintro ⟨y, r', h1, h2, rfl⟩
    rw [h2, h1]
    rfl

theorem mapVals_nil {α β : Type} (f : α → Option β) (r : List (String × β)) : mapVals f [] = some r ↔ r = [] := by
  simp [mapVals, mapAll, eq_comm]

theorem mapVals_append {α β : Type} {f : α → Option β} {a b : List (String × α)} {r : List (String × β)} (h : mapVals f (a ++ b) = some r) :
    ∃ r1 r2, mapVals f a = some r1 ∧ mapVals f b = some r2 ∧ r = r1 ++ r2 := by
  induction a generalizing r with
  | nil => exact ⟨[], r, rfl, h, rfl⟩
  | cons e a ih =>
    obtain ⟨k, x⟩ := e
    rw [List.cons_append, mapVals_cons] at h
    obtain ⟨y, r', h1, h2, rfl⟩ := h
    obtain ⟨r1, r2, h3, h4, rfl⟩ := ih h2
    exact ⟨(k, y) :: r1, r2, (mapVals_cons ..).2 ⟨y, r1, h1, h3, rfl⟩, h4, rfl⟩

theorem mapVals_absent {α β : Type} {f : α → Option β} {m : List (String × α)} {r : List (String × β)} (h : mapVals f m = some r) (k : String) :
    Absent m k ↔ Absent r k := by
  induction m generalizing r with
  | nil => rw [(mapVals_nil f r).1 h]; simp [Absent]
  | cons e m ih =>
    obtain ⟨k', x⟩ := e
    obtain ⟨y, r', _, h2, rfl⟩ := (mapVals_cons ..).1 h
    have := ih h2
    simp only [Absent, List.mem_cons, forall_eq_or_imp] at this ⊢
    rw [this]

theorem mapVals_member {α β : Type} {f : α → Option β} {m : List (String × α)} {r : List (String × β)} (h : mapVals f m = some r) (k : String) (y : β) :
    Member r k y ↔ ∃ x, Member m k x ∧ f x = some y := by
  constructor
  · rintro ⟨a, b, rfl, hb⟩
    induction m generalizing a with
    | nil => have := (mapVals_nil f _).1 h; simp at this
    | cons e m ih =>
      obtain ⟨k', x⟩ := e
      obtain ⟨y', r', h1, h2, h3⟩ := (mapVals_cons ..).1 h
      cases a with
      | nil =>
        simp only [List.nil_append, List.cons.injEq, Prod.mk.injEq] at h3
        obtain ⟨⟨rfl, rfl⟩, rfl⟩ := h3
        exact ⟨x, ⟨[], m, rfl, (mapVals_absent h2 k).2 hb⟩, h1⟩
      | cons e' a =>
        simp only [List.cons_append, List.cons.injEq] at h3
        obtain ⟨rfl, rfl⟩ := h3
        obtain ⟨x', ⟨a', b', rfl, hb'⟩, hx'⟩ := ih a h2
        exact ⟨x', ⟨(k', x) :: a', b', rfl, hb'⟩, hx'⟩
  · rintro ⟨x, ⟨a, b, rfl, hb⟩, hx⟩
    obtain ⟨r1, r2, h1, h2, rfl⟩ := mapVals_append h
    obtain ⟨y', r', h3, h4, rfl⟩ := (mapVals_cons ..).1 h2
    rw [hx] at h3
    cases h3
    exact ⟨r1, r', rfl, (mapVals_absent h4 k).1 hb⟩

end Codec

theorem member_or_absent {α : Type} (m : List (String × α)) (k : String) : Absent m k ∨ ∃ v, Member m k v := by
  induction m with
  | nil => exact Or.inl fun _ h => by cases h
  | cons e m ih =>
    obtain ⟨k', x⟩ := e
    rcases ih with h | ⟨v, a, b, rfl, hb⟩
    · by_cases hk : k' = k
      · subst hk; exact Or.inr ⟨x, [], m, rfl, h⟩
      · refine Or.inl ?_
        intro e he
        rcases List.mem_cons.1 he with rfl | he
        · exact hk
        · exact h e he
    · exact Or.inr ⟨v, (k', x) :: a, b, rfl, hb⟩

theorem Spec.Member.not_absent {α : Type} {m : List (String × α)} {k : String} {v : α} (h : Member m k v) : ¬ Absent m k := by
  obtain ⟨a, b, rfl, _⟩ := h
  exact fun h => h (k, v) (by simp) rfl

theorem Spec.Member.unique {α : Type} {m : List (String × α)} {k : String} {v v' : α} (h : Member m k v) (h' : Member m k v') : v = v' := by
  induction m with
  | nil => obtain ⟨a, b, h, _⟩ := h; simp at h
  | cons e m ih =>
    obtain ⟨a, b, h1, hb⟩ := h
    obtain ⟨a', b', h1', hb'⟩ := h'
    cases a with
    | nil =>
      simp only [List.nil_append, List.cons.injEq] at h1
      obtain ⟨rfl, rfl⟩ := h1
      cases a' with
      | nil => simp at h1'; exact h1'.1
      | cons x a' =>
        simp only [List.cons_append, List.cons.injEq] at h1'
        exact absurd rfl (hb (k, v') (by rw [h1'.2]; simp))
    | cons x a =>
      simp only [List.cons_append, List.cons.injEq] at h1
      obtain ⟨rfl, h1⟩ := h1
      cases a' with
      | nil =>
        simp only [List.nil_append, List.cons.injEq] at h1'
        exact absurd rfl (hb' (k, v) (by rw [← h1'.2, h1]; simp))
      | cons x' a' =>
        simp only [List.cons_append, List.cons.injEq] at h1'
        exact ih ⟨a, b, h1, hb⟩ ⟨a', b', h1'.2, hb'⟩

theorem get?_foldl_insert {α : Type} (l : List (String × α)) (m : BMap String α) (k : String) :
    (Absent l k → BMap.get? (l.foldl (fun m e => m.insert e.1 e.2) m) k = BMap.get? m k) ∧
    ∀ v, Member l k v → BMap.get? (l.foldl (fun m e => m.insert e.1 e.2) m) k = some v := by
  induction l generalizing m with
  | nil => exact ⟨fun _ => rfl, by rintro v ⟨a, b, h, _⟩; simp at h⟩
  | cons e l ih =>
    obtain ⟨k', x⟩ := e
    obtain ⟨ih1, ih2⟩ := ih (m.insert k' x)
    rw [List.foldl_cons]
    refine ⟨?_, ?_⟩
    · intro h
      rw [ih1 fun e he => h e (List.mem_cons_of_mem _ he), BMap.get?_insert]
      have := h (k', x) (List.mem_cons_self ..)
      exact if_neg this
    · rintro v ⟨a, b, h, hb⟩
      cases a with
      | nil =>
        simp only [List.nil_append, List.cons.injEq, Prod.mk.injEq] at h
        obtain ⟨⟨rfl, rfl⟩, rfl⟩ := h
        rw [ih1 hb, BMap.get?_insert, if_pos rfl]
      | cons e' a =>
        simp only [List.cons_append, List.cons.injEq] at h
        exact ih2 v ⟨a, b, h.2, hb⟩

theorem get?_ofList_some {α : Type} (l : List (String × α)) (k : String) (v : α) : BMap.get? (BMap.ofList l) k = some v ↔ Member l k v := by
  constructor
  · intro h
    rcases member_or_absent l k with ha | ⟨v', hv'⟩
    · rw [BMap.ofList, (get?_foldl_insert l [] k).1 ha] at h
      cases h
    · rw [BMap.ofList, (get?_foldl_insert l [] k).2 v' hv'] at h
      cases h
      exact hv'
  · intro h
    rw [BMap.ofList, (get?_foldl_insert l [] k).2 v h]

theorem get?_ofList_none {α : Type} (l : List (String × α)) (k : String) : BMap.get? (BMap.ofList l) k = none ↔ Absent l k := by
  constructor
  · intro h
    rcases member_or_absent l k with ha | ⟨v', hv'⟩
    · exact ha
    · rw [(get?_ofList_some l k v').2 hv'] at h
      cases h
  · intro h
    rw [BMap.ofList, (get?_foldl_insert l [] k).1 h]
    rfl

theorem member_iff_mem {α : Type} {m : List (String × α)} (hm : BMap.Sorted m) (k : String) (v : α) : Member m k v ↔ (k, v) ∈ m := by
  rw [← get?_ofList_some, BMap.ofList_sorted hm, BMap.get?_eq_some_iff hm]

theorem absent_iff_get? {α : Type} (m : List (String × α)) (k : String) : Absent m k ↔ BMap.get? m k = none := BMap.get?_eq_none_iff.symm

/-- Mapping the values of a sorted map. -/
theorem mapVals_sorted {α β : Type} (f : α → Option β) {M : List (String × α)} (hM : BMap.Sorted M) (m' : List (String × β)) :
    Codec.mapVals f M = some m' ↔ BMap.Sorted m' ∧ (∀ k, Absent M k ↔ Absent m' k) ∧ ∀ k x y, (k, x) ∈ M → (k, y) ∈ m' → f x = some y := by
  have fwd : ∀ (M : List (String × α)) (m' : List (String × β)), BMap.Sorted M → Codec.mapVals f M = some m' → BMap.Sorted m' := by
    intro M
    induction M with
    | nil => intro m' _ h; rw [(Codec.mapVals_nil f m').1 h]; exact List.Pairwise.nil
    | cons e M ih =>
      obtain ⟨k, x⟩ := e
      intro m' hs h
      obtain ⟨y, r', h1, h2, rfl⟩ := (Codec.mapVals_cons ..).1 h
      obtain ⟨hs1, hs2⟩ := List.pairwise_cons.1 hs
      refine List.pairwise_cons.2 ⟨?_, ih r' hs2 h2⟩
      intro e he
      have : ¬ Absent r' e.1 := fun h => h e he rfl
      rw [← Codec.mapVals_absent h2, Absent] at this
      have : ∃ a ∈ M, a.1 = e.1 := Classical.byContradiction fun hc => this fun a ha h => hc ⟨a, ha, h⟩
      obtain ⟨a, ha, ha'⟩ := this
      rw [← ha']
      exact hs1 a ha
  have fwd' : ∀ m', Codec.mapVals f M = some m' → BMap.Sorted m' ∧ (∀ k, Absent M k ↔ Absent m' k) ∧ ∀ k x y, (k, x) ∈ M → (k, y) ∈ m' → f x = some y := by
    intro m' h
    have hs := fwd M m' hM h
    refine ⟨hs, Codec.mapVals_absent h, ?_⟩
    intro k x y hx hy
    obtain ⟨x', hx', hf⟩ := (Codec.mapVals_member h k y).1 ((member_iff_mem hs k y).2 hy)
    rw [((member_iff_mem hM k x).2 hx).unique hx']
    exact hf
  refine ⟨fwd' m', ?_⟩
  rintro ⟨hs, ha, hp⟩
  have hex : ∃ r, Codec.mapVals f M = some r := by
    refine (Codec.mapAll_isSome _ M).2 ?_
    rintro ⟨k, x⟩ hx
    have : ¬ Absent m' k := by rw [← ha]; exact fun h => h (k, x) hx rfl
    rcases member_or_absent m' k with h | ⟨y, hy⟩
    · exact absurd h this
    · have := hp k x y hx ((member_iff_mem hs k y).1 hy)
      exact ⟨(k, y), by simp [this]⟩
  obtain ⟨r, hr⟩ := hex
  obtain ⟨hrs, hra, hrp⟩ := fwd' r hr
  rw [hr]
  congr 1
  refine BMap.ext hrs hs fun k => ?_
  cases h1 : BMap.get? r k with
  | none =>
    rw [← absent_iff_get?, ← hra, ha, absent_iff_get?] at h1
    exact h1.symm
  | some y =>
    have hy := BMap.mem_of_get? h1
    cases h2 : BMap.get? m' k with
    | none =>
      rw [← absent_iff_get?, ← ha, hra, absent_iff_get?, h1] at h2
      cases h2
    | some y' =>
      have hy' := BMap.mem_of_get? h2
      rcases member_or_absent M k with h | ⟨x, hx⟩
      · rw [hra, absent_iff_get?, h1] at h; cases h
      · have hx := (member_iff_mem hM k x).1 hx
        have e1 := hrp k x y hx hy
        have e2 := hp k x y' hx hy'
        rw [e1] at e2
        exact e2

/-! ## DAG-JSON -/

namespace DagJson
open Codec (mapAll mapVals)

theorem toIpldList_eq (D : Deps) (l : List Json) : toIpldList D l = mapAll (toIpld D) l := by
  induction l with
  | nil => rfl
  | cons x l ih =>
    rw [toIpldList, mapAll, ih]
    cases toIpld D x <;> cases mapAll (toIpld D) l <;> rfl

theorem toIpldMembers_eq (D : Deps) (m : List (String × Json)) : toIpldMembers D m = mapVals (toIpld D) m := by
  induction m with
  | nil => rfl
  | cons e m ih =>
    obtain ⟨k, x⟩ := e
    rw [toIpldMembers, mapVals, mapAll, ih]
    change (match toIpld D x, mapAll (fun e => (toIpld D e.2).map fun y => (e.1, y)) m with
      | some y, some ys => some ((k, y) :: ys)
      | _, _ => none) = _
    cases toIpld D x <;> cases mapAll (fun e => (toIpld D e.2).map fun y => (e.1, y)) m <;> rfl

theorem toValueList_eq (D : Deps) (l : List Ipld) : toValueList D l = mapAll (toValue D) l := by
  induction l with
  | nil => rfl
  | cons x l ih =>
    rw [toValueList, mapAll, ih]
    cases toValue D x <;> cases mapAll (toValue D) l <;> rfl

theorem toValueMembers_eq (D : Deps) (m : List (String × Ipld)) : toValueMembers D m = mapVals (toValue D) m := by
  induction m with
  | nil => rfl
  | cons e m ih =>
    obtain ⟨k, x⟩ := e
    rw [toValueMembers, mapVals, mapAll, ih]
    change (match toValue D x, mapAll (fun e => (toValue D e.2).map fun y => (e.1, y)) m with
      | some y, some ys => some ((k, y) :: ys)
      | _, _ => none) = _
    cases toValue D x <;> cases mapAll (fun e => (toValue D e.2).map fun y => (e.1, y)) m <;> rfl

theorem mkMap_cases (D : Deps) {n : List (String × Ipld)} {i : Ipld} (h : mkMap D n = some i) :
    (∃ c, i = .link c) ∨ (∃ b, i = .bytes b) ∨ i = .map (BMap.ofList n) := by
  unfold mkMap at h
  split at h
  · split at h
    · rw [Option.map_eq_some_iff] at h
      obtain ⟨c, _, rfl⟩ := h
      exact Or.inl ⟨c, rfl⟩
    · cases h; exact Or.inr (Or.inr rfl)
  · split at h
    · rw [Option.map_eq_some_iff] at h
      obtain ⟨c, _, rfl⟩ := h
      exact Or.inr (Or.inl ⟨c, rfl⟩)
    · cases h; exact Or.inr (Or.inr rfl)
  · cases h; exact Or.inr (Or.inr rfl)

theorem toIpld_obj {D : Deps} {m : List (String × Json)} {i : Ipld} (h : toIpld D (.obj m) = some i) :
    ∃ n, mapVals (toIpld D) m = some n ∧ mkMap D n = some i := by
  rw [toIpld, Option.bind_eq_some_iff, toIpldMembers_eq] at h
  exact h

theorem toIpld_str {D : Deps} {x : Json} {s : String} (h : toIpld D x = some (.str s)) : x = .str s := by
  cases x with
  | obj m =>
    obtain ⟨n, _, h⟩ := toIpld_obj h
    rcases mkMap_cases D h with ⟨c, e⟩ | ⟨b, e⟩ | e <;> cases e
  | arr l =>
    rw [toIpld, Option.map_eq_some_iff] at h
    obtain ⟨_, _, h⟩ := h
    cases h
  | _ => simp [toIpld] at h; try simp [h]

theorem toIpld_null {D : Deps} {x : Json} (h : toIpld D x = some .null) : x = .null := by
  cases x with
  | obj m =>
    obtain ⟨n, _, h⟩ := toIpld_obj h
    rcases mkMap_cases D h with ⟨c, e⟩ | ⟨b, e⟩ | e <;> cases e
  | arr l =>
    rw [toIpld, Option.map_eq_some_iff] at h
    obtain ⟨_, _, h⟩ := h
    cases h
  | null => rfl
  | _ => simp [toIpld] at h

theorem toIpld_int {D : Deps} {x : Json} {i : Int} (h : toIpld D x = some (.int i)) : x = .int i := by
  cases x with
  | obj m =>
    obtain ⟨n, _, h⟩ := toIpld_obj h
    rcases mkMap_cases D h with ⟨c, e⟩ | ⟨b, e⟩ | e <;> cases e
  | arr l =>
    rw [toIpld, Option.map_eq_some_iff] at h
    obtain ⟨_, _, h⟩ := h
    cases h
  | _ => simp [toIpld] at h; try simp [h]

theorem toIpld_list {D : Deps} {x : Json} {l : List Ipld} (h : toIpld D x = some (.list l)) : ∃ l', x = .arr l' ∧ mapAll (toIpld D) l' = some l := by
  cases x with
  | obj m =>
    obtain ⟨n, _, h⟩ := toIpld_obj h
    rcases mkMap_cases D h with ⟨c, e⟩ | ⟨b, e⟩ | e <;> cases e
  | arr l' =>
    rw [toIpld, Option.map_eq_some_iff, toIpldList_eq] at h
    obtain ⟨_, h1, h⟩ := h
    cases h
    exact ⟨l', rfl, h1⟩
  | _ => simp [toIpld] at h

theorem toIpld_map {D : Deps} {x : Json} {M : List (String × Ipld)} (h : toIpld D x = some (.map M)) :
    ∃ m n, x = .obj m ∧ mapVals (toIpld D) m = some n ∧ M = BMap.ofList n := by
  cases x with
  | obj m =>
    obtain ⟨n, h1, h⟩ := toIpld_obj h
    rcases mkMap_cases D h with ⟨c, e⟩ | ⟨b, e⟩ | e
    · cases e
    · cases e
    · cases e; exact ⟨m, n, rfl, h1, rfl⟩
  | arr l =>
    rw [toIpld, Option.map_eq_some_iff] at h
    obtain ⟨_, _, h⟩ := h
    cases h
  | _ => simp [toIpld] at h

theorem mapVals_singleton {α β : Type} {f : α → Option β} {m : List (String × α)} {k : String} {y : β} (h : mapVals f m = some [(k, y)]) :
    ∃ x, m = [(k, x)] ∧ f x = some y := by
  cases m with
  | nil => have := (Codec.mapVals_nil f _).1 h; simp at this
  | cons e m =>
    obtain ⟨k', x⟩ := e
    obtain ⟨y', r', h1, h2, h3⟩ := (Codec.mapVals_cons ..).1 h
    simp only [List.cons.injEq, Prod.mk.injEq] at h3
    obtain ⟨⟨rfl, rfl⟩, rfl⟩ := h3
    cases m with
    | nil => exact ⟨x, rfl, h1⟩
    | cons e m =>
      obtain ⟨k2, x2⟩ := e
      obtain ⟨_, _, _, _, h3⟩ := (Codec.mapVals_cons ..).1 h2
      cases h3

/-- The three readings of an object. -/
theorem mkMap_iff {D : Deps} {m : List (String × Json)} {n : List (String × Ipld)} (hn : mapVals (toIpld D) m = some n) :
    (∀ s, IsLink m s → mkMap D n = (Cid.parse D s).map .link) ∧
    (∀ s, IsBytes m s → mkMap D n = (D.otherBase 109 (strBytes s)).map .bytes) ∧
    ((∀ s, ¬ IsLink m s) → (∀ s, ¬ IsBytes m s) → mkMap D n = some (.map (BMap.ofList n))) := by
  refine ⟨?_, ?_, ?_⟩
  · rintro s rfl
    obtain ⟨y, r, h1, h2, rfl⟩ := (Codec.mapVals_cons ..).1 hn
    rw [toIpld] at h1
    cases h1
    rw [(Codec.mapVals_nil _ _).1 h2]
    rfl
  · rintro s ⟨n0, rfl, hk, hs⟩
    obtain ⟨y, r, h1, h2, rfl⟩ := (Codec.mapVals_cons ..).1 hn
    obtain ⟨n1, h3, h4⟩ := toIpld_obj h1
    have hs1 : Member n1 "bytes" (.str s) := (Codec.mapVals_member h3 _ _).2 ⟨_, hs, rfl⟩
    have hk1 : ∀ k, k ≠ "bytes" → Absent n1 k := by
      intro k hne
      rw [← Codec.mapVals_absent h3]
      intro e he h
      rw [hk e he] at h
      exact hne h.symm
    have hof : BMap.ofList n1 = [("bytes", .str s)] := by
      refine BMap.ext (BMap.sorted_ofList _) (List.pairwise_singleton ..) fun k => ?_
      by_cases hkb : k = "bytes"
      · subst hkb
        rw [(get?_ofList_some ..).2 hs1]
        rfl
      · rw [(get?_ofList_none ..).2 (hk1 k hkb)]
        simp [BMap.get?, Ne.symm hkb]
    have hy : y = .map [("bytes", .str s)] := by
      rw [← hof]
      rcases mkMap_cases D h4 with ⟨c, e⟩ | ⟨b, e⟩ | e
      · exfalso
        unfold mkMap at h4
        have hne : ∀ x, n1 ≠ [("/", x)] := by
          rintro x rfl
          exact hk1 "/" (by decide) _ (List.mem_singleton.2 rfl) rfl
        split at h4
        · rename_i k s'
          split at h4
          · rename_i hk'; subst hk'; exact hne _ rfl
          · rw [e] at h4; cases h4
        · rename_i k k' s'
          split at h4
          · rename_i hk'; exact hne _ (by rw [hk'.1])
          · rw [e] at h4; cases h4
        · rw [e] at h4; cases h4
      · exfalso
        unfold mkMap at h4
        have hne : ∀ x, n1 ≠ [("/", x)] := by
          rintro x rfl
          exact hk1 "/" (by decide) _ (List.mem_singleton.2 rfl) rfl
        split at h4
        · rename_i k s'
          split at h4
          · rename_i hk'; subst hk'; exact hne _ rfl
          · rw [e] at h4; cases h4
        · rename_i k k' s'
          split at h4
          · rename_i hk'; exact hne _ (by rw [hk'.1])
          · rw [e] at h4; cases h4
        · rw [e] at h4; cases h4
      · exact e
    rw [hy, (Codec.mapVals_nil _ _).1 h2]
    rfl
  · intro hl hb
    unfold mkMap
    split
    · rename_i k s
      obtain ⟨x, rfl, hx⟩ := mapVals_singleton hn
      rw [toIpld_str hx] at hl
      rw [if_neg]
      rintro rfl
      exact hl s rfl
    · rename_i k k' s
      obtain ⟨x, rfl, hx⟩ := mapVals_singleton hn
      rw [if_neg]
      rintro ⟨rfl, rfl⟩
      obtain ⟨n0, n1, rfl, h3, h4⟩ := toIpld_map hx
      refine hb s ⟨n0, rfl, ?_, ?_⟩
      · intro e he
        refine Classical.byContradiction fun hne => ?_
        have : ¬ Absent n0 e.1 := fun h => h e he rfl
        rw [Codec.mapVals_absent h3, ← get?_ofList_none, ← h4] at this
        exact this (by simp [BMap.get?, Ne.symm hne])
      · have : Member n1 "bytes" (.str s) := by rw [← get?_ofList_some, ← h4]; rfl
        obtain ⟨x, hx, hx'⟩ := (Codec.mapVals_member h3 _ _).1 this
        rw [toIpld_str hx'] at hx
        exact hx
    · rfl

/-- Reading succeeds exactly when reserved forms are well formed. -/
theorem toIpld_isSome (D : Deps) (w : Json) : (∃ i, toIpld D w = some i) ↔ Readable D w := by
  induction w using Json.induct with
  | null => exact ⟨fun _ => .null, fun _ => ⟨_, rfl⟩⟩
  | bool b => exact ⟨fun _ => .bool, fun _ => ⟨_, rfl⟩⟩
  | int b => exact ⟨fun _ => .int, fun _ => ⟨_, rfl⟩⟩
  | float b => exact ⟨fun _ => .float, fun _ => ⟨_, rfl⟩⟩
  | str b => exact ⟨fun _ => .str, fun _ => ⟨_, rfl⟩⟩
  | arr l ih =>
    have key := Codec.mapAll_isSome (toIpld D) l
    constructor
    · rintro ⟨i, h⟩
      rw [toIpld, Option.map_eq_some_iff, toIpldList_eq] at h
      obtain ⟨r, h, _⟩ := h
      exact .arr fun x hx => (ih x hx).1 (key.1 ⟨r, h⟩ x hx)
    · intro h
      cases h with
      | arr h =>
        obtain ⟨r, hr⟩ := key.2 fun x hx => (ih x hx).2 (h x hx)
        exact ⟨.list r, by rw [toIpld, toIpldList_eq, hr]; rfl⟩
  | obj m ih =>
    have key := Codec.mapAll_isSome (fun e : String × Json => (toIpld D e.2).map fun y => (e.1, y)) m
    have key2 : ∀ e : String × Json, (∃ y, (toIpld D e.2).map (fun y => (e.1, y)) = some y) ↔ ∃ y, toIpld D e.2 = some y := by
      intro e
      cases toIpld D e.2 <;> simp
    constructor
    · rintro ⟨i, h⟩
      obtain ⟨n, hn, h⟩ := toIpld_obj h
      obtain ⟨h1, h2, _⟩ := mkMap_iff hn
      refine .obj (fun e he => (ih e he).1 ((key2 e).1 (key.1 ⟨n, hn⟩ e he))) ?_ ?_
      · intro s hs
        rw [h1 s hs, Option.map_eq_some_iff] at h
        obtain ⟨c, hc, _⟩ := h
        exact ⟨c, (C70_reference D s c).1 hc⟩
      · intro s hs
        rw [h2 s hs, Option.map_eq_some_iff] at h
        obtain ⟨c, hc, _⟩ := h
        exact ⟨c, hc⟩
    · intro h
      cases h with
      | obj hm hl hb =>
        obtain ⟨n, hn⟩ := key.2 fun e he => (key2 e).2 ((ih e he).2 (hm e he))
        obtain ⟨h1, h2, h3⟩ := mkMap_iff hn
        have goal : ∃ i, mkMap D n = some i := by
          by_cases hl' : ∃ s, IsLink m s
          · obtain ⟨s, hs⟩ := hl'
            obtain ⟨c, hc⟩ := hl s hs
            exact ⟨_, by rw [h1 s hs, (C70_reference D s c).2 hc]; rfl⟩
          · by_cases hb' : ∃ s, IsBytes m s
            · obtain ⟨s, hs⟩ := hb'
              obtain ⟨c, hc⟩ := hb s hs
              exact ⟨_, by rw [h2 s hs, hc]; rfl⟩
            · exact ⟨_, h3 (fun s hs => hl' ⟨s, hs⟩) fun s hs => hb' ⟨s, hs⟩⟩
        obtain ⟨i, hi⟩ := goal
        exact ⟨i, by rw [toIpld, toIpldMembers_eq]; exact Option.bind_eq_some_iff.2 ⟨n, hn, hi⟩⟩

/-- The plain value behind a document. -/
theorem toValue_iff (D : Deps) (w : Json) : ∀ i, toIpld D w = some i → ∀ v, toValue D i = some v ↔ Reads D w v := by
  induction w using Json.induct with
  | null =>
    rintro i h v; cases h
    exact ⟨fun h => by cases h; exact .null, fun h => by cases h; rfl⟩
  | bool b =>
    rintro i h v; cases h
    exact ⟨fun h => by cases h; exact .bool, fun h => by cases h; rfl⟩
  | int b =>
    rintro i h v; cases h
    rw [toValue]
    constructor
    · intro h
      split at h
      · rename_i hc; cases h; exact .int hc.1 hc.2.1 hc.2.2
      · cases h
    · intro h
      cases h with
      | int h1 h2 h3 => rw [if_pos ⟨h1, h2, h3⟩]
  | float b =>
    rintro i h v; cases h
    exact ⟨fun h => by cases h; exact .float, fun h => by cases h; rfl⟩
  | str b =>
    rintro i h v; cases h
    exact ⟨fun h => by cases h; exact .str, fun h => by cases h; rfl⟩
  | arr l ih =>
    intro i h v
    rw [toIpld, Option.map_eq_some_iff, toIpldList_eq] at h
    obtain ⟨r, h, rfl⟩ := h
    obtain ⟨hl, hp⟩ := (Codec.mapAll_iff _ _ _).1 h
    rw [toValue, Option.map_eq_some_iff, toValueList_eq]
    constructor
    · rintro ⟨l', h', rfl⟩
      obtain ⟨hl', hp'⟩ := (Codec.mapAll_iff _ _ _).1 h'
      refine .arr (hl.trans hl') fun i x y hx hy => ?_
      obtain ⟨z, hz⟩ : ∃ z, r[i]? = some z := by
        have : i < r.length := by
          have := (List.getElem?_eq_some_iff.1 hx).1
          omega
        exact ⟨r[i], List.getElem?_eq_getElem this⟩
      exact (ih x (List.mem_of_getElem? hx) z (hp i x z hx hz) y).1 (hp' i z y hz hy)
    · intro h'
      cases h' with
      | arr hl' hp' =>
        rename_i l'
        refine ⟨l', (Codec.mapAll_iff _ _ _).2 ⟨hl.symm.trans hl', fun i z y hz hy => ?_⟩, rfl⟩
        obtain ⟨x, hx⟩ : ∃ x, l[i]? = some x := by
          have : i < l.length := by
            have := (List.getElem?_eq_some_iff.1 hz).1
            omega
          exact ⟨l[i], List.getElem?_eq_getElem this⟩
        exact (ih x (List.mem_of_getElem? hx) z (hp i x z hx hz) y).2 (hp' i x y hx hy)
  | obj m ih =>
    intro i h v
    obtain ⟨n, hn, h⟩ := toIpld_obj h
    obtain ⟨h1, h2, h3⟩ := mkMap_iff hn
    by_cases hl' : ∃ s, IsLink m s
    · obtain ⟨s, hs⟩ := hl'
      rw [h1 s hs, Option.map_eq_some_iff] at h
      obtain ⟨c, _, rfl⟩ := h
      constructor
      · intro h; cases h
      · intro h
        cases h with
        | obj h _ _ _ _ => exact absurd hs (h s)
    by_cases hb' : ∃ s, IsBytes m s
    · obtain ⟨s, hs⟩ := hb'
      rw [h2 s hs, Option.map_eq_some_iff] at h
      obtain ⟨c, _, rfl⟩ := h
      constructor
      · intro h; cases h
      · intro h
        cases h with
        | obj _ h _ _ _ => exact absurd hs (h s)
    rw [h3 (fun s hs => hl' ⟨s, hs⟩) fun s hs => hb' ⟨s, hs⟩] at h
    cases h
    have habs : ∀ k, Absent m k ↔ Absent (BMap.ofList n) k := by
      intro k
      rw [Codec.mapVals_absent hn, absent_iff_get? (BMap.ofList n), get?_ofList_none]
    have hmem : ∀ k y, (k, y) ∈ BMap.ofList n ↔ ∃ x, Member m k x ∧ toIpld D x = some y := by
      intro k y
      rw [← member_iff_mem (BMap.sorted_ofList n), ← get?_ofList_some, BMap.ofList_sorted (BMap.sorted_ofList n), get?_ofList_some,
        Codec.mapVals_member hn]
    have hin : ∀ {k x}, Member m k x → (k, x) ∈ m := by
      rintro k x ⟨a, b, rfl, _⟩
      simp
    rw [toValue, Option.map_eq_some_iff, toValueMembers_eq]
    constructor
    · rintro ⟨m', h', rfl⟩
      obtain ⟨hs, ha, hp⟩ := (mapVals_sorted _ (BMap.sorted_ofList n) m').1 h'
      refine .obj (fun s hs => hl' ⟨s, hs⟩) (fun s hs => hb' ⟨s, hs⟩) hs (fun k => (habs k).trans (ha k)) ?_
      intro k x y hx hy
      have : ¬ Absent (BMap.ofList n) k := fun h => by
        rw [ha] at h
        exact h _ hy rfl
      rcases member_or_absent (BMap.ofList n) k with h | ⟨z, hz⟩
      · exact absurd h this
      · have hz := (member_iff_mem (BMap.sorted_ofList n) k z).1 hz
        obtain ⟨x', hx', hz'⟩ := (hmem k z).1 hz
        rw [hx'.unique hx] at hz'
        exact (ih (k, x) (hin hx) z hz' y).1 (hp k z y hz hy)
    · intro h'
      cases h' with
      | @obj _ m' _ _ hs ha hp =>
        refine ⟨m', (mapVals_sorted _ (BMap.sorted_ofList n) m').2 ⟨hs, fun k => (habs k).symm.trans (ha k), ?_⟩, rfl⟩
        intro k z y hz hy
        obtain ⟨x, hx, hz'⟩ := (hmem k z).1 hz
        exact (ih (k, x) (hin hx) z hz' y).2 (hp k x y hx hy)

end DagJson

/-! ## Fields -/

namespace Codec
open DagJson (toIpld toValue toIpld_str toIpld_int toIpld_null toIpld_list)

theorem asStr_iff {D : Deps} {w : Json} {i : Ipld} (h : toIpld D w = some i) (s : String) : asStr i = some s ↔ w = .str s := by
  constructor
  · intro hs
    unfold asStr at hs
    split at hs
    · cases hs; exact toIpld_str h
    · cases hs
  · rintro rfl
    cases h
    rfl

theorem asU64_iff {D : Deps} {w : Json} {i : Ipld} (h : toIpld D w = some i) (n : UInt64) : asU64 i = some n ↔ w = .int n.toNat := by
  constructor
  · intro hs
    unfold asU64 at hs
    split at hs
    · rename_i z
      split at hs
      · rename_i hz
        cases hs
        rw [toIpld_int h]
        congr 1
        rw [UInt64.toNat_ofNat']
        have : z.toNat < 2 ^ 64 := by omega
        rw [Nat.mod_eq_of_lt this]
        omega
      · cases hs
    · cases hs
  · rintro rfl
    cases h
    exact asU64_u64Json n

theorem asList_iff {D : Deps} {α : Type} {f : Ipld → Option α} {g : α → Json} {R : Json → Json → Prop} 
    (hf : ∀ w i, toIpld D w = some i → ∀ a, f i = some a ↔ R w (g a)) {w : Json} {i : Ipld} (h : toIpld D w = some i) (l : List α) :
    asList f i = some l ↔ ∃ l', w = .arr l' ∧ l'.length = l.length ∧ ∀ (n : Nat) x a, l'[n]? = some x → l[n]? = some a → R x (g a) := by
  constructor
  · intro hs
    unfold asList at hs
    split at hs
    · rename_i r
      obtain ⟨l', rfl, h1⟩ := toIpld_list h
      obtain ⟨hl, hp⟩ := (mapAll_iff _ _ _).1 h1
      obtain ⟨hl2, hp2⟩ := (mapAll_iff _ _ _).1 hs
      refine ⟨l', rfl, hl.trans hl2, fun n x a hx ha => ?_⟩
      obtain ⟨z, hz⟩ : ∃ z, r[n]? = some z := by
        have : n < r.length := by
          have := (List.getElem?_eq_some_iff.1 hx).1
          omega
        exact ⟨r[n], List.getElem?_eq_getElem this⟩
      exact (hf x z (hp n x z hx hz) a).1 (hp2 n z a hz ha)
    · cases hs
  · rintro ⟨l', rfl, hl2, hp2⟩
    rw [toIpld, Option.map_eq_some_iff, DagJson.toIpldList_eq] at h
    obtain ⟨r, h1, rfl⟩ := h
    obtain ⟨hl, hp⟩ := (mapAll_iff _ _ _).1 h1
    rw [asList, mapAll_iff]
    refine ⟨hl.symm.trans hl2, fun n z a hz ha => ?_⟩
    obtain ⟨x, hx⟩ : ∃ x, l'[n]? = some x := by
      have : n < l'.length := by
        have := (List.getElem?_eq_some_iff.1 hz).1
        omega
      exact ⟨l'[n], List.getElem?_eq_getElem this⟩
    exact (hf x z (hp n x z hx hz) a).2 (hp2 n x a hx ha)

theorem asStrs_iff {D : Deps} {w : Json} {i : Ipld} (h : toIpld D w = some i) (l : List String) :
    asList asStr i = some l ↔ w = .arr (l.map .str) := by
  rw [asList_iff (g := Json.str) (R := fun x y => x = y) (fun w i h a => asStr_iff h a) h]
  constructor
  · rintro ⟨l', rfl, hl, hp⟩
    congr 1
    refine List.ext_getElem? fun n => ?_
    rw [List.getElem?_map]
    by_cases hn : n < l'.length
    · have hn2 : n < l.length := by omega
      have := hp n l'[n] l[n] (List.getElem?_eq_getElem hn) (List.getElem?_eq_getElem hn2)
      rw [List.getElem?_eq_getElem hn, List.getElem?_eq_getElem hn2, this]
      rfl
    · rw [List.getElem?_eq_none (by omega), List.getElem?_eq_none (by omega)]
      rfl
  · rintro rfl
    refine ⟨_, rfl, by simp, fun n x a hx ha => ?_⟩
    rw [List.getElem?_map, ha] at hx
    cases hx
    rfl

/-- Reading a typed list is reading the list of documents. -/
theorem asList_toValue {D : Deps} {α : Type} {f : Ipld → Option α} {g : α → Json} (hf : ∀ i a, f i = some a ↔ toValue D i = some (g a)) (i : Ipld) (l : List α) :
    asList f i = some l ↔ toValue D i = some (.arr (l.map g)) := by
  cases i with
  | list r =>
    rw [asList, toValue, DagJson.toValueList_eq, Option.map_eq_some_iff, mapAll_iff]
    constructor
    · rintro ⟨hl, hp⟩
      refine ⟨_, (mapAll_iff _ _ _).2 ⟨by simpa using hl, fun n x y hx hy => ?_⟩, rfl⟩
      rw [List.getElem?_map, Option.map_eq_some_iff] at hy
      obtain ⟨a, ha, rfl⟩ := hy
      exact (hf x a).1 (hp n x a hx ha)
    · rintro ⟨l', h, e⟩
      cases e
      obtain ⟨hl, hp⟩ := (mapAll_iff _ _ _).1 h
      refine ⟨by simpa using hl, fun n x a hx ha => (hf x a).2 (hp n x _ hx ?_)⟩
      rw [List.getElem?_map, ha]
      rfl
  | int z =>
    simp only [asList, toValue]
    split <;> simp
  | map m =>
    simp only [asList, toValue]
    rw [Option.map_eq_some_iff]
    exact ⟨fun h => by (cases h), by rintro ⟨_, _, h⟩; cases h⟩
  | _ => simp [asList, toValue]

/-- Reading a typed map is reading the object. -/
theorem asMap_toValue {D : Deps} {α : Type} {f : Ipld → Option α} {g : α → Json} (hf : ∀ i a, f i = some a ↔ toValue D i = some (g a)) (i : Ipld)
    (m : List (String × α)) : asMap f i = some m ↔ toValue D i = some (.obj (m.map fun e => (e.1, g e.2))) := by
  cases i with
  | map r =>
    rw [asMap, toValue, DagJson.toValueMembers_eq, Option.map_eq_some_iff]
    change mapVals f r = some m ↔ _
    induction r generalizing m with
    | nil =>
      rw [mapVals_nil]
      constructor
      · rintro rfl
        exact ⟨[], rfl, rfl⟩
      · rintro ⟨r', h1, h2⟩
        rw [(mapVals_nil _ _).1 h1] at h2
        cases m with
        | nil => rfl
        | cons e m => cases h2
    | cons e r ih =>
      obtain ⟨k, x⟩ := e
      rw [mapVals_cons]
      constructor
      · rintro ⟨y, r', h1, h2, rfl⟩
        obtain ⟨r2, h3, h4⟩ := (ih r').1 h2
        refine ⟨(k, g y) :: r2, (mapVals_cons ..).2 ⟨g y, r2, (hf x y).1 h1, h3, rfl⟩, ?_⟩
        rw [Json.obj.injEq] at h4 ⊢
        rw [h4]
        rfl
      · rintro ⟨r2, h1, h2⟩
        obtain ⟨y, r', h3, h4, rfl⟩ := (mapVals_cons ..).1 h1
        cases m with
        | nil => cases h2
        | cons e m =>
          obtain ⟨k', a⟩ := e
          rw [Json.obj.injEq, List.map_cons, List.cons.injEq] at h2
          obtain ⟨h5, h6⟩ := h2
          simp only [Prod.mk.injEq] at h5
          obtain ⟨rfl, rfl⟩ := h5
          exact ⟨a, m, (hf x a).2 h3, (ih m).2 ⟨r', h4, by rw [h6]⟩, rfl⟩
  | int z =>
    simp only [asMap, toValue]
    split <;> simp
  | list m =>
    simp only [asMap, toValue]
    rw [Option.map_eq_some_iff]
    exact ⟨fun h => by (cases h), by rintro ⟨_, _, h⟩; cases h⟩
  | _ => simp [asMap, toValue]

theorem asFacts_iff {D : Deps} {w : Json} {i : Ipld} (h : toIpld D w = some i) (f : Facts) : asMap (toValue D) i = some f ↔ Reads D w (.obj f) := by
  rw [asMap_toValue (g := id) (fun i a => Iff.rfl), DagJson.toValue_iff D w i h]
  simp

theorem asCaps_iff {D : Deps} {w : Json} {i : Ipld} (h : toIpld D w = some i) (c : Capabilities) : asCaps D i = some c ↔ Reads D w (capDoc c) := by
  unfold asCaps
  rw [asMap_toValue (g := fun m : BMap String (List Json) => .obj (m.map fun a => (a.1, .arr a.2)))
    (fun i m => asMap_toValue (D := D) (g := Json.arr) (fun i l => by rw [asList_toValue (g := id) (fun i a => Iff.rfl)]; simp) i m),
    DagJson.toValue_iff D w i h]
  rfl

theorem reqVal_iff {D : Deps} {α : Type} {f : Ipld → Option α} {R : α → Json → Prop} (hf : ∀ w i, toIpld D w = some i → ∀ a, f i = some a ↔ R a w)
    {m : List (String × Json)} {n : List (String × Ipld)} (hn : mapVals (toIpld D) m = some n) (k : String) (a : α) :
    reqVal f (BMap.get? (BMap.ofList n) k) = some a ↔ ∃ w, Member m k w ∧ R a w := by
  cases hg : BMap.get? (BMap.ofList n) k with
  | none =>
    rw [get?_ofList_none, ← mapVals_absent hn] at hg
    exact ⟨fun h => by (cases h), by rintro ⟨w, hw, _⟩; exact absurd hg hw.not_absent⟩
  | some i =>
    rw [get?_ofList_some, mapVals_member hn] at hg
    obtain ⟨x, hx, hi⟩ := hg
    rw [reqVal, hf x i hi]
    constructor
    · intro h; exact ⟨x, hx, h⟩
    · rintro ⟨w, hw, h⟩
      rw [hx.unique hw]
      exact h

theorem optVal_iff {D : Deps} {α : Type} {f : Ipld → Option α} {R : α → Json → Prop} (hf : ∀ w i, toIpld D w = some i → ∀ a, f i = some a ↔ R a w)
    (hnull : f .null = none) {m : List (String × Json)} {n : List (String × Ipld)} (hn : mapVals (toIpld D) m = some n) (k : String) (o : Option α) :
    optVal f (BMap.get? (BMap.ofList n) k) = some o ↔ Optionally m k R o := by
  cases hg : BMap.get? (BMap.ofList n) k with
  | none =>
    rw [get?_ofList_none, ← mapVals_absent hn] at hg
    rw [optVal]
    cases o with
    | none => exact ⟨fun _ => Or.inl hg, fun _ => rfl⟩
    | some a => exact ⟨fun h => by (cases h), by rintro ⟨w, hw, _⟩; exact absurd hg hw.not_absent⟩
  | some i =>
    rw [get?_ofList_some, mapVals_member hn] at hg
    obtain ⟨x, hx, hi⟩ := hg
    by_cases hni : i = .null
    · subst hni
      have := toIpld_null hi
      subst this
      rw [optVal]
      cases o with
      | none => exact ⟨fun _ => Or.inr hx, fun _ => rfl⟩
      | some a =>
        refine ⟨fun h => by (cases h), ?_⟩
        rintro ⟨w, hw, h⟩
        rw [← hx.unique hw, ← hf .null .null rfl, hnull] at h
        cases h
    · have e : optVal f (some i) = (f i).map some := by
        cases i <;> first | rfl | exact absurd rfl hni
      rw [e, Option.map_eq_some_iff]
      cases o with
      | none =>
        constructor
        · rintro ⟨a, _, h⟩; cases h
        · rintro (h | h)
          · exact absurd h hx.not_absent
          · rw [hx.unique h] at hi
            cases hi
            exact absurd rfl hni
      | some a =>
        constructor
        · rintro ⟨a', h1, h2⟩
          cases h2
          exact ⟨x, hx, (hf x i hi a).1 h1⟩
        · rintro ⟨w, hw, h⟩
          rw [← hx.unique hw] at h
          exact ⟨a, (hf x i hi a).2 h, rfl⟩

theorem member_str {m : List (String × Json)} {k s : String} : (∃ w, Member m k w ∧ w = .str s) ↔ Member m k (.str s) :=
  ⟨by rintro ⟨w, h, rfl⟩; exact h, fun h => ⟨_, h, rfl⟩⟩

theorem payloadOfIpld_iff {D : Deps} {m : List (String × Json)} {n : List (String × Ipld)} (hn : mapVals (toIpld D) m = some n) (p : Payload) :
    payloadOfIpld D (.map (BMap.ofList n)) = some p ↔ ReadsPayload D m p := by
  have s1 := fun k a => (reqVal_iff (f := asStr) (R := fun s w => w = .str s) (fun w i h a => asStr_iff h a) hn k a).trans member_str
  have s2 := fun k o => optVal_iff (f := asStr) (R := fun s w => w = .str s) (fun w i h a => asStr_iff h a) rfl hn k o
  have s3 := fun k o => optVal_iff (f := asU64) (R := fun n w => w = .int n.toNat) (fun w i h a => asU64_iff h a) rfl hn k o
  have s4 := fun k o => optVal_iff (f := asList asStr) (R := fun l w => w = .arr (l.map .str)) (fun w i h a => asStrs_iff h a) rfl hn k o
  have s5 := fun k o => optVal_iff (f := asMap (toValue D)) (R := fun f w => Reads D w (.obj f)) (fun w i h a => asFacts_iff h a) rfl hn k o
  have s6 := fun k a => reqVal_iff (f := asCaps D) (R := fun c w => Reads D w (capDoc c)) (fun w i h a => asCaps_iff h a) hn k a
  rw [payloadOfIpld, payloadOf]
  constructor
  · intro h
    split at h
    · rename_i a1 a2 a3 a4 a5 a6 a7 a8 a9 h1 h2 h3 h4 h5 h6 h7 h8 h9
      cases h
      exact ⟨(s1 _ _).1 h1, (s1 _ _).1 h2, (s1 _ _).1 h3, (s3 _ _).1 h4, (s3 _ _).1 h5, (s2 _ _).1 h6, (s6 _ _).1 h7, (s5 _ _).1 h8, (s4 _ _).1 h9⟩
    · cases h
  · intro h
    rw [(s1 _ _).2 h.ucv, (s1 _ _).2 h.iss, (s1 _ _).2 h.aud, (s3 _ _).2 h.exp, (s3 _ _).2 h.nbf, (s2 _ _).2 h.nnc, (s6 _ _).2 h.cap,
      (s5 _ _).2 h.fct, (s4 _ _).2 h.prf]

theorem headerOfIpld_iff {D : Deps} {m : List (String × Json)} {n : List (String × Ipld)} (hn : mapVals (toIpld D) m = some n) (p : Header) :
    headerOfIpld D (.map (BMap.ofList n)) = some p ↔ ReadsHeader m p := by
  have s1 := fun k a => (reqVal_iff (f := asStr) (R := fun s w => w = .str s) (fun w i h a => asStr_iff h a) hn k a).trans member_str
  rw [headerOfIpld, headerOf]
  constructor
  · intro h
    split at h
    · rename_i a1 a2 h1 h2
      cases h
      exact ⟨(s1 _ _).1 h1, (s1 _ _).1 h2⟩
    · cases h
  · intro h
    rw [(s1 _ _).2 h.alg, (s1 _ _).2 h.typ]

theorem optVal_some_iff {α : Type} {f : Ipld → Option α} {R : α → Json → Prop} {D : Deps} {w : Json} {i : Ipld} (hi : toIpld D w = some i)
    (hf : ∀ w i, toIpld D w = some i → ∀ a, f i = some a ↔ R a w) (hnull : f .null = none) (o : Option α) :
    optVal f (some i) = some o ↔ OrNull R w o := by
  by_cases hn : i = .null
  · subst hn
    have := toIpld_null hi
    subst this
    rw [optVal]
    cases o with
    | none => exact ⟨fun _ => rfl, fun _ => rfl⟩
    | some a =>
      refine ⟨fun h => by (cases h), fun h => ?_⟩
      rw [OrNull, ← hf .null .null rfl, hnull] at h
      cases h
  · have e : optVal f (some i) = (f i).map some := by
      cases i <;> first | rfl | exact absurd rfl hn
    rw [e, Option.map_eq_some_iff]
    cases o with
    | none =>
      constructor
      · rintro ⟨a, _, h⟩; cases h
      · intro h
        rw [OrNull] at h
        subst h
        cases hi
        exact absurd rfl hn
    | some a =>
      rw [OrNull, ← hf w i hi a]
      constructor
      · rintro ⟨a', h1, h2⟩; cases h2; exact h1
      · exact fun h => ⟨a, h, rfl⟩

theorem mapAll_cons {α β : Type} {f : α → Option β} {l : List α} {y : β} {ys : List β} :
    mapAll f l = some (y :: ys) ↔ ∃ x xs, l = x :: xs ∧ f x = some y ∧ mapAll f xs = some ys := by
  cases l with
  | nil => simp [mapAll]
  | cons x xs =>
    rw [mapAll]
    constructor
    · intro h
      split at h
      · rename_i h1 h2
        cases h
        exact ⟨x, xs, rfl, h1, h2⟩
      · cases h
    · rintro ⟨_, _, e, h1, h2⟩
      cases e
      rw [h1, h2]

theorem mapAll_cons' {α β : Type} {f : α → Option β} {r : List β} {x : α} {xs : List α} :
    mapAll f (x :: xs) = some r ↔ ∃ y ys, r = y :: ys ∧ f x = some y ∧ mapAll f xs = some ys := by
  rw [mapAll]
  constructor
  · intro h
    split at h
    · rename_i h1 h2
      cases h
      exact ⟨_, _, rfl, h1, h2⟩
    · cases h
  · rintro ⟨_, _, rfl, h1, h2⟩
    rw [h1, h2]

theorem mapAll_nil {α β : Type} {f : α → Option β} {l : List α} : mapAll f l = some [] ↔ l = [] := by
  cases l with
  | nil => simp [mapAll]
  | cons x xs =>
    rw [mapAll]
    constructor
    · intro h; split at h <;> cases h
    · intro h; cases h

theorem payloadOfIpld_list {D : Deps} {l : List Json} {n : List Ipld} (hn : mapAll (toIpld D) l = some n) (p : Payload) :
    payloadOfIpld D (.list n) = some p ↔ D.structSeq = true ∧ ListsPayload D l p := by
  have s3 := fun {w i} (h : toIpld D w = some i) o => optVal_some_iff (f := asU64) (R := fun n w => w = .int n.toNat) h (fun w i h a => asU64_iff h a) rfl o
  have s2 := fun {w i} (h : toIpld D w = some i) o => optVal_some_iff (f := asStr) (R := fun s w => w = .str s) h (fun w i h a => asStr_iff h a) rfl o
  have s4 := fun {w i} (h : toIpld D w = some i) o =>
    optVal_some_iff (f := asList asStr) (R := fun l w => w = .arr (l.map .str)) h (fun w i h a => asStrs_iff h a) rfl o
  have s5 := fun {w i} (h : toIpld D w = some i) o =>
    optVal_some_iff (f := asMap (toValue D)) (R := fun f w => Reads D w (.obj f)) h (fun w i h a => asFacts_iff h a) rfl o
  constructor
  · intro h
    unfold payloadOfIpld at h
    split at h
    · rename_i e; cases e
    · rename_i i1 i2 i3 i4 i5 i6 i7 i8 i9 e
      cases e
      split at h
      · rename_i hs
        refine ⟨hs, ?_⟩
        obtain ⟨w1, _, rfl, e1, hn⟩ := mapAll_cons.1 hn
        obtain ⟨w2, _, rfl, e2, hn⟩ := mapAll_cons.1 hn
        obtain ⟨w3, _, rfl, e3, hn⟩ := mapAll_cons.1 hn
        obtain ⟨w4, _, rfl, e4, hn⟩ := mapAll_cons.1 hn
        obtain ⟨w5, _, rfl, e5, hn⟩ := mapAll_cons.1 hn
        obtain ⟨w6, _, rfl, e6, hn⟩ := mapAll_cons.1 hn
        obtain ⟨w7, _, rfl, e7, hn⟩ := mapAll_cons.1 hn
        obtain ⟨w8, _, rfl, e8, hn⟩ := mapAll_cons.1 hn
        obtain ⟨w9, _, rfl, e9, hn⟩ := mapAll_cons.1 hn
        rw [mapAll_nil] at hn
        subst hn
        unfold payloadOf at h
        split at h
        · rename_i a1 a2 a3 a4 a5 a6 a7 a8 a9 h1 h2 h3 h4 h5 h6 h7 h8 h9
          cases h
          refine ⟨w4, w5, w6, w7, w8, w9, ?_, (s3 e4 _).1 h4, (s3 e5 _).1 h5, (s2 e6 _).1 h6, (asCaps_iff e7 _).1 h7, (s5 e8 _).1 h8, (s4 e9 _).1 h9⟩
          rw [(asStr_iff e1 _).1 h1, (asStr_iff e2 _).1 h2, (asStr_iff e3 _).1 h3]
        · cases h
      · cases h
    · cases h
  · rintro ⟨hs, w4, w5, w6, w7, w8, w9, rfl, h4, h5, h6, h7, h8, h9⟩
    obtain ⟨i1, _, rfl, e1, hn⟩ := mapAll_cons'.1 hn
    obtain ⟨i2, _, rfl, e2, hn⟩ := mapAll_cons'.1 hn
    obtain ⟨i3, _, rfl, e3, hn⟩ := mapAll_cons'.1 hn
    obtain ⟨i4, _, rfl, e4, hn⟩ := mapAll_cons'.1 hn
    obtain ⟨i5, _, rfl, e5, hn⟩ := mapAll_cons'.1 hn
    obtain ⟨i6, _, rfl, e6, hn⟩ := mapAll_cons'.1 hn
    obtain ⟨i7, _, rfl, e7, hn⟩ := mapAll_cons'.1 hn
    obtain ⟨i8, _, rfl, e8, hn⟩ := mapAll_cons'.1 hn
    obtain ⟨i9, _, rfl, e9, hn⟩ := mapAll_cons'.1 hn
    cases hn
    rw [payloadOfIpld, if_pos hs, payloadOf, (s3 e4 _).2 h4, (s3 e5 _).2 h5, (s2 e6 _).2 h6, (s5 e8 _).2 h8, (s4 e9 _).2 h9]
    simp only [reqVal]
    rw [(asStr_iff e1 p.ucv).2 rfl, (asStr_iff e2 p.iss).2 rfl, (asStr_iff e3 p.aud).2 rfl, (asCaps_iff e7 p.cap).2 h7]

theorem headerOfIpld_list {D : Deps} {l : List Json} {n : List Ipld} (hn : mapAll (toIpld D) l = some n) (p : Header) :
    headerOfIpld D (.list n) = some p ↔ D.structSeq = true ∧ ListsHeader l p := by
  constructor
  · intro h
    unfold headerOfIpld at h
    split at h
    · rename_i e; cases e
    · rename_i i1 i2 e
      cases e
      split at h
      · rename_i hs
        refine ⟨hs, ?_⟩
        obtain ⟨w1, _, rfl, e1, hn⟩ := mapAll_cons.1 hn
        obtain ⟨w2, _, rfl, e2, hn⟩ := mapAll_cons.1 hn
        rw [mapAll_nil] at hn
        subst hn
        unfold headerOf at h
        split at h
        · rename_i a1 a2 h1 h2
          cases h
          rw [ListsHeader, (asStr_iff e1 _).1 h1, (asStr_iff e2 _).1 h2]
        · cases h
      · cases h
    · cases h
  · rintro ⟨hs, h⟩
    unfold ListsHeader at h
    subst h
    obtain ⟨i1, _, rfl, e1, hn⟩ := mapAll_cons'.1 hn
    obtain ⟨i2, _, rfl, e2, hn⟩ := mapAll_cons'.1 hn
    cases hn
    rw [headerOfIpld, if_pos hs, headerOf]
    simp only [reqVal]
    rw [(asStr_iff e1 p.alg).2 rfl, (asStr_iff e2 p.typ).2 rfl]

/-- The documents behind bytes. -/
theorem decode_iff {D : Deps} {α : Type} {f : Ipld → Option α} (hf : ∀ i a, f i = some a → (∃ M, i = .map M) ∨ ∃ L, i = .list L) {R : Json → α → Prop}
    (hv : ∀ v a, R v a → (∃ m, v = .obj m) ∨ ∃ l, v = .arr l)
    (hR : ∀ m n, mapVals (toIpld D) m = some n → ∀ a, f (.map (BMap.ofList n)) = some a ↔ R (.obj m) a)
    (hL : ∀ l n, mapAll (toIpld D) l = some n → ∀ a, f (.list n) = some a ↔ R (.arr l) a)
    (hres : ∀ m a, R (.obj m) a → (∀ s, ¬ IsLink m s) ∧ ∀ s, ¬ IsBytes m s) (b : Bytes) (a : α) :
    (DagJson.decode D b).bind f = some a ↔ ∃ v, Document D b v ∧ Readable D v ∧ R v a := by
  have hdoc : ∀ v, ¬ IsNumber v → (Json.parse D b = some v ↔ Document D b v) := by
    intro v hv
    unfold Document
    cases hD : D.jsonCheckEnd with
    | true =>
      rw [C71_accepts D hD]
      constructor
      · rintro ⟨h1, h2⟩
        exact ⟨⟨b, [], by simp, fun _ => rfl, h1⟩, h2⟩
      · rintro ⟨⟨t, r, rfl, hr, h1⟩, h2⟩
        rw [hr rfl, List.append_nil]
        exact ⟨h1, h2⟩
    | false =>
      rw [C71_exact_prefix D hD b v hv]
      simp
  constructor
  · intro h
    rw [Option.bind_eq_some_iff] at h
    obtain ⟨i, hi, ha⟩ := h
    rw [DagJson.decode, Option.bind_eq_some_iff] at hi
    obtain ⟨w, hw, hi⟩ := hi
    rcases hf i a ha with ⟨M, rfl⟩ | ⟨L, rfl⟩
    · obtain ⟨m, n, rfl, hn, rfl⟩ := DagJson.toIpld_map hi
      exact ⟨_, (hdoc _ id).1 hw, (DagJson.toIpld_isSome D _).1 ⟨_, hi⟩, (hR m n hn a).1 ha⟩
    · obtain ⟨l, rfl, hn⟩ := toIpld_list hi
      exact ⟨_, (hdoc _ id).1 hw, (DagJson.toIpld_isSome D _).1 ⟨_, hi⟩, (hL l L hn a).1 ha⟩
  · rintro ⟨v, hd, hr, ha⟩
    obtain ⟨i, hi⟩ := (DagJson.toIpld_isSome D _).2 hr
    rcases hv v a ha with ⟨m, rfl⟩ | ⟨l, rfl⟩
    · obtain ⟨n, hn, hm⟩ := DagJson.toIpld_obj hi
      obtain ⟨h1, h2⟩ := hres m a ha
      rw [(DagJson.mkMap_iff hn).2.2 h1 h2] at hm
      cases hm
      rw [DagJson.decode, (hdoc _ id).2 hd, Option.bind_some, hi, Option.bind_some]
      exact (hR m n hn a).2 ha
    · rw [DagJson.decode, (hdoc _ id).2 hd, Option.bind_some, hi, Option.bind_some]
      rw [toIpld, Option.map_eq_some_iff, DagJson.toIpldList_eq] at hi
      obtain ⟨r, h1, rfl⟩ := hi
      exact (hL l r h1 a).2 ha

theorem not_reserved {m : List (String × Json)} {k : String} {v : Json} (hk : k ≠ "/") (h : Member m k v) : (∀ s, ¬ IsLink m s) ∧ ∀ s, ¬ IsBytes m s := by
  obtain ⟨a, b, rfl, _⟩ := h
  have key : ∀ x : Json, a ++ (k, v) :: b ≠ [("/", x)] := by
    intro x e
    have : (k, v) ∈ [("/", x)] := by rw [← e]; simp
    simp at this
    exact hk this.1
  exact ⟨fun s => key _, fun s ⟨n, h, _⟩ => key _ h⟩

/-- C72: exactly which bytes are read as which payload. -/
theorem _root_.Verif.C72_payload_read (D : Deps) (b : Bytes) (p : Payload) :
    payloadOfBytes D b = some p ↔ ∃ v, Document D b v ∧ Readable D v ∧ PayloadValue D v p := by
  refine decode_iff (fun i a h => ?_) (fun v a h => ?_) (fun m n hn a => (payloadOfIpld_iff hn a).trans ⟨.members, fun h => by cases h; assumption⟩)
    (fun l n hn a => (payloadOfIpld_list hn a).trans ⟨fun h => .elements h.1 h.2, fun h => by cases h; exact ⟨‹_›, ‹_›⟩⟩)
    (fun m a h => ?_) b p
  · unfold payloadOfIpld at h
    split at h
    · exact .inl ⟨_, rfl⟩
    · exact .inr ⟨_, rfl⟩
    · cases h
  · cases h
    · exact .inl ⟨_, rfl⟩
    · exact .inr ⟨_, rfl⟩
  · cases h with
    | members h => exact not_reserved (by decide) h.ucv

/-- C72: exactly which bytes are read as which header. -/
theorem _root_.Verif.C72_header_read (D : Deps) (b : Bytes) (h : Header) :
    headerOfBytes D b = some h ↔ ∃ v, Document D b v ∧ Readable D v ∧ HeaderValue D v h := by
  refine decode_iff (fun i a h => ?_) (fun v a h => ?_) (fun m n hn a => (headerOfIpld_iff hn a).trans ⟨.members, fun h => by cases h; assumption⟩)
    (fun l n hn a => (headerOfIpld_list hn a).trans ⟨fun h => .elements h.1 h.2, fun h => by cases h; exact ⟨‹_›, ‹_›⟩⟩)
    (fun m a h => ?_) b h
  · unfold headerOfIpld at h
    split at h
    · exact .inl ⟨_, rfl⟩
    · exact .inr ⟨_, rfl⟩
    · cases h
  · cases h
    · exact .inl ⟨_, rfl⟩
    · exact .inr ⟨_, rfl⟩
  · cases h with
    | members h => exact not_reserved (by decide) h.alg

end Codec

/-! ## Tokens -/

theorem noDot_of_text {b t : Bytes} (h : BitText 6 base64url b t) : NoDot t := by
  rw [← (C69_base64_encode b t).2 h]
  exact Base64.encode_no_dot b

/-- C72: exactly which strings are read as which UCAN, from the characters up. -/
theorem C72_token (D : Deps) (t : String) (u : Ucan) : Ucan.fromStr D t = .ok u ↔ TokenText D (strBytes t) u := by
  unfold Ucan.fromStr
  rw [Ucan.ofBytes_ok_iff]
  constructor
  · rintro ⟨hb, pb, tail, ⟨h1, _, _, _, ht⟩, hh, hp, hd⟩
    obtain ⟨hm, h2, h3, h4⟩ := (C72_header_read D hb _).1 hh
    obtain ⟨pm, h5, h6, h7⟩ := (C72_payload_read D pb _).1 hp
    exact ⟨hb, pb, _, _, _, tail, hm, pm, h1, ht, (C69_base64_encode _ _).1 rfl, (C69_base64_encode _ _).1 rfl, (C69_base64_encode _ _).1 rfl,
      h2, h3, h4, h5, h6, h7, hd⟩
  · rintro ⟨hb, pb, htx, ptx, stx, tail, hm, pm, h1, ht, b1, b2, b3, h2, h3, h4, h5, h6, h7, hd⟩
    have e1 := (C69_base64_encode _ _).2 b1
    have e2 := (C69_base64_encode _ _).2 b2
    have e3 := (C69_base64_encode _ _).2 b3
    refine ⟨hb, pb, tail, ?_, (C72_header_read D hb _).2 ⟨hm, h2, h3, h4⟩, (C72_payload_read D pb _).2 ⟨pm, h5, h6, h7⟩, by rw [e1, e2]; exact hd⟩
    rw [e1, e2, e3]
    exact ⟨h1, noDot_of_text b1, noDot_of_text b2, noDot_of_text b3, ht⟩

/-! ## Writing -/

theorem ofList_of_mem {α : Type} {l m : List (String × α)} (hm : BMap.Sorted m) (hl : (l.map Prod.fst).Pairwise (· ≠ ·)) (h : ∀ e, e ∈ l ↔ e ∈ m) :
    BMap.ofList l = m := by
  have key : ∀ k v, Member l k v ↔ (k, v) ∈ l := by
    intro k v
    constructor
    · rintro ⟨a, b, rfl, _⟩; simp
    · intro hmem
      obtain ⟨a, b, rfl⟩ := List.append_of_mem hmem
      refine ⟨a, b, rfl, ?_⟩
      rw [List.map_append, List.pairwise_append, List.map_cons, List.pairwise_cons] at hl
      intro e he
      exact Ne.symm (hl.2.1.1 e.1 (List.mem_map_of_mem he))
  refine BMap.ext (BMap.sorted_ofList l) hm fun k => ?_
  cases h1 : BMap.get? (BMap.ofList l) k with
  | some v =>
    rw [get?_ofList_some, key, h] at h1
    exact (BMap.get?_of_mem hm h1).symm
  | none =>
    rw [get?_ofList_none] at h1
    symm
    rw [BMap.get?_eq_none_iff]
    exact fun e he => h1 e ((h e).2 he)

/-- C72: the header document. -/
theorem C72_header_document (h : Header) : Codec.headerJson h = headerDoc h := by
  unfold Codec.headerJson headerDoc
  rw [ofList_of_mem (m := [("alg", .str h.alg), ("typ", .str h.typ)])]
  · refine (List.pairwise_map (f := Prod.fst) (R := fun a b => OrdKey.lt a b = true)).1 ?_
    show List.Pairwise (fun a b => OrdKey.lt a b = true) ["alg", "typ"]
    decide +kernel
  · show List.Pairwise (· ≠ ·) ["alg", "typ"]
    decide +kernel
  · intro e; rfl

/-- C72: the payload document: which members there are, under which names, in which order. -/
theorem C72_payload_document (p : Payload) : Codec.payloadJson p = payloadDoc p := by
  obtain ⟨ucv, iss, aud, exp, nbf, nnc, cap, fct, prf⟩ := p
  unfold Codec.payloadJson payloadDoc
  rw [Json.obj.injEq]
  have he : Codec.optU64Json exp = (match exp with | none => Json.null | some n => .int n.toNat) := by cases exp <;> rfl
  refine ofList_of_mem ?_ ?_ ?_
  · refine (List.pairwise_map (f := Prod.fst) (R := fun a b => OrdKey.lt a b = true)).1 ?_
    cases nbf <;> cases nnc <;> cases fct <;> cases prf <;>
      simp only [unlessNone, List.map_cons, List.map_nil, List.nil_append, List.cons_append] <;> decide +kernel
  · cases nbf <;> cases nnc <;> cases fct <;> cases prf <;>
      simp only [Codec.payloadFields, Codec.optField, List.map_cons, List.map_nil, List.nil_append, List.cons_append] <;> decide +kernel
  · intro e
    have hopt : ∀ {α : Type} (k : String) (f : α → Json) (o : Option α), Codec.optField k f o = unlessNone k f o := by
      intro α k f o
      cases o <;> rfl
    simp only [Codec.payloadFields, he, hopt, List.mem_append, List.mem_cons, List.not_mem_nil, or_false]
    have hcaps : Codec.capsJson cap = capDoc cap := rfl
    have hu : (fun n : UInt64 => Json.int n.toNat) = Codec.u64Json := rfl
    rw [hcaps, hu]
    grind

theorem signedText_signingInput (D : Deps) (h : Header) (p : Payload) (hn : Json.NumOk D (payloadDoc p)) : SignedText D h p (Ucan.signingInput D h p) := by
  refine ⟨_, _, _, _, rfl, (C69_base64_encode _ _).1 rfl, (C69_base64_encode _ _).1 rfl, ?_, ?_⟩
  · unfold Codec.headerBytes
    rw [C72_header_document]
    exact C71_written D _ ⟨trivial, trivial, trivial⟩
  · unfold Codec.payloadBytes
    rw [C72_payload_document]
    exact C71_written D _ hn

/-- C72: the text of a UCAN: header document, payload document and signature. -/
theorem C72_written (D : Deps) (u : Ucan) (hn : Json.NumOk D (payloadDoc u.payload)) :
    ∃ t sg, strBytes (u.encode D) = t ++ 46 :: sg ∧ SignedText D u.header u.payload t ∧ BitText 6 base64url u.signature sg :=
  ⟨_, _, Ucan.strBytes_encode D u, signedText_signingInput D _ _ hn, (C69_base64_encode _ _).1 rfl⟩

/-- C72: what the builder has signed. -/
theorem C72_signed (D : Deps) (s : Signable) (rnd : Bytes) (u : Ucan) (h : s.sign D rnd = .ok u) (hn : Json.NumOk D (payloadDoc u.payload)) :
    SignedText D u.header u.payload u.signedData ∧ s.issuer.sign u.signedData = .ok u.signature := by
  obtain ⟨_, _, hd, hs⟩ := sign_ok h
  rw [hd] at hs ⊢
  exact ⟨signedText_signingInput D _ _ hn, hs⟩

/-! ## Consequences for readers -/

theorem optionally_congr {α : Type} {m m' : List (String × Json)} {k : String} {R : α → Json → Prop} (hm : ∀ v, Member m k v ↔ Member m' k v)
    (o : Option α) : Optionally m k R o ↔ Optionally m' k R o := by
  have ha : Absent m k ↔ Absent m' k := by
    rcases member_or_absent m k with h | ⟨v, h⟩
    · rcases member_or_absent m' k with h' | ⟨v', h'⟩
      · exact ⟨fun _ => h', fun _ => h⟩
      · exact absurd h ((hm v').2 h').not_absent
    · exact ⟨fun h' => absurd h' h.not_absent, fun h' => absurd h' ((hm v).1 h).not_absent⟩
  cases o with
  | none => simp only [Optionally, ha, hm]
  | some a => simp only [Optionally, hm]

/-- The names a payload reader looks at. -/
def payloadNames : List String := ["ucv", "iss", "aud", "exp", "nbf", "nnc", "cap", "fct", "prf"]

/-- C72: only the last value under each of nine names counts; other members and the order do not matter. -/
theorem C72_payload_names (D : Deps) (m m' : List (String × Json)) (h : ∀ k ∈ payloadNames, ∀ v, Member m k v ↔ Member m' k v) (p : Payload) :
    ReadsPayload D m p ↔ ReadsPayload D m' p := by
  have key : ∀ m m' : List (String × Json), (∀ k ∈ payloadNames, ∀ v, Member m k v ↔ Member m' k v) → ReadsPayload D m p → ReadsPayload D m' p := by
    intro m m' h r
    have n1 := h "ucv" (by decide); have n2 := h "iss" (by decide); have n3 := h "aud" (by decide)
    have n4 := h "exp" (by decide); have n5 := h "nbf" (by decide); have n6 := h "nnc" (by decide)
    have n7 := h "cap" (by decide); have n8 := h "fct" (by decide); have n9 := h "prf" (by decide)
    obtain ⟨w, hw, hr⟩ := r.cap
    exact ⟨(n1 _).1 r.ucv, (n2 _).1 r.iss, (n3 _).1 r.aud, (optionally_congr n4 _).1 r.exp, (optionally_congr n5 _).1 r.nbf,
      (optionally_congr n6 _).1 r.nnc, ⟨w, (n7 _).1 hw, hr⟩, (optionally_congr n8 _).1 r.fct, (optionally_congr n9 _).1 r.prf⟩
  exact ⟨key m m' h, key m' m fun k hk v => (h k hk v).symm⟩

theorem reads_functional (D : Deps) (w : Json) : ∀ v v', Reads D w v → Reads D w v' → v = v' := by
  induction w using Json.induct with
  | null => intro v v' h h'; cases h; cases h'; rfl
  | bool b => intro v v' h h'; cases h; cases h'; rfl
  | int b => intro v v' h h'; cases h; cases h'; rfl
  | float b => intro v v' h h'; cases h; cases h'; rfl
  | str b => intro v v' h h'; cases h; cases h'; rfl
  | arr l ih =>
    intro v v' h h'
    cases h with
    | @arr _ r hl hp =>
      cases h' with
      | @arr _ r' hl' hp' =>
        congr 1
        refine List.ext_getElem (hl.symm.trans hl') fun i h1 h2 => ?_
        have h0 : i < l.length := by omega
        exact ih l[i] (List.getElem_mem h0) _ _ (hp i _ _ (List.getElem?_eq_getElem h0) (List.getElem?_eq_getElem h1))
          (hp' i _ _ (List.getElem?_eq_getElem h0) (List.getElem?_eq_getElem h2))
  | obj m ih =>
    intro v v' h h'
    cases h with
    | @obj _ r _ _ hs ha hp =>
      cases h' with
      | @obj _ r' _ _ hs' ha' hp' =>
        congr 1
        refine BMap.ext hs hs' fun k => ?_
        rcases member_or_absent m k with h | ⟨x, hx⟩
        · rw [(absent_iff_get? r k).1 ((ha k).1 h), (absent_iff_get? r' k).1 ((ha' k).1 h)]
        · have hin : (k, x) ∈ m := by obtain ⟨a, b, rfl, _⟩ := hx; simp
          have h1 : ¬ Absent r k := fun h => hx.not_absent ((ha k).2 h)
          have h2 : ¬ Absent r' k := fun h => hx.not_absent ((ha' k).2 h)
          rw [absent_iff_get?] at h1 h2
          obtain ⟨y, hy⟩ := Option.ne_none_iff_exists'.1 h1
          obtain ⟨y', hy'⟩ := Option.ne_none_iff_exists'.1 h2
          rw [hy, hy', ih (k, x) hin y y' (hp k x y hx (BMap.mem_of_get? hy)) (hp' k x y' hx (BMap.mem_of_get? hy'))]

/-! ### Beside C72 -/

namespace Ex

/-- A token written by other software: members out of order, white space, a repeated name, an unknown name, an escape. -/
def foreignPayload : Bytes := strBytes
  "{\"iss\":\"did:key:zA\", \"aud\":\"did:key:zOld\", \"ext\":[{}], \"cap\":{\"mailto:a\":{\"msg/send\":[{}]}}, \"a\\u0075d\":\"did:key:zB\",\n \"ucv\":\"0.10.0-canary\", \"exp\":null}"

def foreignRead : Payload := ⟨"0.10.0-canary", "did:key:zA", "did:key:zB", none, none, none, [("mailto:a", [("msg/send", [.obj []])])], none, none⟩

theorem foreign_read : Codec.payloadOfBytes plainDeps foreignPayload = some foreignRead := by decide +kernel

/-- Its reading is as specified, although no writer of this library would produce the text. -/
example : (∃ v, Document plainDeps foreignPayload v ∧ Readable plainDeps v ∧ PayloadValue plainDeps v foreignRead) ∧
    Codec.payloadBytes plainDeps foreignRead ≠ foreignPayload :=
  ⟨(C72_payload_read _ _ _).1 foreign_read, by decide +kernel⟩

/-- Proofs given as DAG-JSON links are refused, and so are negative times, missing audiences and headers without type. -/
example : Codec.payloadOfBytes plainDeps (strBytes
      "{\"aud\":\"b\",\"cap\":{},\"iss\":\"a\",\"prf\":[{\"/\":\"bafkr4aih\"}],\"ucv\":\"0\"}") = none ∧
    Codec.payloadOfBytes plainDeps (strBytes "{\"aud\":\"b\",\"cap\":{},\"exp\":-1,\"iss\":\"a\",\"ucv\":\"0\"}") = none ∧
    Codec.payloadOfBytes plainDeps (strBytes "{\"cap\":{},\"exp\":1,\"iss\":\"a\",\"ucv\":\"0\"}") = none ∧
    Codec.headerOfBytes plainDeps (strBytes "{\"alg\":\"EdDSA\"}") = none := by decide +kernel

/-- The same payload as a list, where structs may be read from lists; one element short and it is refused. -/
example : Codec.payloadOfBytes plainDeps (strBytes "[\"0.10.0-canary\",\"did:key:zA\",\"did:key:zB\",null,null,null,{\"mailto:a\":{\"msg/send\":[{}]}},null,null]") =
      some foreignRead ∧
    Codec.payloadOfBytes plainDeps (strBytes "[\"0.10.0-canary\",\"did:key:zA\",\"did:key:zB\",null,null,null,{\"mailto:a\":{\"msg/send\":[{}]}},null]") = none ∧
    Codec.headerOfBytes plainDeps (strBytes "[\"EdDSA\",\"JWT\"]") = some ⟨"EdDSA", "JWT"⟩ := by decide +kernel

/-- What the builder writes for a payload with all members. -/
example : Codec.payloadBytes plainDeps ⟨"0.10.0-canary", "i", "a", some 7, some 3, some "n", [("r:x", [("a/b", [.obj []])])], some [("f", .bool true)], some ["p"]⟩ =
    strBytes "{\"aud\":\"a\",\"cap\":{\"r:x\":{\"a/b\":[{}]}},\"exp\":7,\"fct\":{\"f\":true},\"iss\":\"i\",\"nbf\":3,\"nnc\":\"n\",\"prf\":[\"p\"],\"ucv\":\"0.10.0-canary\"}" := by
  decide +kernel

/-- The demonstration token of C01 meets the hypotheses of the writing theorems. -/
example (D : Deps) (rnd : Bytes) : ∃ u, demoSignable.sign D rnd = .ok u ∧ SignedText D u.header u.payload u.signedData := by
  obtain ⟨u, hu⟩ := demo_sign D rnd
  refine ⟨u, hu, (C72_signed D _ rnd u hu ?_).1⟩
  rw [← C72_payload_document]
  exact (Codec.payloadJson_ok D _ (encodable_of_signable (demoSignable_ok D) (sign_ok hu).1)).1

end Ex

end Verif
