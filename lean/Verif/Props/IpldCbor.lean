import Verif.Model.IpldCbor
import Verif.Spec.IpldCbor
import Verif.Props.Cbor
import Verif.Props.Wire
import Verif.Props.Ipld

/-! # UCAN-IPLD in DAG-CBOR -/

namespace Verif

open Spec

theorem Ipld.induct {P : Ipld → Prop} (null : P .null) (bool : ∀ b, P (.bool b)) (int : ∀ i, P (.int i)) (float : ∀ f, P (.float f))
    (str : ∀ s, P (.str s)) (bytes : ∀ s, P (.bytes s)) (link : ∀ c, P (.link c)) (list : ∀ l, (∀ v ∈ l, P v) → P (.list l))
    (map : ∀ m, (∀ e ∈ m, P e.2) → P (.map m)) (v : Ipld) : P v := by
  refine @Ipld.rec P (fun l => ∀ v ∈ l, P v) (fun m => ∀ e ∈ m, P e.2) (fun e => P e.2) null bool int float str bytes list map link ?_ ?_ ?_ ?_ ?_ v
  · intro v h; cases h
  · intro v l h1 h2 w hw
    rcases List.mem_cons.1 hw with rfl | hw
    · exact h1
    · exact h2 w hw
  · intro e h; cases h
  · intro e m h1 h2 w hw
    rcases List.mem_cons.1 hw with rfl | hw
    · exact h1
    · exact h2 w hw
  · intro k v h
    exact h

namespace Cbor
open Codec (mapAll mapVals)

theorem toValueList_eq (l : List Ipld) : toValueList l = mapAll toValue l := by
  induction l with
  | nil => rfl
  | cons x l ih =>
    rw [toValueList, mapAll, ih]
    cases toValue x <;> cases mapAll toValue l <;> rfl

theorem toValueMembers_eq (m : List (String × Ipld)) : toValueMembers m = mapVals toValue m := by
  induction m with
  | nil => rfl
  | cons e m ih =>
    obtain ⟨k, x⟩ := e
    rw [toValueMembers, mapVals, mapAll, ih]
    cases toValue x <;> cases h : mapVals toValue m <;> simp [mapVals] at h <;> simp [h]

/-- Collecting the values of a map. -/
theorem collect_iff {α β : Type} (f : α → Option β) (u : List (String × α)) (m : List (String × β)) :
    (mapVals f u).map BMap.ofList = some m ↔ (∀ e ∈ u, ∃ y, f e.2 = some y) ∧ BMap.Sorted m ∧ (∀ k, Absent u k ↔ Absent m k) ∧
      ∀ k x y, Member u k x → (k, y) ∈ m → f x = some y := by
  have hex : (∃ r, mapVals f u = some r) ↔ ∀ e ∈ u, ∃ y, f e.2 = some y := by
    unfold mapVals
    rw [Codec.mapAll_isSome]
    constructor
    · intro h e he
      obtain ⟨y, hy⟩ := h e he
      rw [Option.map_eq_some_iff] at hy
      obtain ⟨z, hz, _⟩ := hy
      exact ⟨z, hz⟩
    · intro h e he
      obtain ⟨y, hy⟩ := h e he
      exact ⟨_, by rw [hy]; rfl⟩
  rw [Option.map_eq_some_iff]
  constructor
  · rintro ⟨r, hr, rfl⟩
    refine ⟨hex.1 ⟨r, hr⟩, BMap.sorted_ofList r, fun k => ?_, fun k x y hx hy => ?_⟩
    · rw [Codec.mapVals_absent hr, absent_iff_get? (BMap.ofList r), get?_ofList_none]
    · rw [← member_iff_mem (BMap.sorted_ofList r), ← get?_ofList_some, BMap.ofList_sorted (BMap.sorted_ofList r), get?_ofList_some,
        Codec.mapVals_member hr] at hy
      obtain ⟨x', hx', hy⟩ := hy
      rw [hx.unique hx']
      exact hy
  · rintro ⟨h1, hs, ha, hp⟩
    obtain ⟨r, hr⟩ := hex.2 h1
    refine ⟨r, hr, BMap.ext (BMap.sorted_ofList r) hs fun k => ?_⟩
    rcases member_or_absent u k with hk | ⟨x, hx⟩
    · rw [(get?_ofList_none r k).2 ((Codec.mapVals_absent hr k).1 hk), ((absent_iff_get? m k).1 ((ha k).1 hk))]
    · rcases member_or_absent m k with hk | ⟨y, hy⟩
      · exact absurd ((ha k).2 hk) hx.not_absent
      · have hy' := (member_iff_mem hs k y).1 hy
        rw [BMap.get?_of_mem hs hy', get?_ofList_some, Codec.mapVals_member hr]
        exact ⟨x, hx, hp k x y hx hy'⟩

theorem toValue_isSome (w : Ipld) : (∃ v, toValue w = some v) ↔ PlainTree w := by
  induction w using Ipld.induct with
  | null => exact ⟨fun _ => .null, fun _ => ⟨_, rfl⟩⟩
  | bool b => exact ⟨fun _ => .bool, fun _ => ⟨_, rfl⟩⟩
  | int i =>
    simp only [toValue]
    constructor
    · rintro ⟨v, h⟩
      split at h
      · rename_i hc; exact .int hc.1 hc.2
      · cases h
    · intro h
      cases h with
      | int h1 h2 => exact ⟨_, if_pos ⟨h1, h2⟩⟩
  | float f => exact ⟨fun _ => .float, fun _ => ⟨_, rfl⟩⟩
  | str s => exact ⟨fun _ => .str, fun _ => ⟨_, rfl⟩⟩
  | bytes s => exact ⟨by rintro ⟨_, h⟩; (cases h), fun h => by (cases h)⟩
  | link s => exact ⟨by rintro ⟨_, h⟩; (cases h), fun h => by (cases h)⟩
  | list l ih =>
    simp only [toValue, toValueList_eq, Option.map_eq_some_iff]
    constructor
    · rintro ⟨_, r, h, _⟩
      exact .list fun x hx => (ih x hx).1 ((Codec.mapAll_isSome _ _).1 ⟨r, h⟩ x hx)
    · intro h
      cases h with
      | list h =>
        obtain ⟨r, hr⟩ := (Codec.mapAll_isSome toValue l).2 fun x hx => (ih x hx).2 (h x hx)
        exact ⟨_, r, hr, rfl⟩
  | map m ih =>
    simp only [toValue, toValueMembers_eq]
    constructor
    · rintro ⟨_, h⟩
      rw [Option.map_eq_some_iff] at h
      obtain ⟨r, h, _⟩ := h
      exact .map fun e he => (ih e he).1 (((collect_iff toValue m (BMap.ofList r)).1 (by rw [h]; rfl)).1 e he)
    · intro h
      cases h with
      | map h =>
        obtain ⟨r, hr⟩ : ∃ r, mapVals toValue m = some r := (Codec.mapAll_isSome _ _).2 fun e he => by
          obtain ⟨y, hy⟩ := (ih e he).2 (h e he)
          exact ⟨_, by rw [hy]; rfl⟩
        exact ⟨_, by rw [hr]; rfl⟩

theorem toValue_iff (w : Ipld) : ∀ v, toValue w = some v ↔ Means w v := by
  induction w using Ipld.induct with
  | null => intro v; exact ⟨fun h => by (cases h; exact .null), fun h => by cases h; rfl⟩
  | bool b => intro v; exact ⟨fun h => by (cases h; exact .bool), fun h => by cases h; rfl⟩
  | int i =>
    intro v
    simp only [toValue]
    constructor
    · intro h
      split at h
      · rename_i hc; cases h; exact .int hc.1 hc.2
      · cases h
    · intro h
      cases h with
      | int h1 h2 => exact if_pos ⟨h1, h2⟩
  | float f => intro v; exact ⟨fun h => by (cases h; exact .float), fun h => by cases h; rfl⟩
  | str s => intro v; exact ⟨fun h => by (cases h; exact .str), fun h => by cases h; rfl⟩
  | bytes s => intro v; exact ⟨fun h => by (cases h), fun h => by (cases h)⟩
  | link s => intro v; exact ⟨fun h => by (cases h), fun h => by (cases h)⟩
  | list l ih =>
    intro v
    simp only [toValue, toValueList_eq, Option.map_eq_some_iff, Codec.mapAll_iff]
    constructor
    · rintro ⟨r, ⟨hl, hp⟩, rfl⟩
      exact .list hl fun i x y hx hy => (ih x (List.mem_of_getElem? hx) y).1 (hp i x y hx hy)
    · intro h
      cases h with
      | list hl hp => exact ⟨_, ⟨hl, fun i x y hx hy => (ih x (List.mem_of_getElem? hx) y).2 (hp i x y hx hy)⟩, rfl⟩
  | map m ih =>
    intro v
    have hin : ∀ {k : String} {x : Ipld}, Member m k x → (k, x) ∈ m := by
      rintro k x ⟨a, b, rfl, _⟩
      simp
    have e : toValue (.map m) = ((mapVals toValue m).map BMap.ofList).map .obj := by
      simp only [toValue, toValueMembers_eq, Option.map_map]
      rfl
    rw [e, Option.map_eq_some_iff]
    constructor
    · rintro ⟨r, h, rfl⟩
      obtain ⟨h1, h2, h3, h4⟩ := (collect_iff _ _ _).1 h
      exact .map (fun e he => (toValue_isSome _).1 (h1 e he)) h2 h3 fun k x y hx hy => (ih (k, x) (hin hx) y).1 (h4 k x y hx hy)
    · intro h
      cases h with
      | map h1 h2 h3 h4 =>
        exact ⟨_, (collect_iff _ _ _).2 ⟨fun e he => (toValue_isSome _).2 (h1 e he), h2, h3,
          fun k x y hx hy => (ih (k, x) (hin hx) y).2 (h4 k x y hx hy)⟩, rfl⟩

end Cbor

namespace UcanIpld
open Codec (mapAll mapVals asStr asU64 asList optVal reqVal)

theorem asBTree_iff {α : Type} {f : Ipld → Option α} {R : Ipld → α → Prop} (hf : ∀ w a, f w = some a ↔ R w a) (w : Ipld) (m : BMap String α) :
    asBTree f w = some m ↔ MapOf R w m := by
  unfold asBTree MapOf
  cases w with
  | map u =>
    simp only []
    rw [show mapAll (fun e : String × Ipld => (f e.2).map fun y => (e.1, y)) u = mapVals f u from rfl, Cbor.collect_iff]
    simp only [hf]
    constructor
    · intro h; exact ⟨u, rfl, h⟩
    · rintro ⟨u', e, h⟩; cases e; exact h
  | _ => exact ⟨fun h => by (cases h), by rintro ⟨_, h, _⟩; cases h⟩

theorem asList_iff {α : Type} {f : Ipld → Option α} {R : Ipld → α → Prop} (hf : ∀ w a, f w = some a ↔ R w a) (w : Ipld) (l : List α) :
    asList f w = some l ↔ ListOf R w l := by
  unfold asList ListOf
  cases w with
  | list u =>
    simp only [Codec.mapAll_iff, hf]
    constructor
    · intro h; exact ⟨u, rfl, h⟩
    · rintro ⟨u', e, h⟩; cases e; exact h
  | _ => exact ⟨fun h => by (cases h), by rintro ⟨_, h, _⟩; cases h⟩

theorem asStr_iff (w : Ipld) (s : String) : asStr w = some s ↔ w = .str s := by
  cases w <;> simp [asStr]

theorem asLink_iff (w : Ipld) (c : Cid) : asLink w = some c ↔ w = .link c := by
  cases w <;> simp [asLink]

theorem asU64_iff (w : Ipld) (n : UInt64) : asU64 w = some n ↔ w = .int n.toNat := by
  unfold asU64
  cases w with
  | int i =>
    simp only [Ipld.int.injEq]
    have := n.toNat_lt
    constructor
    · intro h
      split at h
      · cases h
        rw [UInt64.toNat_ofNat']
        omega
      · cases h
    · rintro rfl
      rw [if_pos (by omega)]
      simp
  | _ => simp

theorem asU8_iff (w : Ipld) (n : UInt8) : asU8 w = some n ↔ Octet w n := by
  unfold asU8 Octet
  cases w with
  | int i =>
    simp only [Ipld.int.injEq]
    have := n.toNat_lt
    constructor
    · intro h
      split at h
      · cases h
        rw [UInt8.toNat_ofNat']
        omega
      · cases h
    · rintro rfl
      rw [if_pos (by omega)]
      simp
  | _ => simp

theorem once_cons {α : Type} (m : List (String × α)) (k k' : String) (x v : α) :
    Once ((k', x) :: m) k v ↔ (k' = k ∧ x = v ∧ Absent m k) ∨ (k' ≠ k ∧ Once m k v) := by
  constructor
  · rintro ⟨a, b, e, ha, hb⟩
    cases a with
    | nil =>
      simp only [List.nil_append, List.cons.injEq, Prod.mk.injEq] at e
      obtain ⟨⟨rfl, rfl⟩, rfl⟩ := e
      exact Or.inl ⟨rfl, rfl, hb⟩
    | cons p a =>
      simp only [List.cons_append, List.cons.injEq] at e
      obtain ⟨rfl, rfl⟩ := e
      exact Or.inr ⟨ha (k', x) (by simp), a, b, rfl, fun e he => ha e (by simp [he]), hb⟩
  · rintro (⟨rfl, rfl, h⟩ | ⟨hne, a, b, rfl, ha, hb⟩)
    · exact ⟨[], m, rfl, by simp [Absent], h⟩
    · refine ⟨(k', x) :: a, b, rfl, ?_, hb⟩
      intro e he
      rcases List.mem_cons.1 he with rfl | he
      · exact hne
      · exact ha e he

theorem filter_nil_iff (m : List (String × Ipld)) (k : String) : m.filter (fun e => e.1 == k) = [] ↔ Absent m k := by
  simp [List.filter_eq_nil_iff, Absent]

theorem filter_one_iff (m : List (String × Ipld)) (k : String) (w : Ipld) : (∃ k', m.filter (fun e => e.1 == k) = [(k', w)]) ↔ Once m k w := by
  induction m with
  | nil => simp [Once]
  | cons e m ih =>
    obtain ⟨k', x⟩ := e
    rw [once_cons, ← ih, ← filter_nil_iff]
    by_cases hk : k' = k
    · subst hk
      simp
    · simp [hk]

theorem field_none (m : List (String × Ipld)) (k : String) : field m k = some none ↔ Absent m k := by
  rw [← filter_nil_iff]
  unfold field
  split
  · rename_i h; rw [h]; simp
  · rename_i h; rw [h]; simp
  · rename_i h _; simp only [reduceCtorEq, false_iff]; exact h

theorem field_some (m : List (String × Ipld)) (k : String) (w : Ipld) : field m k = some (some w) ↔ Once m k w := by
  rw [← filter_one_iff]
  unfold field
  split
  · rename_i h; rw [h]; simp
  · rename_i e he
    obtain ⟨k', x⟩ := e
    simp [he]
  · rename_i h1 h2
    simp only [reduceCtorEq, false_iff]
    rintro ⟨k', h⟩
    exact h2 _ h

theorem req_iff {α : Type} {f : Ipld → Option α} {R : Ipld → α → Prop} (hf : ∀ w a, f w = some a ↔ R w a) (m : List (String × Ipld)) (k : String) (a : α) :
    (field m k).bind (reqVal f) = some a ↔ ∃ w, Once m k w ∧ R w a := by
  rw [Option.bind_eq_some_iff]
  constructor
  · rintro ⟨o, h1, h2⟩
    cases o with
    | none => cases h2
    | some w => exact ⟨w, (field_some m k w).1 h1, (hf w a).1 h2⟩
  · rintro ⟨w, h1, h2⟩
    exact ⟨some w, (field_some m k w).2 h1, (hf w a).2 h2⟩

theorem opt_iff {α : Type} {f : Ipld → Option α} {R : Ipld → α → Prop} (hf : ∀ w a, f w = some a ↔ R w a) (hnull : f .null = none)
    (m : List (String × Ipld)) (k : String) (o : Option α) : (field m k).bind (optVal f) = some o ↔ MaybeOnce m k R o := by
  have e : ∀ i : Ipld, i ≠ .null → optVal f (some i) = (f i).map some := by
    intro i hi
    cases i <;> first | rfl | exact absurd rfl hi
  rw [Option.bind_eq_some_iff]
  constructor
  · rintro ⟨q, h1, h2⟩
    cases q with
    | none =>
      cases h2
      exact Or.inl ((field_none m k).1 h1)
    | some w =>
      rw [field_some] at h1
      by_cases hw : w = .null
      · subst hw
        cases h2
        exact Or.inr h1
      · rw [e w hw, Option.map_eq_some_iff] at h2
        obtain ⟨a, h2, rfl⟩ := h2
        exact ⟨w, h1, (hf w a).1 h2⟩
  · intro h
    cases o with
    | none =>
      rcases h with h | h
      · exact ⟨none, (field_none m k).2 h, rfl⟩
      · exact ⟨some .null, (field_some m k .null).2 h, rfl⟩
    | some a =>
      obtain ⟨w, h1, h2⟩ := h
      refine ⟨some w, (field_some m k w).2 h1, ?_⟩
      have h2' := (hf w a).2 h2
      have hw : w ≠ .null := by rintro rfl; rw [hnull] at h2'; cases h2'
      rw [e w hw, h2']
      rfl

theorem ofTree_iff (m : List (String × Ipld)) (x : UcanIpld) : ofTree (.map m) = some x ↔ ReadsUcanIpld m x := by
  have hb := asList_iff asU8_iff
  have hc := asBTree_iff (asBTree_iff (asList_iff Cbor.toValue_iff))
  constructor
  · intro h
    simp only [ofTree] at h
    split at h
    · rename_i h1 h2 h3 h4 h5 h6 h7 h8 h9 h10
      cases h
      rw [req_iff asStr_iff] at h1
      rw [req_iff hb] at h2 h3 h4
      rw [req_iff hc] at h5
      rw [opt_iff (asList_iff asLink_iff) rfl] at h6
      rw [opt_iff asU64_iff rfl] at h7 h10
      rw [opt_iff (asBTree_iff Cbor.toValue_iff) rfl] at h8
      rw [opt_iff asStr_iff rfl] at h9
      obtain ⟨w, h1, rfl⟩ := h1
      exact ⟨h1, h2, h3, h4, h5, h6, h7, h8, h9, h10⟩
    · cases h
  · rintro ⟨h1, h2, h3, h4, h5, h6, h7, h8, h9, h10⟩
    simp only [ofTree]
    rw [(req_iff asStr_iff m "v" x.v).2 ⟨_, h1, rfl⟩, (req_iff hb m "iss" _).2 h2, (req_iff hb m "aud" _).2 h3, (req_iff hb m "s" _).2 h4,
      (req_iff hc m "cap" _).2 h5, (opt_iff (asList_iff asLink_iff) rfl m "prf" _).2 h6, (opt_iff asU64_iff rfl m "exp" _).2 h7,
      (opt_iff (asBTree_iff Cbor.toValue_iff) rfl m "fct" _).2 h8, (opt_iff asStr_iff rfl m "nnc" _).2 h9, (opt_iff asU64_iff rfl m "nbf" _).2 h10]

/-! ## Reading what was written -/

theorem treesOf_eq (l : List Json) : treesOf l = l.map treeOf := by
  induction l with
  | nil => rfl
  | cons x l ih => simp [treesOf, ih]

theorem treesOfMembers_eq (m : List (String × Json)) : treesOfMembers m = m.map fun e => (e.1, treeOf e.2) := by
  induction m with
  | nil => rfl
  | cons e m ih => obtain ⟨k, x⟩ := e; simp [treesOfMembers, ih]

theorem embed_eq (j : Json) : DagJson.embed j = treeOf j := by
  induction j using Json.induct with
  | arr l ih =>
    simp only [DagJson.embed, treeOf, DagJson.embedList_eq_map, treesOf_eq]
    congr 1
    exact List.map_congr_left ih
  | obj m ih =>
    simp only [DagJson.embed, treeOf, DagJson.embedMembers_eq_map, treesOfMembers_eq]
    congr 1
    exact List.map_congr_left fun e he => by rw [ih e he]
  | _ => rfl

theorem reorderedItems_iff (l l' : List Ipld) : ReorderedItems l l' ↔ l'.length = l.length ∧ ∀ (i : Nat) x y, l[i]? = some x → l'[i]? = some y → Reordered x y := by
  induction l generalizing l' with
  | nil => simp [ReorderedItems]
  | cons x l ih =>
    simp only [ReorderedItems, ih]
    constructor
    · rintro ⟨y, ys, rfl, hxy, hl, hp⟩
      refine ⟨by simp [hl], fun i a b ha hb => ?_⟩
      cases i with
      | zero => simp at ha hb; subst ha; subst hb; exact hxy
      | succ i => exact hp i a b (by simpa using ha) (by simpa using hb)
    · rintro ⟨hl, hp⟩
      cases l' with
      | nil => simp at hl
      | cons y ys =>
        exact ⟨y, ys, rfl, hp 0 x y (by simp) (by simp), by simpa using hl, fun i a b ha hb => hp (i + 1) a b (by simpa using ha) (by simpa using hb)⟩

theorem reorderedEntries_mem {m m' : List (String × Ipld)} (h : ReorderedEntries m m') :
    (∀ k y, (k, y) ∈ m' → ∃ x, (k, x) ∈ m ∧ Reordered x y) ∧ ∀ k, Absent m k ↔ Absent m' k := by
  induction m generalizing m' with
  | nil => rw [show m' = [] from h]; simp
  | cons e m ih =>
    obtain ⟨k, x⟩ := e
    obtain ⟨y, ys, rfl, hxy, h⟩ := h
    obtain ⟨h1, h2⟩ := ih h
    refine ⟨?_, fun k' => ?_⟩
    · intro k' y' hm
      rcases List.mem_cons.1 hm with e | hm
      · cases e
        exact ⟨x, by simp, hxy⟩
      · obtain ⟨x', hx', hr⟩ := h1 k' y' hm
        exact ⟨x', by simp [hx'], hr⟩
    · have := h2 k'
      simp only [Absent, List.mem_cons, forall_eq_or_imp] at this ⊢
      rw [this]

theorem absent_perm {α : Type} {u m : List (String × α)} (h : u.Perm m) (k : String) : Absent u k ↔ Absent m k := by
  unfold Absent
  constructor
  · intro ha e he; exact ha e (h.mem_iff.2 he)
  · intro ha e he; exact ha e (h.mem_iff.1 he)

theorem member_mem {α : Type} {m : List (String × α)} {k : String} {x : α} (h : Member m k x) : (k, x) ∈ m := by
  obtain ⟨a, b, rfl, _⟩ := h
  simp

theorem listOf_reordered {α : Type} {R : Ipld → α → Prop} {g : α → Ipld} {l : List α} (h : ∀ a ∈ l, ∀ x, Reordered (g a) x → R x a) {w : Ipld}
    (hw : Reordered (.list (l.map g)) w) : ListOf R w l := by
  obtain ⟨u, rfl, hu⟩ := hw
  obtain ⟨hl, hp⟩ := (reorderedItems_iff _ _).1 hu
  refine ⟨u, rfl, by simpa using hl, fun i x a hx ha => h a (List.mem_of_getElem? ha) x (hp i (g a) x ?_ hx)⟩
  rw [List.getElem?_map, ha]
  rfl

theorem mapOf_reordered {α : Type} {R : Ipld → α → Prop} {g : α → Ipld} {m : List (String × α)} (hs : BMap.Sorted m)
    (h : ∀ e ∈ m, ∀ x, Reordered (g e.2) x → R x e.2) {w : Ipld} (hw : Reordered (.map (m.map fun e => (e.1, g e.2))) w) : MapOf R w m := by
  obtain ⟨m', u, rfl, hp, hr⟩ := hw
  obtain ⟨h1, h2⟩ := reorderedEntries_mem hr
  have key : ∀ k x, (k, x) ∈ u → ∃ a, (k, a) ∈ m ∧ R x a := by
    intro k x hx
    obtain ⟨y, hy, hr⟩ := h1 k x (hp.mem_iff.1 hx)
    obtain ⟨e, he, e'⟩ := List.mem_map.1 hy
    cases e'
    exact ⟨e.2, he, h e he x hr⟩
  refine ⟨u, rfl, ?_, hs, fun k => ?_, ?_⟩
  · rintro ⟨k, x⟩ he
    obtain ⟨a, _, ha⟩ := key k x he
    exact ⟨a, ha⟩
  · rw [absent_perm hp, ← h2]
    unfold Absent
    constructor
    · intro ha e he; exact ha (e.1, g e.2) (List.mem_map.2 ⟨e, he, rfl⟩)
    · intro ha e he
      obtain ⟨a, ha', rfl⟩ := List.mem_map.1 he
      exact ha a ha'
  · intro k x a hx ha
    obtain ⟨a', ha', hr⟩ := key k x (member_mem hx)
    have e1 := BMap.get?_of_mem hs ha
    rw [BMap.get?_of_mem hs ha'] at e1
    cases e1
    exact hr

theorem soundMembers_iff (m : List (String × Json)) : SoundMembers m ↔ ∀ e ∈ m, Fits (strBytes e.1).length ∧ SoundValue e.2 := by
  induction m with
  | nil => simp [SoundMembers]
  | cons p m ih => obtain ⟨k, x⟩ := p; simp [SoundMembers, ih, and_assoc]

theorem soundValues_iff (m : List Json) : SoundValues m ↔ ∀ x ∈ m, SoundValue x := by
  induction m with
  | nil => simp [SoundValues]
  | cons p m ih => simp [SoundValues, ih]

theorem means_reordered (j : Json) (hj : SoundValue j) : ∀ w, Reordered (treeOf j) w → Means w j := by
  induction j using Json.induct with
  | null => rintro w rfl; exact .null
  | bool b => rintro w rfl; exact .bool
  | int i => rintro w rfl; exact .int hj.1 hj.2
  | float f => rintro w rfl; exact .float
  | str s => rintro w rfl; exact .str
  | arr l ih =>
    intro w hw
    rw [treeOf, treesOf_eq] at hw
    obtain ⟨u, rfl, hl, hp⟩ := listOf_reordered (R := Means) (fun a ha x hx => ih a ha ((soundValues_iff l).1 hj.2 a ha) x hx) hw
    exact .list hl hp
  | obj m ih =>
    intro w hw
    rw [treeOf, treesOfMembers_eq] at hw
    obtain ⟨u, rfl, h1, h2, h3, h4⟩ := mapOf_reordered (R := Means) hj.2.1
      (fun e he x hx => ih e he ((soundMembers_iff m).1 hj.2.2 e he).2 x hx) hw
    refine .map (fun e he => ?_) h2 h3 h4
    obtain ⟨a, ha⟩ := h1 e he
    exact (Cbor.toValue_isSome _).1 ⟨a, (Cbor.toValue_iff _ _).2 ha⟩

theorem treeOf_caps (c : Capabilities) : treeOf (capDoc c) = .map (c.map fun r => (r.1, .map (r.2.map fun a => (a.1, .list (a.2.map treeOf))))) := by
  simp only [capDoc, treeOf, treesOfMembers_eq, treesOf_eq, List.map_map, Function.comp_def]

theorem caps_reordered (c : Capabilities) (h : SoundValue (capDoc c)) (w : Ipld) (hw : Reordered (treeOf (capDoc c)) w) :
    MapOf (MapOf (ListOf Means)) w c := by
  rw [treeOf_caps] at hw
  obtain ⟨_, hs, hm⟩ := h
  have hm := (soundMembers_iff _).1 hm
  refine mapOf_reordered (g := fun r : BMap String (List Json) => Ipld.map (r.map fun a => (a.1, .list (a.2.map treeOf)))) (List.pairwise_map.1 hs) ?_ hw
  intro r hr x hx
  have h1 := (hm _ (List.mem_map.2 ⟨r, hr, rfl⟩)).2
  obtain ⟨_, hs1, hm1⟩ := h1
  have hm1 := (soundMembers_iff _).1 hm1
  refine mapOf_reordered (g := fun l : List Json => Ipld.list (l.map treeOf)) (List.pairwise_map.1 hs1) ?_ hx
  intro a ha y hy
  have h2 := (hm1 _ (List.mem_map.2 ⟨a, ha, rfl⟩)).2
  exact listOf_reordered (fun j hj z hz => means_reordered j ((soundValues_iff _).1 h2.2 j hj) z hz) hy

theorem octets_reordered (b : Bytes) (w : Ipld) (hw : Reordered (octets b) w) : ListOf Octet w b :=
  listOf_reordered (g := fun x : UInt8 => Ipld.int x.toNat) (fun _ _ _ h => h) hw

theorem once_of_perm {u m : List (String × Ipld)} (hp : u.Perm m) (hd : m.Pairwise fun a b => a.1 ≠ b.1) {k : String} {x : Ipld} (h : (k, x) ∈ m) :
    Once u k x := by
  have hd' : u.Pairwise fun a b => a.1 ≠ b.1 := (hp.pairwise_iff (fun h => h.symm)).2 hd
  obtain ⟨a, b, rfl⟩ := List.append_of_mem (hp.mem_iff.2 h)
  obtain ⟨_, h2, h3⟩ := List.pairwise_append.1 hd'
  obtain ⟨h4, _⟩ := List.pairwise_cons.1 h2
  exact ⟨a, b, rfl, fun e he => h3 e he (k, x) (by simp), fun e he => (h4 e he).symm⟩

theorem maybeOnce_reordered {α : Type} {R : Ipld → α → Prop} {f : α → Ipld} {u : List (String × Ipld)} {k : String} {y : Ipld} (ho : Once u k y) (o : Option α)
    (hf : ∀ a, o = some a → ∀ x, Reordered (f a) x → R x a) (h : Reordered (orNull f o) y) : MaybeOnce u k R o := by
  cases o with
  | none =>
    have : y = .null := h
    subst this
    exact Or.inr ho
  | some a => exact ⟨y, ho, hf a rfl y h⟩

theorem reads_doc (x : UcanIpld) (hx : SoundUcanIpld x) (w : Ipld) (hw : Reordered (ucanIpldDoc x) w) : ∃ u, w = .map u ∧ ReadsUcanIpld u x := by
  obtain ⟨m', u, rfl, hp, h⟩ := hw
  obtain ⟨y1, _, rfl, h1, y2, _, rfl, h2, y3, _, rfl, h3, y4, _, rfl, h4, y5, _, rfl, h5, y6, _, rfl, h6, y7, _, rfl, h7, y8, _, rfl, h8,
    y9, _, rfl, h9, y10, _, rfl, h10, h⟩ := h
  rw [h] at hp
  have hd : [("s", y1), ("v", y2), ("aud", y3), ("cap", y4), ("exp", y5), ("fct", y6), ("iss", y7), ("nbf", y8), ("nnc", y9), ("prf", y10)].Pairwise
      fun a b => a.1 ≠ b.1 := by simp
  refine ⟨u, rfl, ?_⟩
  have once : ∀ {k y}, (k, y) ∈ [("s", y1), ("v", y2), ("aud", y3), ("cap", y4), ("exp", y5), ("fct", y6), ("iss", y7), ("nbf", y8), ("nnc", y9), ("prf", y10)] →
      Once u k y := fun hm => once_of_perm hp hd hm
  have h2' : y2 = .str x.v := h2
  refine ⟨once (by simp [h2']), ⟨y7, once (by simp), octets_reordered _ _ h7⟩, ⟨y3, once (by simp), octets_reordered _ _ h3⟩,
    ⟨y1, once (by simp), octets_reordered _ _ h1⟩, ⟨y4, once (by simp), caps_reordered _ hx.cap _ h4⟩, ?_, ?_, ?_, ?_, ?_⟩
  · exact maybeOnce_reordered (once (y := y10) (by simp)) x.prf
      (fun l _ w hw => listOf_reordered (g := Ipld.link) (fun _ _ _ h => h) hw) h10
  · exact maybeOnce_reordered (f := fun n : UInt64 => .int n.toNat) (once (y := y5) (by simp)) x.exp (fun _ _ _ h => h) h5
  · refine maybeOnce_reordered (once (y := y6) (by simp)) x.fct (fun f hf w hw => ?_) h6
    have hs := hx.fct f hf
    rw [treeOf, treesOfMembers_eq] at hw
    exact mapOf_reordered hs.2.1 (fun e he z hz => means_reordered e.2 ((soundMembers_iff _).1 hs.2.2 e he).2 z hz) hw
  · exact maybeOnce_reordered (f := Ipld.str) (once (y := y9) (by simp)) x.nnc (fun _ _ _ h => h) h9
  · exact maybeOnce_reordered (f := fun n : UInt64 => .int n.toNat) (once (y := y8) (by simp)) x.nbf (fun _ _ _ h => h) h8

/-! ## Writing -/

theorem storableItems_iff (l : List Ipld) : StorableItems l ↔ ∀ x ∈ l, Storable x := by
  induction l with
  | nil => simp [StorableItems]
  | cons x l ih => simp [StorableItems, ih]

theorem storable_tree (j : Json) (h : SoundValue j) : Storable (treeOf j) := by
  induction j using Json.induct with
  | null => trivial
  | bool b => trivial
  | int i => exact ⟨by have := h.1; omega, h.2⟩
  | float f => exact h
  | str s => exact h
  | arr l ih =>
    rw [treeOf, treesOf_eq]
    refine ⟨by simpa using h.1, (storableItems_iff _).2 fun x hx => ?_⟩
    obtain ⟨y, hy, rfl⟩ := List.mem_map.1 hx
    exact ih y hy ((soundValues_iff l).1 h.2 y hy)
  | obj m ih =>
    rw [treeOf, treesOfMembers_eq]
    refine ⟨by simpa using h.1, ?_, (Cbor.storableEntries_iff _).2 fun x hx => ?_⟩
    · exact List.pairwise_map.2 (h.2.1.imp fun h => OrdKey.ne_of_lt h)
    · obtain ⟨y, hy, rfl⟩ := List.mem_map.1 hx
      have := (soundMembers_iff m).1 h.2.2 y hy
      exact ⟨this.1, ih y hy this.2⟩

theorem storable_octets (b : Bytes) (h : Fits b.length) : Storable (octets b) := by
  refine ⟨by simpa using h, (storableItems_iff _).2 fun x hx => ?_⟩
  obtain ⟨y, _, rfl⟩ := List.mem_map.1 hx
  have := y.toNat_lt
  exact ⟨by omega, by omega⟩

theorem storable_orNull {α : Type} (f : α → Ipld) (o : Option α) (h : ∀ a, o = some a → Storable (f a)) : Storable (orNull f o) := by
  cases o with
  | none => trivial
  | some a => exact h a rfl

theorem storable_u64 (n : UInt64) : Storable (.int n.toNat) := by
  have := n.toNat_lt
  exact ⟨by omega, by omega⟩

theorem storable_doc (x : UcanIpld) (h : SoundUcanIpld x) : Storable (ucanIpldDoc x) := by
  have hk : ∀ k : String, (strBytes k).length ≤ 3 → Fits (strBytes k).length := fun k h => by unfold Fits; omega
  refine ⟨by simp [Fits], by simp, ?_⟩
  refine ⟨hk _ (by decide), storable_octets _ h.s, hk _ (by decide), h.v, hk _ (by decide), storable_octets _ h.aud, hk _ (by decide),
    storable_tree _ h.cap, hk _ (by decide), storable_orNull _ _ fun n _ => storable_u64 n, hk _ (by decide), storable_orNull _ _ fun f hf => storable_tree _ (h.fct f hf),
    hk _ (by decide), storable_octets _ h.iss, hk _ (by decide), storable_orNull _ _ fun n _ => storable_u64 n, hk _ (by decide), storable_orNull _ _ fun s hs => h.nnc s hs,
    hk _ (by decide), storable_orNull _ _ fun l hl => ?_, trivial⟩
  refine ⟨by simpa using (h.prf l hl).1, (storableItems_iff _).2 fun y hy => ?_⟩
  obtain ⟨c, hc, rfl⟩ := List.mem_map.1 hy
  exact (h.prf l hl).2 c hc

theorem fields_perm (x : UcanIpld) : ∃ m, ucanIpldDoc x = .map m ∧ m.Perm (fields x) := by
  refine ⟨_, rfl, ?_⟩
  have e1 : ∀ b, bytesIpld b = octets b := fun _ => rfl
  have e2 : ∀ {α : Type} (f : α → Ipld) (o : Option α), optIpld f o = orNull f o := by intro α f o; cases o <;> rfl
  have e3 : DagJson.embed (Codec.capsJson x.cap) = treeOf (capDoc x.cap) := embed_eq _
  have e4 : (fun f : Facts => DagJson.embed (.obj f)) = fun f => treeOf (.obj f) := funext fun f => embed_eq _
  unfold fields
  rw [e1, e1, e1, e2, e2, e2, e2, e2, e3, e4]
  refine (List.perm_ext_iff_of_nodup ?_ ?_).2 fun a => ?_
  · simp
  · simp
  · simp only [List.mem_cons, List.not_mem_nil, or_false]
    grind

theorem dag_perm {p : Bytes} {m m' : List (String × Ipld)} (h : DagCbor p (.map m)) (hp : m.Perm m') : DagCbor p (.map m') := by
  cases h with
  | map hh hw hs he => exact .map (by rw [← hp.length_eq]; exact hh) (hw.trans hp) hs he

end UcanIpld

/-! ## C73 -/

open UcanIpld in
/-- C73: the bytes of a UCAN-IPLD value: the one DAG-CBOR form of its document. -/
theorem C73_document (x : UcanIpld) (h : SoundUcanIpld x) (p : Bytes) : DagCbor p (ucanIpldDoc x) ↔ p = x.toCbor := by
  obtain ⟨m, e, hp⟩ := fields_perm x
  have hst := storable_doc x h
  rw [C73_written _ hst]
  have hd := (C73_written _ hst _).2 rfl
  rw [e] at hd
  have h1 := ((Cbor.dag_iff _ _).1 (dag_perm hd hp)).2
  rw [e, h1]
  rfl

open UcanIpld in
/-- C73: exactly which bytes are read as which UCAN-IPLD value. -/
theorem C73_ucan_read (limit : Nat) (b : Bytes) (x : UcanIpld) :
    UcanIpld.ofCbor limit b = some x ↔ ∃ m, Spec.Cbor b (.map m) ∧ nesting (.map m) < limit ∧ ReadsUcanIpld m x := by
  unfold ofCbor
  rw [Option.bind_eq_some_iff]
  constructor
  · rintro ⟨w, h1, h2⟩
    rw [C73_read] at h1
    cases w with
    | map m => exact ⟨m, h1.1, h1.2, (ofTree_iff m x).1 h2⟩
    | _ => cases h2
  · rintro ⟨m, h1, h2, h3⟩
    exact ⟨.map m, (C73_read ..).2 ⟨h1, h2⟩, (ofTree_iff m x).2 h3⟩

open UcanIpld in
/-- C73: what is written is read back. -/
theorem C73_round_trip (limit : Nat) (x : UcanIpld) (h : SoundUcanIpld x) (hn : nesting (ucanIpldDoc x) < limit) :
    UcanIpld.ofCbor limit x.toCbor = some x := by
  obtain ⟨w, h1, h2⟩ := C73_value_round_trip limit _ (storable_doc x h) hn
  obtain ⟨u, rfl, hu⟩ := reads_doc x h w h2
  have e : Cbor.encode (ucanIpldDoc x) = x.toCbor := (C73_document x h _).1 ((C73_written _ (storable_doc x h) _).2 rfl)
  rw [e, C73_read] at h1
  exact (C73_ucan_read ..).2 ⟨u, h1.1, h1.2, hu⟩

/-- C73: different values have different bytes. -/
theorem C73_injective (x y : UcanIpld) (hx : SoundUcanIpld x) (hy : SoundUcanIpld y) (h : x.toCbor = y.toCbor) : x = y := by
  have h1 := C73_round_trip (max (nesting (ucanIpldDoc x)) (nesting (ucanIpldDoc y)) + 1) x hx (by omega)
  have h2 := C73_round_trip (max (nesting (ucanIpldDoc x)) (nesting (ucanIpldDoc y)) + 1) y hy (by omega)
  rw [h, h2] at h1
  exact (Option.some.inj h1).symm

/-- C73: a token travels as DAG-CBOR and comes back with the same text. -/
theorem C73_token (D : Deps) (limit : Nat) (u : Ucan) (hp : Portable D u) (hl : u.signature.length < 2 ^ 64)
    (hs : ∀ x, UcanIpld.ofUcan D u = .ok x → SoundUcanIpld x ∧ nesting (ucanIpldDoc x) < limit) :
    ∃ x x' u', UcanIpld.ofUcan D u = .ok x ∧ UcanIpld.ofCbor limit x.toCbor = some x' ∧ UcanIpld.toUcan D x' = .ok u' ∧ u'.encode D = u.encode D := by
  obtain ⟨x, h1, h2⟩ := C47_round_trip D u hp hl
  obtain ⟨h3, h4⟩ := hs x h1
  exact ⟨x, x, _, h1, C73_round_trip limit x h3 h4, h2, C47_encode D u _ x hp hl h1 h2⟩

/-! ### Concrete cases -/

/-- A small document with a capability, a proof and an expiry. -/
def smallIpld : UcanIpld :=
  ⟨"0.10", ⟨[0xed, 1]⟩, ⟨[7]⟩, ⟨[9, 8]⟩, [("m:a", [("x/y", [.obj [("b", .int (-3))]])])], some [⟨true, 0x55, 0x1e, [1, 2]⟩], some 300, none, some "n", none⟩

instance (n : Nat) : Decidable (Fits n) := inferInstanceAs (Decidable (_ < _))

theorem smallIpld_sound : SoundUcanIpld smallIpld where
  v := by decide +kernel
  iss := by decide +kernel
  aud := by decide +kernel
  s := by decide +kernel
  cap := by
    simp only [smallIpld, capDoc, List.map, SoundValue, SoundMembers, SoundValues]
    exact ⟨by decide +kernel, by simp [BMap.Sorted], by decide +kernel, ⟨by decide +kernel, by simp [BMap.Sorted], by decide +kernel,
      ⟨by decide +kernel, ⟨by decide +kernel, by simp [BMap.Sorted], by decide +kernel, by decide, trivial⟩, trivial⟩, trivial⟩, trivial⟩
  prf := by
    intro l h
    simp only [smallIpld, Option.some.injEq] at h
    subst h
    refine ⟨by decide, fun c hc => ?_⟩
    rw [List.mem_singleton] at hc
    subst hc
    exact ⟨by decide, fun h => by cases h⟩
  fct := by intro f h; simp [smallIpld] at h
  nnc := by
    intro s h
    simp only [smallIpld, Option.some.injEq] at h
    subst h
    decide +kernel

/-- Its bytes, entry by entry. -/
theorem smallIpld_bytes : smallIpld.toCbor =
    [0xaa] ++ [0x61, 0x73, 0x82, 0x09, 0x08] ++ [0x61, 0x76, 0x64, 0x30, 0x2e, 0x31, 0x30] ++ [0x63, 0x61, 0x75, 0x64, 0x81, 0x07]
      ++ [0x63, 0x63, 0x61, 0x70, 0xa1, 0x63, 0x6d, 0x3a, 0x61, 0xa1, 0x63, 0x78, 0x2f, 0x79, 0x81, 0xa1, 0x61, 0x62, 0x22]
      ++ [0x63, 0x65, 0x78, 0x70, 0x19, 0x01, 0x2c] ++ [0x63, 0x66, 0x63, 0x74, 0xf6] ++ [0x63, 0x69, 0x73, 0x73, 0x82, 0x18, 0xed, 0x01]
      ++ [0x63, 0x6e, 0x62, 0x66, 0xf6] ++ [0x63, 0x6e, 0x6e, 0x63, 0x61, 0x6e]
      ++ [0x63, 0x70, 0x72, 0x66, 0x81, 0xd8, 0x2a, 0x47, 0x00, 0x01, 0x55, 0x1e, 0x02, 0x01, 0x02] := by decide +kernel

example : UcanIpld.ofCbor 128 smallIpld.toCbor = some smallIpld :=
  C73_round_trip 128 smallIpld smallIpld_sound (by decide +kernel)

/-- A foreign document: other order, lengths and numbers in longer forms than needed, an extra entry, no null entries. -/
def foreignIpld : Bytes :=
  [0xb8, 0x06] ++ [0x61, 0x76, 0x78, 0x01, 0x31] ++ [0x61, 0x7a, 0xf5] ++ [0x61, 0x73, 0x80] ++ [0x63, 0x69, 0x73, 0x73, 0x81, 0x18, 0x07]
    ++ [0x63, 0x61, 0x75, 0x64, 0x81, 0x19, 0x00, 0x08] ++ [0x63, 0x63, 0x61, 0x70, 0xa0]

example : UcanIpld.ofCbor 128 foreignIpld = some ⟨"1", ⟨[7]⟩, ⟨[8]⟩, ⟨[]⟩, [], none, none, none, none, none⟩ := by decide +kernel

/-- The same with the version given twice is refused, and so is a byte string in place of the array of numbers. -/
example : UcanIpld.ofCbor 128 ([0xa6] ++ [0x61, 0x76, 0x61, 0x31] ++ [0x61, 0x76, 0x61, 0x31] ++ [0x61, 0x73, 0x80] ++ [0x63, 0x69, 0x73, 0x73, 0x81, 0x07]
    ++ [0x63, 0x61, 0x75, 0x64, 0x81, 0x08] ++ [0x63, 0x63, 0x61, 0x70, 0xa0]) = none := by decide +kernel

example : UcanIpld.ofCbor 128 ([0xa5] ++ [0x61, 0x76, 0x61, 0x31] ++ [0x61, 0x73, 0x80] ++ [0x63, 0x69, 0x73, 0x73, 0x41, 0x07]
    ++ [0x63, 0x61, 0x75, 0x64, 0x81, 0x08] ++ [0x63, 0x63, 0x61, 0x70, 0xa0]) = none := by decide +kernel

/-- Arrays nested as deep as the limit are refused, one less is read. -/
example : Cbor.decode 3 [0x81, 0x81, 0x80] = some (.list [.list [.list []]]) := rfl
example : Cbor.decode 2 [0x81, 0x81, 0x80] = none := rfl

end Verif
