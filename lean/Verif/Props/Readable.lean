import Verif.Spec.Readable
import Verif.Props.JsonText
import Verif.Props.UcanJson
import Verif.Props.Token

/-! # C124: whatever is issued can be read -/

namespace Verif
open Spec

namespace Readable

theorem depth_le {v : Json} {n : Nat} (h : DepthLe v n) : v.depth ≤ n := depth_le_of v n h

/-! ## What is held has the properties that the codec lemmas want -/

theorem numOk (D : Deps) (v : Json) : Held D v → Json.NumOk D v := by
  induction v using Json.induct with
  | null => exact fun _ => trivial
  | bool b => exact fun _ => trivial
  | int i => exact fun h => h.integers i .self
  | float f => exact fun h => h.doubles f .self
  | str s => exact fun _ => trivial
  | arr l ih =>
    intro h
    simp only [Json.NumOk, Codec.numOkList_iff]
    exact fun x hx => ih x hx ⟨fun m hm => h.objects m (.elem hx hm), fun m hm => h.integers m (.elem hx hm), fun m hm => h.doubles m (.elem hx hm)⟩
  | obj m ih =>
    intro h
    simp only [Json.NumOk, Codec.numOkMembers_iff]
    rintro ⟨k, x⟩ hx
    exact ih _ hx ⟨fun m hm => h.objects m (.member hx hm), fun m hm => h.integers m (.member hx hm), fun m hm => h.doubles m (.member hx hm)⟩

theorem held_elem {D : Deps} {l : List Json} (h : Held D (.arr l)) {x : Json} (hx : x ∈ l) : Held D x :=
  ⟨fun m hm => h.objects m (.elem hx hm), fun m hm => h.integers m (.elem hx hm), fun m hm => h.doubles m (.elem hx hm)⟩

theorem held_member {D : Deps} {m : List (String × Json)} (h : Held D (.obj m)) {e : String × Json} (hx : e ∈ m) : Held D e.2 :=
  ⟨fun n hm => h.objects n (.member (k := e.1) hx hm), fun n hm => h.integers n (.member (k := e.1) hx hm), fun n hm => h.doubles n (.member (k := e.1) hx hm)⟩

theorem intOkMembers_iff (D : Deps) (m : List (String × Json)) : DagJson.IntOkMembers D m ↔ ∀ e ∈ m, DagJson.IntOk D e.2 := by
  induction m with
  | nil => simp [DagJson.IntOkMembers]
  | cons e m ih => obtain ⟨k, v⟩ := e; simp only [DagJson.IntOkMembers, ih]; simp

theorem intOkList_iff (D : Deps) (m : List Json) : DagJson.IntOkList D m ↔ ∀ e ∈ m, DagJson.IntOk D e := by
  induction m with
  | nil => simp [DagJson.IntOkList]
  | cons e m ih => simp only [DagJson.IntOkList, ih]; simp

theorem intOk {D : Deps} (hD : D.valueI128 = true) (v : Json) : Held D v → DagJson.IntOk D v := by
  induction v using Json.induct with
  | null => exact fun _ => trivial
  | bool b => exact fun _ => trivial
  | int i => exact fun h => ⟨hD, h.integers i .self⟩
  | float f => exact fun h => trivial
  | str s => exact fun _ => trivial
  | arr l ih =>
    intro h
    simp only [DagJson.IntOk, intOkList_iff]
    exact fun x hx => ih x hx (held_elem h hx)
  | obj m ih =>
    intro h
    simp only [DagJson.IntOk, intOkMembers_iff]
    exact fun e hx => ih e hx (held_member h hx)

theorem plain {D : Deps} (v : Json) : Held D v → ¬ Reserves v → DagJson.Plain v := by
  induction v using Json.induct with
  | null => exact fun _ _ => trivial
  | bool b => exact fun _ _ => trivial
  | int i => exact fun _ _ => trivial
  | float f => exact fun _ _ => trivial
  | str s => exact fun _ _ => trivial
  | arr l ih =>
    intro h hr
    simp only [DagJson.Plain, Codec.plainList_iff]
    exact fun x hx => ih x hx (held_elem h hx) fun ⟨s, hs⟩ => hr ⟨s, hs.imp (.elem hx) (.elem hx)⟩
  | obj m ih =>
    intro h hr
    simp only [DagJson.Plain, Codec.plainMembers_iff]
    refine ⟨h.objects m .self, ?_, ?_⟩
    · rintro (⟨s, rfl⟩ | ⟨s, rfl⟩)
      · exact hr ⟨s, Or.inl .self⟩
      · exact hr ⟨s, Or.inr .self⟩
    · rintro ⟨k, x⟩ hx
      exact ih _ hx (held_member h hx) fun ⟨s, hs⟩ => hr ⟨s, hs.imp (.member hx) (.member hx)⟩

theorem good {D : Deps} (hD : D.valueI128 = true) {v : Json} (h : Held D v) (hr : ¬ Reserves v) : Codec.Good D v :=
  ⟨numOk D v h, plain v h hr, intOk hD v h⟩

/-! ## What has been read had no reserved form -/

theorem mapAll_some {α β : Type} {f : α → Option β} : ∀ {l : List α} {ys : List β}, Codec.mapAll f l = some ys → ∀ x ∈ l, ∃ y, f x = some y
  | [], _, _, _, h => by cases h
  | a :: l, ys, h, x, hx => by
    rw [Codec.mapAll] at h
    split at h
    · rename_i y ys' h1 h2
      rcases List.mem_cons.1 hx with rfl | hx
      · exact ⟨y, h1⟩
      · exact mapAll_some h2 x hx
    · cases h

theorem toIpldList_some {D : Deps} : ∀ {l : List Json} {ys : List Ipld}, DagJson.toIpldList D l = some ys → ∀ x ∈ l, ∃ y ∈ ys, DagJson.toIpld D x = some y
  | [], _, _, _, h => by cases h
  | a :: l, ys, h, x, hx => by
    rw [DagJson.toIpldList] at h
    split at h
    · rename_i y ys' h1 h2
      cases h
      rcases List.mem_cons.1 hx with rfl | hx
      · exact ⟨y, by simp, h1⟩
      · obtain ⟨z, hz, e⟩ := toIpldList_some h2 x hx
        exact ⟨z, by simp [hz], e⟩
    · cases h

theorem toIpldMembers_some {D : Deps} : ∀ {m : List (String × Json)} {ys : List (String × Ipld)}, DagJson.toIpldMembers D m = some ys →
    ys.map Prod.fst = m.map Prod.fst ∧ ∀ e ∈ m, ∃ y, (e.1, y) ∈ ys ∧ DagJson.toIpld D e.2 = some y
  | [], _, h => by cases h; exact ⟨rfl, fun _ h => by cases h⟩
  | (k, a) :: m, ys, h => by
    rw [DagJson.toIpldMembers] at h
    split at h
    · rename_i y ys' h1 h2
      cases h
      obtain ⟨hk, hm⟩ := toIpldMembers_some h2
      refine ⟨by simp [hk], fun e he => ?_⟩
      rcases List.mem_cons.1 he with rfl | he
      · exact ⟨y, by simp, h1⟩
      · obtain ⟨z, hz, e'⟩ := hm e he
        exact ⟨z, by simp [hz], e'⟩
    · cases h

theorem sorted_of_keys {α β : Type} {m : List (String × α)} {ys : List (String × β)} (h : ys.map Prod.fst = m.map Prod.fst) (hm : BMap.Sorted m) :
    BMap.Sorted ys := by
  have h1 : (m.map Prod.fst).Pairwise fun a b => OrdKey.lt a b = true := List.pairwise_map.2 hm
  rw [← h] at h1
  exact List.pairwise_map.1 h1

/-- An object that was read as a map. -/
theorem obj_map {D : Deps} {m : List (String × Json)} {i : Ipld} (hs : BMap.Sorted m) (h : DagJson.toIpld D (.obj m) = some i) {n : List (String × Ipld)}
    (hi : i = .map n) : BMap.Sorted n ∧ n.map Prod.fst = m.map Prod.fst ∧ (∀ e ∈ m, ∃ y, (e.1, y) ∈ n ∧ DagJson.toIpld D e.2 = some y) ∧ ¬ DagJson.Reserved m := by
  subst hi
  rw [DagJson.toIpld] at h
  cases hm : DagJson.toIpldMembers D m with
  | none => simp [hm] at h
  | some ys =>
    obtain ⟨hk, he⟩ := toIpldMembers_some hm
    have hsy := sorted_of_keys hk hs
    rw [hm, Option.bind_some] at h
    have hn : n = ys := by
      unfold DagJson.mkMap at h
      rw [BMap.ofList_sorted hsy] at h
      split at h
      · split at h
        · simp at h
        · cases h; rfl
      · split at h
        · simp at h
        · cases h; rfl
      · cases h; rfl
    subst hn
    refine ⟨hsy, hk, he, ?_⟩
    rintro (⟨s, rfl⟩ | ⟨s, rfl⟩)
    · simp only [DagJson.toIpldMembers, DagJson.toIpld, Option.some.injEq] at hm
      subst hm
      simp [DagJson.mkMap] at h
    · have h1 : DagJson.toIpld D (.obj [("bytes", .str s)]) = some (.map [("bytes", .str s)]) := by
        simp [DagJson.toIpld, DagJson.toIpldMembers, DagJson.mkMap, BMap.ofList, BMap.insert]
      simp only [DagJson.toIpldMembers, h1, Option.some.injEq] at hm
      subst hm
      simp [DagJson.mkMap] at h

theorem asMap_some {D : Deps} {α : Type} {f : Ipld → Option α} {m : List (String × Json)} {i : Ipld} {out : List (String × α)} (hs : BMap.Sorted m)
    (h : DagJson.toIpld D (.obj m) = some i) (ho : Codec.asMap f i = some out) :
    ¬ DagJson.Reserved m ∧ ∀ e ∈ m, ∃ y z, DagJson.toIpld D e.2 = some y ∧ f y = some z := by
  unfold Codec.asMap at ho
  split at ho
  · rename_i n
    obtain ⟨_, _, he, hr⟩ := obj_map hs h rfl
    refine ⟨hr, fun e hm => ?_⟩
    obtain ⟨y, hy, hi⟩ := he e hm
    obtain ⟨z, hz⟩ := mapAll_some ho _ hy
    simp only [Option.map_eq_some_iff] at hz
    obtain ⟨z', hz', _⟩ := hz
    exact ⟨y, z', hi, hz'⟩
  · cases ho

theorem asList_some {D : Deps} {α : Type} {f : Ipld → Option α} {l : List Json} {i : Ipld} {out : List α}
    (h : DagJson.toIpld D (.arr l) = some i) (ho : Codec.asList f i = some out) : ∀ x ∈ l, ∃ y z, DagJson.toIpld D x = some y ∧ f y = some z := by
  rw [DagJson.toIpld, Option.map_eq_some_iff] at h
  obtain ⟨ys, hys, rfl⟩ := h
  intro x hx
  obtain ⟨y, hy, e⟩ := toIpldList_some hys x hx
  obtain ⟨z, hz⟩ := mapAll_some (f := f) ho y hy
  exact ⟨y, z, e, hz⟩

theorem toValueList_eq (D : Deps) (l : List Ipld) : DagJson.toValueList D l = Codec.mapAll (DagJson.toValue D) l := by
  induction l with
  | nil => rfl
  | cons x l ih =>
    simp only [DagJson.toValueList, Codec.mapAll, ih]
    cases DagJson.toValue D x <;> cases Codec.mapAll (DagJson.toValue D) l <;> rfl

theorem toValueMembers_eq (D : Deps) (m : List (String × Ipld)) :
    DagJson.toValueMembers D m = Codec.mapAll (fun e => (DagJson.toValue D e.2).map fun y => (e.1, y)) m := by
  induction m with
  | nil => rfl
  | cons e m ih =>
    obtain ⟨k, x⟩ := e
    simp only [DagJson.toValueMembers, Codec.mapAll, ih]
    cases DagJson.toValue D x <;> cases Codec.mapAll (fun e => Option.map (fun y => (e.1, y)) (DagJson.toValue D e.2)) m <;> rfl

theorem not_reserves {D : Deps} (v : Json) : Held D v → ∀ i w, DagJson.toIpld D v = some i → DagJson.toValue D i = some w → ¬ Reserves v := by
  have flat : ∀ v : Json, (∀ m, v ≠ .obj m) → (∀ l, v ≠ .arr l) → ¬ Reserves v := by
    rintro v h1 h2 ⟨s, h | h⟩ <;> cases h
    · exact h1 _ rfl
    · exact h2 _ rfl
    · exact h1 _ rfl
    · exact h1 _ rfl
    · exact h2 _ rfl
    · exact h1 _ rfl
  induction v using Json.induct with
  | null => exact fun _ _ _ _ _ => flat _ (fun _ h => by cases h) (fun _ h => by cases h)
  | bool b => exact fun _ _ _ _ _ => flat _ (fun _ h => by cases h) (fun _ h => by cases h)
  | int i => exact fun _ _ _ _ _ => flat _ (fun _ h => by cases h) (fun _ h => by cases h)
  | float f => exact fun _ _ _ _ _ => flat _ (fun _ h => by cases h) (fun _ h => by cases h)
  | str s => exact fun _ _ _ _ _ => flat _ (fun _ h => by cases h) (fun _ h => by cases h)
  | arr l ih =>
    intro h i w hi hw
    have hl : ∃ out, Codec.asList (DagJson.toValue D) i = some out := by
      obtain ⟨ys, hys, rfl⟩ := Option.map_eq_some_iff.1 (by rw [DagJson.toIpld] at hi; exact hi)
      rw [DagJson.toValue, Option.map_eq_some_iff] at hw
      obtain ⟨out, ho, _⟩ := hw
      exact ⟨out, by rw [Codec.asList, ← toValueList_eq]; exact ho⟩
    obtain ⟨out, ho⟩ := hl
    rintro ⟨s, hs | hs⟩ <;> cases hs with
    | elem hx hs =>
      obtain ⟨y, z, hy, hz⟩ := asList_some hi ho _ hx
      exact ih _ hx (held_elem h hx) y z hy hz ⟨s, by simp [hs]⟩
  | obj m ih =>
    intro h i w hi hw
    have hm : ∃ out, Codec.asMap (DagJson.toValue D) i = some out := by
      have : ∃ n, i = .map n := by
        rw [DagJson.toIpld, Option.bind_eq_some_iff] at hi
        obtain ⟨ys, _, hi⟩ := hi
        unfold DagJson.mkMap at hi
        split at hi
        · split at hi
          · rw [Option.map_eq_some_iff] at hi
            obtain ⟨c, _, rfl⟩ := hi
            rw [DagJson.toValue] at hw
            cases hw
          · cases hi; exact ⟨_, rfl⟩
        · split at hi
          · rw [Option.map_eq_some_iff] at hi
            obtain ⟨c, _, rfl⟩ := hi
            rw [DagJson.toValue] at hw
            cases hw
          · cases hi; exact ⟨_, rfl⟩
        · cases hi; exact ⟨_, rfl⟩
      obtain ⟨n, rfl⟩ := this
      rw [DagJson.toValue, Option.map_eq_some_iff] at hw
      obtain ⟨out, ho, _⟩ := hw
      exact ⟨out, by rw [Codec.asMap, ← toValueMembers_eq]; exact ho⟩
    obtain ⟨out, ho⟩ := hm
    obtain ⟨hr, he⟩ := asMap_some (h.objects m .self) hi ho
    rintro ⟨s, hs | hs⟩
    · cases hs with
      | self => exact hr (Or.inl ⟨s, rfl⟩)
      | member hx hs =>
        obtain ⟨y, z, hy, hz⟩ := he _ hx
        exact ih _ hx (held_member h hx) y z hy hz ⟨s, Or.inl hs⟩
    · cases hs with
      | self => exact hr (Or.inr ⟨s, rfl⟩)
      | member hx hs =>
        obtain ⟨y, z, hy, hz⟩ := he _ hx
        exact ih _ hx (held_member h hx) y z hy hz ⟨s, Or.inr hs⟩

/-! ## What was written is what is read -/

theorem value_number {D : Deps} {t : Bytes} {v : Json} (h : ValueText D t v) (hv : IsNumber v) : NumberText D t v := by
  cases h <;> first | assumption | cases hv

theorem print_obj (D : Deps) (m : List (String × Json)) : ∃ r, Json.print D (.obj m) = 123 :: r := by
  cases m <;> simp [Json.print]

/-- What the reader makes of an object that was written. -/
theorem parse_print_inv (D : Deps) (m : List (String × Json)) (hn : Json.NumOk D (.obj m)) (v' : Json)
    (h : Json.parse D (Json.print D (.obj m)) = some v') : v' = .obj m ∧ DepthLe (.obj m) 127 := by
  have ht := C71_written D (.obj m) hn
  unfold Json.parse at h
  split at h
  · cases h
  rename_i v'' r hp
  split at h
  · cases h
  cases h
  obtain ⟨w, t, hw, e, ht', hd⟩ := (Json.sound D _).1 _ _ _ _ hp
  obtain ⟨b, hb⟩ := print_obj D m
  have hw0 : w = [] := by
    cases w with
    | nil => rfl
    | cons c w =>
      exfalso
      rw [hb, List.cons_append] at e
      have : (123 : UInt8) = c := (List.cons.inj e).1
      have hc := hw c (by simp)
      rw [← this] at hc
      revert hc
      decide +kernel
  subst hw0
  have hnum : ¬ IsNumber v' := by
    intro hv
    obtain ⟨c, t', rfl, hc⟩ := Json.numberText_head (value_number ht' hv)
    rw [hb] at e
    rw [← (List.cons.inj e).1] at hc
    revert hc
    decide
  have h1 := Json.complete D ht (2 * (Json.print D (.obj m)).length) (v'.depth + (Json.obj m).depth + 1) [] (fun h => by cases h)
    (depthLe_mono (depthLe_depth _) (by omega)) (Nat.le_refl _)
  have h2 := Json.complete D ht' (2 * (Json.print D (.obj m)).length) (v'.depth + (Json.obj m).depth + 1) r (fun h => absurd h hnum)
    (depthLe_mono (depthLe_depth _) (by omega)) (by rw [e]; simp; omega)
  rw [List.append_nil] at h1
  rw [List.nil_append] at e
  rw [← e, h1] at h2
  cases h2
  exact ⟨rfl, hd⟩

theorem payload_numOk (D : Deps) (p : Payload) (hc : ∀ r ∈ p.cap, ∀ a ∈ r.2, ∀ c ∈ a.2, Json.NumOk D c)
    (hf : ∀ f, p.fct = some f → Json.NumOk D (.obj f)) : Json.NumOk D (Codec.payloadJson p) := by
  have hcaps : Json.NumOk D (Codec.capsJson p.cap) := by
    unfold Codec.capsJson
    simp only [Json.NumOk, Codec.numOkMembers_iff, List.mem_map]
    rintro e ⟨r, hr, rfl⟩
    simp only [Json.NumOk, Codec.numOkMembers_iff, List.mem_map]
    rintro e ⟨a, ha, rfl⟩
    simp only [Json.NumOk, Codec.numOkList_iff]
    exact fun c h => hc r hr a ha c h
  unfold Codec.payloadJson
  simp only [Json.NumOk, Codec.numOkMembers_iff]
  intro e he
  have he := Codec.mem_ofList_imp he
  have hopt : ∀ {α : Type} (k : String) (f : α → Json) (o : Option α), e ∈ Codec.optField k f o → ∃ a, o = some a ∧ e = (k, f a) := by
    intro α k f o ho
    cases o with
    | none => simp [Codec.optField] at ho
    | some a => simp [Codec.optField] at ho; exact ⟨a, rfl, ho⟩
  unfold Codec.payloadFields at he
  simp only [List.mem_append, List.mem_cons, List.not_mem_nil, or_false] at he
  rcases he with ((((he | he) | he) | he) | he) | he
  · rcases he with rfl | rfl | rfl | rfl
    · exact trivial
    · exact trivial
    · exact trivial
    · cases p.exp with
      | none => exact trivial
      | some n => exact Codec.numOk_u64 D n
  · obtain ⟨a, _, rfl⟩ := hopt _ _ _ he
    exact Codec.numOk_u64 D a
  · obtain ⟨a, _, rfl⟩ := hopt _ _ _ he
    exact trivial
  · rw [he]; exact hcaps
  · obtain ⟨a, ha, rfl⟩ := hopt _ _ _ he
    exact hf a ha
  · obtain ⟨a, ha, rfl⟩ := hopt _ _ _ he
    simp [Json.NumOk, Codec.numOkList_iff]

theorem get_cap (p : Payload) : BMap.get? (BMap.ofList (Codec.payloadFields p)) "cap" = some (Codec.capsJson p.cap) := by
  obtain ⟨ucv, iss, aud, exp, nbf, nnc, cap, fct, prf⟩ := p
  unfold Codec.payloadFields
  cases nbf <;> cases nnc <;> cases fct <;> cases prf <;> simp [Codec.optField, BMap.ofList, BMap.get?_insert]

theorem get_fct (p : Payload) : BMap.get? (BMap.ofList (Codec.payloadFields p)) "fct" = p.fct.map Json.obj := by
  obtain ⟨ucv, iss, aud, exp, nbf, nnc, cap, fct, prf⟩ := p
  unfold Codec.payloadFields
  cases nbf <;> cases nnc <;> cases fct <;> cases prf <;> simp [Codec.optField, BMap.ofList, BMap.get?_insert, BMap.get?]

theorem depth_member {m : List (String × Json)} {n : Nat} (h : DepthLe (.obj m) (n + 1)) {e : String × Json} (he : e ∈ m) : DepthLe e.2 n := by
  cases h with
  | obj h => exact h e he

theorem depth_elem {l : List Json} {n : Nat} (h : DepthLe (.arr l) (n + 1)) {e : Json} (he : e ∈ l) : DepthLe e n := by
  cases h with
  | arr h => exact h e he

/-- A payload that was written and can be read carries no reserved form and is not too deep. -/
theorem of_read {D : Deps} {p p' : Payload} (hs : BMap.Sorted p.cap) (hs' : ∀ r ∈ p.cap, BMap.Sorted r.2)
    (hc : ∀ r ∈ p.cap, ∀ a ∈ r.2, ∀ c ∈ a.2, Held D c) (hf : ∀ f, p.fct = some f → Held D (.obj f))
    (h : Codec.payloadOfBytes D (Codec.payloadBytes D p) = some p') :
    (∀ r ∈ p.cap, ∀ a ∈ r.2, ∀ c ∈ a.2, ¬ Reserves c ∧ DepthLe c 123) ∧ ∀ f, p.fct = some f → ¬ Reserves (.obj f) ∧ DepthLe (.obj f) 126 := by
  unfold Codec.payloadOfBytes Codec.payloadBytes DagJson.decode at h
  obtain ⟨i, hi, hp⟩ := Option.bind_eq_some_iff.1 h
  obtain ⟨v, hv, hi⟩ := Option.bind_eq_some_iff.1 hi
  obtain ⟨rfl, hd⟩ := parse_print_inv D _ (payload_numOk D p (fun r hr a ha c h => numOk D c (hc r hr a ha c h)) fun f h => numOk D _ (hf f h)) v hv
  have hsort : BMap.Sorted (BMap.ofList (Codec.payloadFields p)) := BMap.sorted_ofList _
  have hmap : ∃ n, i = .map n := by
    rw [DagJson.toIpld, Option.bind_eq_some_iff] at hi
    obtain ⟨ys, _, hi⟩ := hi
    unfold DagJson.mkMap at hi
    split at hi
    · split at hi
      · rw [Option.map_eq_some_iff] at hi
        obtain ⟨c, _, rfl⟩ := hi
        rw [Codec.payloadOfIpld] at hp
        · cases hp
        all_goals (intros; rename_i h; cases h)
      · cases hi; exact ⟨_, rfl⟩
    · split at hi
      · rw [Option.map_eq_some_iff] at hi
        obtain ⟨c, _, rfl⟩ := hi
        rw [Codec.payloadOfIpld] at hp
        · cases hp
        all_goals (intros; rename_i h; cases h)
      · cases hi; exact ⟨_, rfl⟩
    · cases hi; exact ⟨_, rfl⟩
  obtain ⟨n, rfl⟩ := hmap
  obtain ⟨hn, _, hmem, _⟩ := obj_map hsort hi rfl
  rw [Codec.payloadOfIpld, Codec.payloadOf] at hp
  split at hp
  rotate_left
  · cases hp
  rename_i hcap hfct _
  refine ⟨?_, ?_⟩
  · have hm := BMap.mem_of_get? (get_cap p)
    obtain ⟨y, hy, hyi⟩ := hmem _ hm
    rw [BMap.get?_of_mem hn hy] at hcap
    have hdc := depth_member hd hm
    have hcs : BMap.Sorted (p.cap.map fun r => (r.1, Json.obj (r.2.map fun a => (a.1, Json.arr a.2)))) := List.pairwise_map.2 hs
    obtain ⟨_, hres⟩ := asMap_some hcs hyi hcap
    intro r hr a ha c hca
    obtain ⟨y1, z1, hy1, hz1⟩ := hres _ (List.mem_map.2 ⟨r, hr, rfl⟩)
    have hrs : BMap.Sorted (r.2.map fun a => (a.1, Json.arr a.2)) := List.pairwise_map.2 (hs' r hr)
    obtain ⟨_, hab⟩ := asMap_some hrs hy1 hz1
    obtain ⟨y2, z2, hy2, hz2⟩ := hab _ (List.mem_map.2 ⟨a, ha, rfl⟩)
    obtain ⟨y3, z3, hy3, hz3⟩ := asList_some hy2 hz2 c hca
    refine ⟨not_reserves c (hc r hr a ha c hca) y3 z3 hy3 hz3, ?_⟩
    have h1 := depth_member (n := 125) hdc (List.mem_map.2 ⟨r, hr, rfl⟩)
    have h2 := depth_member (n := 124) h1 (List.mem_map.2 ⟨a, ha, rfl⟩)
    exact depth_elem h2 hca
  · intro f hff
    have hm : ("fct", Json.obj f) ∈ BMap.ofList (Codec.payloadFields p) := BMap.mem_of_get? (by rw [get_fct, hff]; rfl)
    obtain ⟨y, hy, hyi⟩ := hmem _ hm
    rw [BMap.get?_of_mem hn hy] at hfct
    have hdf := depth_member hd hm
    refine ⟨?_, hdf⟩
    have hval : ∃ w, DagJson.toValue D y = some w := by
      cases y with
      | map m =>
        simp only [Codec.optVal, Option.map_eq_some_iff] at hfct
        obtain ⟨w, hw, _⟩ := hfct
        rw [Codec.asMap, ← toValueMembers_eq] at hw
        exact ⟨.obj w, by rw [DagJson.toValue, hw]; rfl⟩
      | null => exact ⟨.null, rfl⟩
      | _ => simp [Codec.optVal, Codec.asMap] at hfct
    obtain ⟨w, hw⟩ := hval
    exact not_reserves _ (hf f hff) y w hyi hw

theorem payload_of_read {D : Deps} {u u' : Ucan} (h : Ucan.fromStr D (u.encode D) = .ok u') :
    Codec.payloadOfBytes D (Codec.payloadBytes D u.payload) = some u'.payload := by
  unfold Ucan.fromStr at h
  rw [Ucan.strBytes_encode, Ucan.ofBytes_ok_iff] at h
  obtain ⟨a, b, tail, hseg, _, hp, _⟩ := h.parts
  obtain ⟨r1, h1⟩ := Ucan.splitByte_segments hseg
  obtain ⟨r2, h2⟩ := Ucan.splitByte_segments (Ucan.segments_encodeBytes D u)
  rw [h1] at h2
  have he : Base64.encode b = Base64.encode (Codec.payloadBytes D u.payload) := (List.cons.inj (List.cons.inj h2).2).1
  have := congrArg Base64.decode he
  rw [Base64.decode_encode, Base64.decode_encode] at this
  cases this
  exact hp

/-- What can be read meets the conditions. -/
theorem necessary {D : Deps} {s : Signable} {rnd : Bytes} {u u' : Ucan} (hf : Held D (.obj s.facts))
    (hc : ∀ c ∈ s.capabilities, Held D c.caveat) (h : s.sign D rnd = .ok u) (hu : Ucan.fromStr D (u.encode D) = .ok u') :
    (¬ Reserves (.obj s.facts) ∧ DepthLe (.obj s.facts) 126) ∧ ∀ c ∈ s.capabilities, ¬ Reserves c.caveat ∧ DepthLe c.caveat 123 := by
  obtain ⟨hp, _, _, _⟩ := sign_ok h
  obtain ⟨_, hcap, _, _, _, _, _, hfct, _⟩ := ucanPayload_ok hp
  obtain ⟨h1, _, _, _⟩ := Capabilities.ofVec_ok hcap
  have hperm := C16_permutation hcap
  have hc' : ∀ r ∈ u.payload.cap, ∀ a ∈ r.2, ∀ c ∈ a.2, Held D c := fun r hr a ha c h => hc _ (hperm.mem_iff.1 (mem_iter_caveat hr ha h))
  obtain ⟨hcav, hfac⟩ := Readable.of_read h1.1 h1.2 hc' (by
    intro f hf'
    rw [hfct] at hf'
    split at hf'
    · cases hf'
    · cases hf'; exact hf) (Readable.payload_of_read hu)
  refine ⟨?_, ?_⟩
  · cases hs : s.facts with
    | nil =>
      refine ⟨?_, .obj (fun _ h => by cases h)⟩
      rintro ⟨t, h | h⟩ <;> cases h with
      | member h _ => cases h
    | cons e m =>
      have := hfac s.facts (by rw [hfct, hs]; rfl)
      rw [hs] at this
      exact this
  · intro c hcs
    obtain ⟨r, a, v⟩ := c
    obtain ⟨ab, cs, hr, ha, hv⟩ := (C17_iter_mem _ _ _ _).1 (hperm.mem_iff.2 hcs)
    exact hcav _ hr _ ha _ hv

end Readable

/-! ## The property -/

/-- C124: exactly which tokens, of those that are signed, can be read: those without a reserved form in facts and caveats, with facts of depth at most 126 and caveats of
depth at most 123. -/
theorem C124_exact (D : Deps) (hD : D.valueI128 = true) (s : Signable) (rnd : Bytes) (u : Ucan) (hf : Held D (.obj s.facts))
    (hc : ∀ c ∈ s.capabilities, Held D c.caveat) (h : s.sign D rnd = .ok u) :
    (∃ u', Ucan.fromStr D (u.encode D) = .ok u') ↔
      (¬ Reserves (.obj s.facts) ∧ DepthLe (.obj s.facts) 126) ∧ ∀ c ∈ s.capabilities, ¬ Reserves c.caveat ∧ DepthLe c.caveat 123 := by
  constructor
  · exact fun ⟨_, hu⟩ => Readable.necessary hf hc h hu
  · rintro ⟨⟨hr, hd⟩, hcs⟩
    refine ⟨u, C01_round_trip D s rnd u ⟨fun c hm => ⟨Readable.good hD (hc c hm) (hcs c hm).1, ?_⟩, Readable.good hD hf hr, ?_⟩ h⟩
    · have := Readable.depth_le (hcs c hm).2
      simp only [Json.depthLimit]
      omega
    · have := Readable.depth_le hd
      simp only [Json.depthLimit]
      omega

/-- C124, what holds: a signed token that can be read is read as it was issued. -/
theorem C124_as_issued_partial (D : Deps) (hD : D.valueI128 = true) (s : Signable) (rnd : Bytes) (u u' : Ucan) (hf : Held D (.obj s.facts))
    (hc : ∀ c ∈ s.capabilities, Held D c.caveat) (h : s.sign D rnd = .ok u) (h' : Ucan.fromStr D (u.encode D) = .ok u') : u' = u := by
  obtain ⟨⟨hr, hd⟩, hcs⟩ := (C124_exact D hD s rnd u hf hc h).1 ⟨u', h'⟩
  have := C01_round_trip D s rnd u ⟨fun c hm => ⟨Readable.good hD (hc c hm) (hcs c hm).1, by
    have := Readable.depth_le (hcs c hm).2
    simp only [Json.depthLimit]
    omega⟩, Readable.good hD hf hr, by
    have := Readable.depth_le hd
    simp only [Json.depthLimit]
    omega⟩ h
  rw [this] at h'
  cases h'
  rfl

/-- C124: no chain can be built from the text of a token that cannot be read, be it presented or fetched as a proof. -/
theorem C124_useless (D : Deps) (E : Env) (now : Option UInt64) (u : Ucan) (h : ¬ ∃ u', Ucan.fromStr D (u.encode D) = .ok u') (fuel : Nat) (w : World) :
    ¬ ∃ c, (Chain.ofToken D E now fuel (u.encode D) w).1 = .ok c := by
  rintro ⟨c, hc⟩
  cases fuel with
  | zero => cases hc
  | succ n =>
    rw [Chain.ofToken] at hc
    cases hu : Ucan.fromStr D (u.encode D) with
    | ok u' => exact h ⟨u', hu⟩
    | error e => rw [hu] at hc; cases hc

/-- A value of lists within lists. -/
def Spec.nested : Nat → Json
  | 0 => .null
  | n + 1 => .arr [Spec.nested n]

/-- A token about nothing but one fact. -/
def Spec.factToken (f : String) (v : Json) : Signable where
  issuer := demoKey
  audience := "did:key:zother"
  capabilities := []
  expiration := none
  notBefore := none
  facts := [(f, v)]
  proofs := []
  addNonce := false

theorem Readable.nested_depth (n : Nat) : (nested n).depth = n := by
  induction n with
  | zero => rfl
  | succ n ih => simp only [nested, Json.depth, Json.depthList, ih]; omega

theorem Readable.occurs_nested {x : Json} : ∀ {n : Nat}, Occurs x (nested n) → ∃ m, x = nested m
  | 0, h => by cases h; exact ⟨0, rfl⟩
  | n + 1, h => by
    cases h with
    | self => exact ⟨n + 1, rfl⟩
    | elem hm h =>
      cases List.mem_singleton.1 hm
      exact Readable.occurs_nested h

theorem Readable.occurs_single {x v : Json} {f : String} (h : Occurs x (.obj [(f, v)])) : x = .obj [(f, v)] ∨ Occurs x v := by
  cases h with
  | self => exact Or.inl rfl
  | member hm h =>
    cases List.mem_singleton.1 hm
    exact Or.inr h

theorem Readable.held_nested (D : Deps) (f : String) (n : Nat) : Held D (.obj [(f, nested n)]) := by
  have key : ∀ x, Occurs x (.obj [(f, nested n)]) → x = .obj [(f, nested n)] ∨ ∃ m, x = nested m := by
    intro x h
    cases h with
    | self => exact Or.inl rfl
    | member hm h =>
      cases List.mem_singleton.1 hm
      exact Or.inr (occurs_nested h)
  refine ⟨fun m hm => ?_, fun i hi => ?_, fun i hi => ?_⟩
  · rcases key _ hm with h | ⟨k, h⟩
    · cases h; exact List.pairwise_singleton ..
    · cases k <;> cases h
  · rcases key _ hi with h | ⟨k, h⟩
    · cases h
    · cases k <;> cases h
  · rcases key _ hi with h | ⟨k, h⟩
    · cases h
    · cases k <;> cases h

theorem Readable.held_text (D : Deps) (f t : String) : Held D (.obj [(f, .str t)]) := by
  have key : ∀ x, Occurs x (.obj [(f, .str t)]) → x = .obj [(f, .str t)] ∨ x = .str t := by
    intro x h
    cases h with
    | self => exact Or.inl rfl
    | member hm h =>
      cases List.mem_singleton.1 hm
      cases h
      exact Or.inr rfl
  refine ⟨fun m hm => ?_, fun i hi => ?_, fun i hi => ?_⟩
  · rcases key _ hm with h | h
    · cases h; exact List.pairwise_singleton ..
    · cases h
  · rcases key _ hi with h | h <;> cases h
  · rcases key _ hi with h | h <;> cases h

theorem Readable.factToken_signs (D : Deps) (f : String) (v : Json) : ∃ u, (factToken f v).sign D [] = .ok u := ⟨_, rfl⟩

/-- C124 is violated: tokens that are signed without complaint and cannot be read, for any text in a fact named `/` and for any nesting beyond the depth that the
reader follows. -/
theorem C124_violated (D : Deps) :
    (∀ t, ∃ u, (factToken "/" (.str t)).sign D [] = .ok u ∧ ¬ ∃ u', Ucan.fromStr D (u.encode D) = .ok u') ∧
    ∀ n, 126 ≤ n → ∃ u, (factToken "k" (nested n)).sign D [] = .ok u ∧ ¬ ∃ u', Ucan.fromStr D (u.encode D) = .ok u' := by
  refine ⟨fun t => ?_, fun n hn => ?_⟩
  · obtain ⟨u, hu⟩ := Readable.factToken_signs D "/" (.str t)
    refine ⟨u, hu, fun ⟨u', h⟩ => ?_⟩
    exact (Readable.necessary (s := factToken "/" (.str t)) (Readable.held_text D _ _) (fun _ h => by cases h) hu h).1.1 ⟨t, Or.inl .self⟩
  · obtain ⟨u, hu⟩ := Readable.factToken_signs D "k" (nested n)
    refine ⟨u, hu, fun ⟨u', h⟩ => ?_⟩
    have := Readable.depth_le (Readable.necessary (s := factToken "k" (nested n)) (Readable.held_nested D _ _) (fun _ h => by cases h) hu h).1.2
    simp only [factToken, Json.depth, Json.depthMembers, Readable.nested_depth] at this
    omega

/-- Beside C124: the same tokens with another name for the fact, or one list less, can be read. -/
example (D : Deps) (hD : D.valueI128 = true) (t : String) :
    (∃ u u', (factToken "k" (.str t)).sign D [] = .ok u ∧ Ucan.fromStr D (u.encode D) = .ok u') ∧
    ∃ u u', (factToken "k" (nested 125)).sign D [] = .ok u ∧ Ucan.fromStr D (u.encode D) = .ok u' := by
  constructor
  · obtain ⟨u, hu⟩ := Readable.factToken_signs D "k" (.str t)
    have hr : ¬ Reserves (.obj [("k", .str t)]) := by
      rintro ⟨s, h | h⟩ <;> rcases Readable.occurs_single h with h | h
      · simp at h
      · cases h
      · simp at h
      · cases h
    have hd : DepthLe (.obj [("k", .str t)]) 126 := .obj fun e he => by cases List.mem_singleton.1 he; exact .str
    obtain ⟨u', h⟩ := (C124_exact D hD _ _ u (Readable.held_text D "k" t) (fun _ h => by cases h) hu).2 ⟨⟨hr, hd⟩, fun _ h => by cases h⟩
    exact ⟨u, u', hu, h⟩
  · obtain ⟨u, hu⟩ := Readable.factToken_signs D "k" (nested 125)
    have hr : ¬ Reserves (.obj [("k", nested 125)]) := by
      rintro ⟨s, h | h⟩ <;> rcases Readable.occurs_single h with h | h
      · simp at h
      · obtain ⟨k, hk⟩ := Readable.occurs_nested h
        cases k <;> cases hk
      · simp at h
      · obtain ⟨k, hk⟩ := Readable.occurs_nested h
        cases k <;> cases hk
    have hd : DepthLe (.obj [("k", nested 125)]) 126 := .obj fun e he => by
      cases List.mem_singleton.1 he
      exact depthLe_mono (depthLe_depth _) (by rw [Readable.nested_depth]; omega)
    obtain ⟨u', h⟩ := (C124_exact D hD _ _ u (Readable.held_nested D "k" 125) (fun _ h => by cases h) hu).2 ⟨⟨hr, hd⟩, fun _ h => by cases h⟩
    exact ⟨u, u', hu, h⟩

end Verif
