import Verif.Spec.Repeat
import Verif.Props.Wire
import Verif.Props.ChainExamples

/-! # C120: documents that repeat members -/

namespace Verif
open Spec

/-! ## Members -/

namespace Repeat

theorem member_of_nodup {α : Type} {m : List (String × α)} (h : (m.map Prod.fst).Nodup) {k : String} {v : α} : Member m k v ↔ (k, v) ∈ m := by
  constructor
  · rintro ⟨a, b, rfl, _⟩; simp
  · intro hm
    obtain ⟨a, b, rfl⟩ := List.append_of_mem hm
    refine ⟨a, b, rfl, fun e he hk => ?_⟩
    rw [List.map_append, List.nodup_append, List.map_cons, List.nodup_cons] at h
    refine h.2.1.1 (List.mem_map.2 ⟨e, he, hk⟩)

theorem first_of_nodup {α : Type} {m : List (String × α)} (h : (m.map Prod.fst).Nodup) {k : String} {v : α} : FirstMember m k v ↔ (k, v) ∈ m := by
  constructor
  · rintro ⟨a, b, rfl, _⟩; simp
  · intro hm
    obtain ⟨a, b, rfl⟩ := List.append_of_mem hm
    refine ⟨a, b, rfl, fun e he hk => ?_⟩
    rw [List.map_append, List.nodup_append] at h
    exact h.2.2 e.1 (List.mem_map_of_mem he) k (by simp) hk

theorem present {α : Type} {m : List (String × α)} {k : String} (h : ¬ Absent m k) : ∃ v, (k, v) ∈ m := by
  refine Classical.byContradiction fun hn => h fun e he hk => hn ⟨e.2, ?_⟩
  rw [← hk]
  exact he

theorem partner {m m' : List (String × Json)} (h : ∀ k, Absent m k ↔ Absent m' k) {k : String} {v : Json} (hm : (k, v) ∈ m) : ∃ v', (k, v') ∈ m' :=
  present fun ha => (h k).2 ha _ hm rfl

theorem alike_symm {v v' : Json} (h : Shuffled v v') : Shuffled v' v := by
  induction h with
  | null => exact .null
  | bool => exact .bool
  | int => exact .int
  | float => exact .float
  | str => exact .str
  | arr hl _ ih => exact .arr hl.symm fun i x y hx hy => ih i y x hy hx
  | obj h1 h2 ha _ ih => exact .obj h2 h1 (fun k => (ha k).symm) fun k x y hx hy => ih k y x hy hx

theorem nodup_unique {α : Type} {m : List (String × α)} (h : (m.map Prod.fst).Nodup) {k : String} {v w : α} (hv : (k, v) ∈ m) (hw : (k, w) ∈ m) : v = w :=
  ((member_of_nodup h).2 hv).unique ((member_of_nodup h).2 hw)

/-- An object with one member stays one. -/
theorem singleton_of {m m' : List (String × Json)} {k : String} {v : Json} (hn : (m'.map Prod.fst).Nodup) (ha : ∀ k, Absent m k ↔ Absent m' k)
    (h : m = [(k, v)]) : ∃ v', m' = [(k, v')] := by
  subst h
  have hk : ∀ e ∈ m', e.1 = k := by
    intro e he
    refine Classical.byContradiction fun hne => ?_
    have : Absent [(k, v)] e.1 := by
      intro x hx
      rw [List.mem_singleton] at hx
      rw [hx]
      exact fun h => hne h.symm
    exact (ha e.1).1 this e he rfl
  cases m' with
  | nil => exact absurd rfl ((ha k).2 (fun _ h => by cases h) (k, v) (by simp))
  | cons e r =>
    cases r with
    | nil => exact ⟨e.2, by rw [← hk e (by simp)]⟩
    | cons e' r =>
      rw [List.map_cons, List.map_cons, List.nodup_cons] at hn
      exact absurd (by rw [hk e (by simp), hk e' (by simp)]; simp) hn.1

theorem isLink_of {m m' : List (String × Json)} (hn : (m'.map Prod.fst).Nodup) (ha : ∀ k, Absent m k ↔ Absent m' k)
    (hv : ∀ k x y, (k, x) ∈ m → (k, y) ∈ m' → Shuffled x y) {s : String} (h : IsLink m s) : IsLink m' s := by
  obtain ⟨v', rfl⟩ := singleton_of hn ha h
  unfold IsLink at h
  subst h
  have := hv "/" _ v' (List.mem_singleton.2 rfl) (List.mem_singleton.2 rfl)
  cases this
  rfl

theorem isBytes_of {m m' : List (String × Json)} (hn : (m'.map Prod.fst).Nodup) (ha : ∀ k, Absent m k ↔ Absent m' k)
    (hv : ∀ k x y, (k, x) ∈ m → (k, y) ∈ m' → Shuffled x y) {s : String} (h : IsBytes m s) : IsBytes m' s := by
  obtain ⟨n, hm, hk, hb⟩ := h
  obtain ⟨v', rfl⟩ := singleton_of hn ha hm
  subst hm
  have := hv "/" _ v' (List.mem_singleton.2 rfl) (List.mem_singleton.2 rfl)
  cases this with
  | @obj _ n' h1 h2 ha' hv' =>
    refine ⟨n', rfl, fun e he => ?_, ?_⟩
    · refine Classical.byContradiction fun hne => ?_
      exact (ha' e.1).1 (fun x hx hxe => hne (hxe ▸ hk x hx)) e he rfl
    · rw [member_of_nodup h1] at hb
      rw [member_of_nodup h2]
      obtain ⟨w, hw⟩ := partner ha' hb
      have := hv' _ _ _ hb hw
      cases this
      exact hw

theorem readable_of {D : Deps} {v v' : Json} (h : Shuffled v v') : Readable D v → Readable D v' := by
  induction h with
  | null => exact id
  | bool => exact id
  | int => exact id
  | float => exact id
  | str => exact id
  | @arr l l' hl _ ih =>
    intro hr
    cases hr with
    | arr hr =>
      refine .arr fun y hy => ?_
      obtain ⟨i, hi⟩ := List.mem_iff_getElem?.1 hy
      have hlt : i < l.length := by
        rw [hl]
        exact (List.getElem?_eq_some_iff.1 hi).1
      exact ih i l[i] y (List.getElem?_eq_getElem hlt) hi (hr _ (List.getElem_mem hlt))
  | @obj m m' h1 h2 ha hv ih =>
    intro hr
    have ha' : ∀ k, Absent m' k ↔ Absent m k := fun k => (ha k).symm
    have hv' : ∀ k x y, (k, x) ∈ m' → (k, y) ∈ m → Shuffled x y := fun k x y hx hy => alike_symm (hv k y x hy hx)
    cases hr with
    | obj hr hl hb =>
      refine .obj (fun e he => ?_) (fun s hs => hl s (isLink_of h1 ha' hv' hs)) fun s hs => hb s (isBytes_of h1 ha' hv' hs)
      obtain ⟨x, hx⟩ := partner ha' (k := e.1) (v := e.2) he
      exact ih e.1 x e.2 hx he (hr _ hx)

theorem reads_of {D : Deps} {v v' : Json} (h : Shuffled v v') : ∀ {w : Json}, Reads D v w → Reads D v' w := by
  induction h with
  | null => exact id
  | bool => exact id
  | int => exact id
  | float => exact id
  | str => exact id
  | @arr l l' hl _ ih =>
    intro w hr
    cases hr with
    | @arr _ r hlr hr =>
      refine .arr (hl.symm.trans hlr) fun i y z hy hz => ?_
      have hlt : i < l.length := by
        rw [hl]
        exact (List.getElem?_eq_some_iff.1 hy).1
      exact ih i l[i] y (List.getElem?_eq_getElem hlt) hy (hr i _ _ (List.getElem?_eq_getElem hlt) hz)
  | @obj m m' h1 h2 ha hv ih =>
    intro w hr
    have ha' : ∀ k, Absent m' k ↔ Absent m k := fun k => (ha k).symm
    have hv' : ∀ k x y, (k, x) ∈ m' → (k, y) ∈ m → Shuffled x y := fun k x y hx hy => alike_symm (hv k y x hy hx)
    cases hr with
    | @obj _ r hl hb hs hra hrv =>
      refine .obj (fun s h => hl s (isLink_of h1 ha' hv' h)) (fun s h => hb s (isBytes_of h1 ha' hv' h)) hs (fun k => (ha' k).trans (hra k)) ?_
      intro k y z hy hz
      rw [member_of_nodup h2] at hy
      obtain ⟨x, hx⟩ := partner ha' hy
      exact ih k x y hx hy (hrv k x z ((member_of_nodup h1).2 hx) hz)

theorem optionally_of {α : Type} {m m' : List (String × Json)} {k : String} {R : α → Json → Prop} (ha : Absent m k → Absent m' k ∨ Member m' k .null)
    (h0 : Member m k .null → Member m' k .null)
    (hv : ∀ a w, R a w → Member m k w → ∃ w', Member m' k w' ∧ R a w') {o : Option α} (h : Optionally m k R o) : Optionally m' k R o := by
  cases o with
  | none =>
    rcases h with h | h
    · exact ha h
    · exact .inr (h0 h)
  | some a =>
    obtain ⟨w, hw, hr⟩ := h
    exact hv a w hr hw

theorem alike_atom {v v' : Json} (h : Shuffled v v') : (v = .null → v' = .null) ∧ (∀ s, v = .str s → v' = .str s) ∧ (∀ i, v = .int i → v' = .int i) ∧
    ∀ l : List String, v = .arr (l.map .str) → v' = .arr (l.map .str) := by
  refine ⟨?_, ?_, ?_, ?_⟩
  · rintro rfl; cases h; rfl
  · rintro s rfl; cases h; rfl
  · rintro i rfl; cases h; rfl
  · rintro l rfl
    cases h with
    | @arr _ l' hl hr =>
      congr 1
      refine List.ext_getElem? fun i => ?_
      rw [List.length_map] at hl
      by_cases hi : i < l.length
      · have h1 : (l.map Json.str)[i]? = some (.str l[i]) := by rw [List.getElem?_map, List.getElem?_eq_getElem hi]; rfl
        have h2 : l'[i]? = some l'[i] := List.getElem?_eq_getElem (hl ▸ hi)
        rw [h1, h2]
        have := hr i _ _ h1 h2
        generalize l'[i] = z at this
        cases this
        rfl
      · rw [List.getElem?_eq_none (by omega), List.getElem?_eq_none (by simp; omega)]

theorem readsPayload_of {D : Deps} {m m' : List (String × Json)} (h : Shuffled (.obj m) (.obj m')) {p : Payload} (hp : ReadsPayload D m p) : ReadsPayload D m' p := by
  cases h with
  | obj h1 h2 ha hv =>
    have mv : ∀ k w, Member m k w → ∃ w', Member m' k w' ∧ Shuffled w w' := by
      intro k w hw
      rw [member_of_nodup h1] at hw
      obtain ⟨w', hw'⟩ := partner ha hw
      exact ⟨w', (member_of_nodup h2).2 hw', hv _ _ _ hw hw'⟩
    have mstr : ∀ k s, Member m k (.str s) → Member m' k (.str s) := by
      intro k s hs
      obtain ⟨w', hw', hl⟩ := mv _ _ hs
      rw [(alike_atom hl).2.1 s rfl] at hw'
      exact hw'
    have mnull : ∀ k, Member m k .null → Member m' k .null := by
      intro k hs
      obtain ⟨w', hw', hl⟩ := mv _ _ hs
      rw [(alike_atom hl).1 rfl] at hw'
      exact hw'
    have mopt : ∀ {α : Type} (k : String) (R : α → Json → Prop) (o : Option α), (∀ a w w', R a w → Shuffled w w' → R a w') → Optionally m k R o →
        Optionally m' k R o := by
      intro α k R o hR ho
      refine optionally_of (fun h => .inl ((ha k).1 h)) (mnull k) (fun a w hr hw => ?_) ho
      obtain ⟨w', hw', hl⟩ := mv _ _ hw
      exact ⟨w', hw', hR _ _ _ hr hl⟩
    refine ⟨mstr _ _ hp.ucv, mstr _ _ hp.iss, mstr _ _ hp.aud, mopt _ _ _ (fun a w w' h hl => (alike_atom hl).2.2.1 _ h) hp.exp,
      mopt _ _ _ (fun a w w' h hl => (alike_atom hl).2.2.1 _ h) hp.nbf, mopt _ _ _ (fun a w w' h hl => (alike_atom hl).2.1 _ h) hp.nnc, ?_,
      mopt _ _ _ (fun a w w' h hl => reads_of hl h) hp.fct, mopt _ _ _ (fun a w w' h hl => (alike_atom hl).2.2.2 _ h) hp.prf⟩
    obtain ⟨w, hw, hr⟩ := hp.cap
    obtain ⟨w', hw', hl⟩ := mv _ _ hw
    exact ⟨w', hw', reads_of hl hr⟩

theorem readsHeader_of {m m' : List (String × Json)} (h : Shuffled (.obj m) (.obj m')) {x : Header} (hp : ReadsHeader m x) : ReadsHeader m' x := by
  cases h with
  | obj h1 h2 ha hv =>
    have mstr : ∀ k s, Member m k (.str s) → Member m' k (.str s) := by
      intro k s hs
      rw [member_of_nodup h1] at hs
      obtain ⟨w', hw'⟩ := partner ha hs
      have := (alike_atom (hv _ _ _ hs hw')).2.1 s rfl
      subst this
      exact (member_of_nodup h2).2 hw'
    exact ⟨mstr _ _ hp.alg, mstr _ _ hp.typ⟩

/-! ## Documents -/

theorem document_of (D : Deps) (b : Bytes) {v : Json} (hv : ¬ IsNumber v) : Document D b v ↔ Json.parse D b = some v := by
  unfold Document
  cases hD : D.jsonCheckEnd with
  | true =>
    rw [C71_accepts D hD]
    constructor
    · rintro ⟨⟨t, r, rfl, hr, ht⟩, hd⟩
      rw [hr rfl, List.append_nil]
      exact ⟨ht, hd⟩
    · rintro ⟨ht, hd⟩
      exact ⟨⟨b, [], by simp, fun _ => rfl, ht⟩, hd⟩
  | false =>
    rw [C71_exact_prefix D hD b _ hv]
    constructor
    · rintro ⟨⟨t, r, rfl, _, ht⟩, hd⟩
      exact ⟨⟨t, r, rfl, ht⟩, hd⟩
    · rintro ⟨⟨t, r, rfl, ht⟩, hd⟩
      exact ⟨⟨t, r, rfl, (fun h => Bool.noConfusion h), ht⟩, hd⟩

theorem element_of_value {D : Deps} {t : Bytes} {v : Json} (h : ValueText D t v) : ElementText D t v := by
  have : ElementText D ([] ++ (t ++ [])) v := .mk (fun _ h => nomatch h) h (fun _ h => nomatch h)
  simpa using this

theorem document_print (D : Deps) (v : Json) (hn : Json.NumOk D v) (hd : DepthLe v 127) : Document D (Json.print D v) v :=
  ⟨⟨Json.print D v, [], (List.append_nil _).symm, fun _ => rfl, element_of_value (C71_written D v hn)⟩, hd⟩

theorem document_iff (D : Deps) (b : Bytes) (m : List (String × Json)) : Document D b (.obj m) ↔ Json.parse D b = some (.obj m) :=
  document_of D b (fun h => h)

theorem segment_inj {a a' b b' : Bytes} (ha : (46 : UInt8) ∉ a) (ha' : (46 : UInt8) ∉ a') (hb : Tail b) (hb' : Tail b') (h : a ++ b = a' ++ b') : a = a' := by
  rcases hb with rfl | ⟨r, rfl⟩ <;> rcases hb' with rfl | ⟨r', rfl⟩
  · simpa using h
  · rw [List.append_nil] at h
    exact absurd (h ▸ List.mem_append_right _ (by simp)) ha
  · rw [List.append_nil] at h
    exact absurd (h.symm ▸ List.mem_append_right _ (by simp)) ha'
  · exact (append_sep_inj ha ha' h).1

theorem base64_inj {a b t : Bytes} (ha : BitText 6 base64url a t) (hb : BitText 6 base64url b t) : a = b := by
  have h1 := (C69_base64_encode _ _).2 ha
  have h2 := (C69_base64_encode _ _).2 hb
  have := congrArg Base64.decode (h1.trans h2.symm)
  rw [Base64.decode_encode, Base64.decode_encode] at this
  exact Option.some.inj this

end Repeat
open Repeat

/-- C120: what a token that consists of two objects says is decided by these alone. -/
theorem C120_content (D : Deps) (t : String) (hm pm : List (String × Json)) (sd sg : Bytes) (h : Consists D (strBytes t) hm pm sd sg) (u : Ucan) :
    Ucan.fromStr D t = .ok u ↔ Readable D (.obj hm) ∧ ReadsHeader hm u.header ∧ Readable D (.obj pm) ∧ ReadsPayload D pm u.payload ∧
      u.signedData = sd ∧ u.signature = sg := by
  obtain ⟨hb, pb, ht, pt, st, tail, htok, htl, b1, b2, b3, d1, d2, rfl⟩ := h
  rw [document_iff] at d1 d2
  rw [C72_token]
  constructor
  · rintro ⟨hb', pb', ht', pt', st', tail', hv, pv, htok', htl', b1', b2', b3', d1', r1, v1, d2', r2, v2, hd⟩
    have c : ht = ht' ∧ pt = pt' ∧ st = st' := by
      rw [htok] at htok'
      simp only [List.append_assoc, List.cons_append] at htok'
      obtain ⟨x1, x2⟩ := append_sep_inj (noDot_of_text b1) (noDot_of_text b1') htok'
      obtain ⟨x3, x4⟩ := append_sep_inj (noDot_of_text b2) (noDot_of_text b2') x2
      refine ⟨x1, x3, ?_⟩
      exact segment_inj (noDot_of_text b3) (noDot_of_text b3') htl htl' x4
    obtain ⟨rfl, rfl, rfl⟩ := c
    have u1 := base64_inj b1 b1'
    have u2 := base64_inj b2 b2'
    have u3 := base64_inj b3 b3'
    subst u1 u2
    cases v1 with
    | elements _ _ =>
      rw [(document_of D hb (v := .arr _) (fun h => h)).1 d1'] at d1
      cases d1
    | members v1 =>
      rw [(document_iff D hb _).1 d1'] at d1
      cases d1
      cases v2 with
      | elements _ _ =>
        rw [(document_of D pb (v := .arr _) (fun h => h)).1 d2'] at d2
        cases d2
      | members v2 =>
        rw [(document_iff D pb _).1 d2'] at d2
        cases d2
        exact ⟨r1, v1, r2, v2, hd, u3.symm⟩
  · rintro ⟨r1, v1, r2, v2, hd, rfl⟩
    exact ⟨hb, pb, ht, pt, st, tail, _, _, htok, htl, b1, b2, b3, (document_iff _ _ _).2 d1, r1, .members v1, (document_iff _ _ _).2 d2, r2, .members v2, hd⟩

/-- C120 (partial): if no name is repeated, then the order of members does not matter: a token with the same members in another order, at any depth, is accepted
as well and says the same. In full it is refuted by `C120_two_readings`. -/
theorem C120_order_partial (D : Deps) (t t' : String) (hm hm' pm pm' : List (String × Json)) (sd sd' sg sg' : Bytes)
    (h : Consists D (strBytes t) hm pm sd sg) (h' : Consists D (strBytes t') hm' pm' sd' sg') (hh : Shuffled (.obj hm) (.obj hm')) (hp : Shuffled (.obj pm) (.obj pm'))
    (u : Ucan) (hu : Ucan.fromStr D t = .ok u) : Ucan.fromStr D t' = .ok ⟨u.header, u.payload, sd', sg'⟩ := by
  obtain ⟨r1, v1, r2, v2, _, _⟩ := (C120_content D t hm pm sd sg h u).1 hu
  exact (C120_content D t' hm' pm' sd' sg' h' _).2 ⟨readable_of hh r1, readsHeader_of hh v1, readable_of hp r2, readsPayload_of hp v2, rfl, rfl⟩

namespace Repeat

theorem alike_of_single {v v' : Json} (hf : TakesFirst v v') (hs : Single v) : Shuffled v v' := by
  induction hf with
  | null => exact .null
  | bool => exact .bool
  | int => exact .int
  | float => exact .float
  | str => exact .str
  | @arr l l' hl _ ih =>
    cases hs with
    | arr hs => exact .arr hl fun i x y hx hy => ih i x y hx hy (hs x (List.mem_of_getElem? hx))
  | @obj m m' hn ha _ ih =>
    cases hs with
    | obj hd hs => exact .obj hd hn ha fun k x y hx hy => ih k x y ((first_of_nodup hd).2 hx) hy (hs _ hx)

theorem takesFirst_of_single {v : Json} (hs : Single v) : TakesFirst v v := by
  induction hs with
  | null => exact .null
  | bool => exact .bool
  | int => exact .int
  | float => exact .float
  | str => exact .str
  | @arr l _ ih =>
    refine .arr rfl fun i x y hx hy => ?_
    rw [hx] at hy
    cases hy
    exact ih x (List.mem_of_getElem? hx)
  | @obj m hd _ ih =>
    refine .obj hd (fun _ => Iff.rfl) fun k x y hx hy => ?_
    rw [first_of_nodup hd] at hx
    rw [nodup_unique hd hx hy]
    exact ih _ hy

end Repeat

/-- C120 (partial): where no name is repeated, a reader that goes by the first of several members reads the same header and payload. -/
theorem C120_first_partial (D : Deps) (pm pm' : List (String × Json)) (hs : Single (.obj pm)) (hf : TakesFirst (.obj pm) (.obj pm')) (p : Payload) (x : Header) :
    (Readable D (.obj pm) ∧ ReadsPayload D pm p ↔ Readable D (.obj pm') ∧ ReadsPayload D pm' p) ∧
    (Readable D (.obj pm) ∧ ReadsHeader pm x ↔ Readable D (.obj pm') ∧ ReadsHeader pm' x) := by
  have ha := alike_of_single hf hs
  have hb := alike_symm ha
  exact ⟨⟨fun h => ⟨readable_of ha h.1, readsPayload_of ha h.2⟩, fun h => ⟨readable_of hb h.1, readsPayload_of hb h.2⟩⟩,
    ⟨fun h => ⟨readable_of ha h.1, readsHeader_of ha h.2⟩, fun h => ⟨readable_of hb h.1, readsHeader_of hb h.2⟩⟩⟩

namespace Repeat

theorem nodup_of_sorted {α : Type} {m : List (String × α)} (h : BMap.Sorted m) : (m.map Prod.fst).Nodup := by
  refine List.pairwise_map.2 (List.Pairwise.imp (fun {a b} hab => ?_) h)
  intro he
  rw [he] at hab
  rw [OrdKey.irrefl] at hab
  cases hab

mutual
theorem single_of_plain : ∀ v : Json, DagJson.Plain v → Single v
  | .null, _ => .null
  | .bool _, _ => .bool
  | .int _, _ => .int
  | .float _, _ => .float
  | .str _, _ => .str
  | .arr l, h => .arr (single_of_plainList l h)
  | .obj m, h => .obj (nodup_of_sorted h.1) (single_of_plainMembers m h.2.2)
theorem single_of_plainList : ∀ l : List Json, DagJson.PlainList l → ∀ v ∈ l, Single v
  | [], _ => fun v hv => by cases hv
  | x :: xs, h => fun v hv => by
    rcases List.mem_cons.1 hv with e | hv
    · rw [e]; exact single_of_plain x h.1
    · exact single_of_plainList xs h.2 v hv
theorem single_of_plainMembers : ∀ m : List (String × Json), DagJson.PlainMembers m → ∀ e ∈ m, Single e.2
  | [], _ => fun v hv => by cases hv
  | (k, x) :: xs, h => fun v hv => by
    rcases List.mem_cons.1 hv with e | hv
    · rw [e]; exact single_of_plain x h.1
    · exact single_of_plainMembers xs h.2 v hv
end

/-- The members of the payload document. -/
def members (p : Payload) : List (String × Json) := BMap.ofList (Codec.payloadFields p)

theorem members_doc (p : Payload) : Json.obj (members p) = payloadDoc p := C72_payload_document p

theorem payload_reads (D : Deps) (p : Payload) (he : Codec.Encodable D p) : Readable D (.obj (members p)) ∧ ReadsPayload D (members p) p ∧
    Document D (Codec.payloadBytes D p) (.obj (members p)) := by
  obtain ⟨v, hd, hr, hv⟩ := (C72_payload_read D _ p).1 (Codec.payloadOfBytes_payloadBytes D p he)
  have hp : Json.parse D (Codec.payloadBytes D p) = some (.obj (members p)) := by
    refine (document_iff D _ _).1 (document_print D _ (Codec.payloadJson_ok D p he).1 (depthLe_mono (depthLe_depth _) ?_))
    have := he.depth
    simp only [Json.depthLimit] at this
    show (Codec.payloadJson p).depth ≤ 127
    omega
  cases hv with
  | members hv =>
    rw [(document_iff D _ _).1 hd] at hp
    cases hp
    exact ⟨hr, hv, hd⟩
  | elements _ _ =>
    rw [(document_of D _ (v := .arr _) (fun h => h)).1 hd] at hp
    cases hp

theorem header_document (D : Deps) (h : Header) : Document D (Codec.headerBytes D h) (.obj [("alg", .str h.alg), ("typ", .str h.typ)]) := by
  unfold Codec.headerBytes
  rw [C72_header_document]
  refine document_print D _ ⟨trivial, trivial, trivial⟩ (.obj fun e he => ?_)
  simp only [List.mem_cons, List.not_mem_nil, or_false] at he
  rcases he with rfl | rfl <;> exact .str

end Repeat

/-- C120: the tokens this library writes repeat no name. -/
theorem C120_written (D : Deps) (u : Ucan) (he : Codec.Encodable D u.payload) : ∃ hm pm sd,
    Consists D (strBytes (u.encode D)) hm pm sd u.signature ∧ Single (.obj hm) ∧ Single (.obj pm) := by
  refine ⟨[("alg", .str u.header.alg), ("typ", .str u.header.typ)], members u.payload, Ucan.signingInput D u.header u.payload, ?_, ?_, ?_⟩
  · refine ⟨Codec.headerBytes D u.header, Codec.payloadBytes D u.payload, _, _, _, [], ?_, .inl rfl, (C69_base64_encode _ _).1 rfl, (C69_base64_encode _ _).1 rfl,
      (C69_base64_encode _ _).1 rfl, ?_, (payload_reads D _ he).2.2, rfl⟩
    · rw [Ucan.strBytes_encode]
      simp [Ucan.encodeBytes, Ucan.signingInput]
    · exact header_document D u.header
  · refine .obj (by simp) fun e he => ?_
    simp only [List.mem_cons, List.not_mem_nil, or_false] at he
    rcases he with rfl | rfl <;> exact .str
  · exact single_of_plain _ (Codec.payloadJson_ok D _ he).2

/-! ## The violation -/

namespace Repeat

theorem member_append {α : Type} {a b : List (String × α)} {k : String} {v : α} (h : Member b k v) : Member (a ++ b) k v := by
  obtain ⟨x, y, rfl, hy⟩ := h
  exact ⟨a ++ x, y, by simp, hy⟩

theorem member_append_left {α : Type} {a b : List (String × α)} {k : String} {v : α} (h : Member a k v) (hb : Absent b k) : Member (a ++ b) k v := by
  obtain ⟨x, y, rfl, hy⟩ := h
  refine ⟨x, y ++ b, by simp, fun e he => ?_⟩
  rcases List.mem_append.1 he with he | he
  · exact hy e he
  · exact hb e he

theorem first_append {α : Type} {a b : List (String × α)} {k : String} {v : α} (h : FirstMember a k v) : FirstMember (a ++ b) k v := by
  obtain ⟨x, y, rfl, hy⟩ := h
  exact ⟨x, y ++ b, by simp, hy⟩

theorem first_append_right {α : Type} {a b : List (String × α)} {k : String} {v : α} (h : FirstMember b k v) (ha : Absent a k) : FirstMember (a ++ b) k v := by
  obtain ⟨x, y, rfl, hy⟩ := h
  refine ⟨a ++ x, y, by simp, fun e he => ?_⟩
  rcases List.mem_append.1 he with he | he
  · exact ha e he
  · exact hy e he

theorem first_unique {α : Type} {m : List (String × α)} {k : String} {v w : α} (hv : FirstMember m k v) (hw : FirstMember m k w) : v = w := by
  obtain ⟨a, b, rfl, ha⟩ := hv
  obtain ⟨c, d, hcd, hc⟩ := hw
  induction a generalizing c with
  | nil =>
    cases c with
    | nil => simp at hcd; exact hcd.1
    | cons e c =>
      simp only [List.nil_append, List.cons_append, List.cons.injEq] at hcd
      exact absurd (by rw [← hcd.1]) (hc e (by simp))
  | cons x a ih =>
    cases c with
    | nil =>
      simp only [List.nil_append, List.cons_append, List.cons.injEq] at hcd
      exact absurd (by rw [hcd.1]) (ha x (by simp))
    | cons e c =>
      simp only [List.cons_append, List.cons.injEq] at hcd
      exact ih (fun e he => ha e (by simp [he])) c hcd.2 (fun e he => hc e (by simp [he]))

/-- Every name, with nothing under it. -/
def nulls : List (String × Json) := payloadNames.map fun k => (k, .null)

theorem nulls_member {k : String} (h : k ∈ payloadNames) : Member nulls k .null := by
  have hn : (nulls.map Prod.fst).Nodup := by
    show payloadNames.Nodup
    decide
  exact (member_of_nodup hn).2 (List.mem_map.2 ⟨k, h, rfl⟩)

/-- What a document says is unchanged if absent members are made null. -/
theorem reads_extend {D : Deps} {m m' : List (String × Json)} (h : ∀ k ∈ payloadNames, ∀ v, Member m k v → Member m' k v)
    (h0 : ∀ k ∈ payloadNames, Absent m k → Absent m' k ∨ Member m' k .null) {p : Payload} (hp : ReadsPayload D m p) : ReadsPayload D m' p := by
  have mopt : ∀ {α : Type} (k : String) (R : α → Json → Prop) (o : Option α), k ∈ payloadNames → Optionally m k R o → Optionally m' k R o :=
    fun k R o hk ho => optionally_of (h0 k hk) (h k hk _) (fun a w hr hw => ⟨w, h k hk w hw, hr⟩) ho
  obtain ⟨w, hw, hr⟩ := hp.cap
  exact ⟨h _ (by decide) _ hp.ucv, h _ (by decide) _ hp.iss, h _ (by decide) _ hp.aud, mopt _ _ _ (by decide) hp.exp, mopt _ _ _ (by decide) hp.nbf,
    mopt _ _ _ (by decide) hp.nnc, ⟨w, h _ (by decide) _ hw, hr⟩, mopt _ _ _ (by decide) hp.fct, mopt _ _ _ (by decide) hp.prf⟩

theorem members_names (p : Payload) : ∀ e ∈ members p, e.1 ∈ payloadNames := by
  intro e he
  have := Codec.mem_ofList_imp he
  unfold Codec.payloadFields at this
  have hopt : ∀ {α : Type} (k : String) (f : α → Json) (o : Option α), e ∈ Codec.optField k f o → e.1 = k := by
    intro α k f o ho
    cases o with
    | none => cases ho
    | some a => rw [List.mem_singleton.1 ho]
  simp only [List.mem_append, List.mem_cons, List.not_mem_nil, or_false] at this
  rcases this with ((((he | he) | he) | he) | he) | he
  · rcases he with rfl | rfl | rfl | rfl <;> simp [payloadNames]
  · rw [hopt _ _ _ he]; decide
  · rw [hopt _ _ _ he]; decide
  · rw [he]; simp [payloadNames]
  · rw [hopt _ _ _ he]; decide
  · rw [hopt _ _ _ he]; decide

theorem members_nodup (p : Payload) : ((members p).map Prod.fst).Nodup := nodup_of_sorted (BMap.sorted_ofList _)

theorem readable_obj {D : Deps} {m : List (String × Json)} (h : ∀ e ∈ m, Readable D e.2) {k k' : String} {v v' : Json} (hk : (k, v) ∈ m) (hk' : (k', v') ∈ m)
    (hne : k ≠ k') : Readable D (.obj m) := by
  refine .obj h (fun s hs => ?_) fun s hs => ?_
  · unfold IsLink at hs
    subst hs
    rw [List.mem_singleton] at hk hk'
    cases hk; cases hk'
    exact absurd rfl hne
  · obtain ⟨n, rfl, _⟩ := hs
    rw [List.mem_singleton] at hk hk'
    cases hk; cases hk'
    exact absurd rfl hne

end Repeat

/-- C120 is violated: for any two payloads there is a token, signed by whoever it is, that this library reads as the second and that a reader which goes by the
first of several members of one name reads as the first. -/
theorem C120_two_readings (D : Deps) (h : Header) (p p' : Payload) (he : Codec.Encodable D p) (he' : Codec.Encodable D p') (sign : Bytes → Bytes) :
    ∃ t u hm pm pm', Ucan.fromStr D t = .ok u ∧ u.header = h ∧ u.payload = p' ∧ u.signature = sign u.signedData ∧
      Consists D (strBytes t) hm pm u.signedData u.signature ∧ TakesFirst (.obj pm) (.obj pm') ∧ Readable D (.obj pm') ∧ ReadsPayload D pm' p := by
  obtain ⟨r1, v1, _⟩ := payload_reads D p he
  obtain ⟨r2, v2, _⟩ := payload_reads D p' he'
  have q1 : ∀ e ∈ members p, Readable D e.2 := by cases r1; assumption
  have q2 : ∀ e ∈ members p', Readable D e.2 := by cases r2; assumption
  have s1 : ∀ e ∈ members p, Single e.2 := by
    have := single_of_plain _ (Codec.payloadJson_ok D _ he).2
    unfold Codec.payloadJson at this
    cases this; assumption
  have o1 : ∀ e ∈ members p, Json.NumOk D e.2 := (Codec.numOkMembers_iff D _).1 (Codec.payloadJson_ok D p he).1
  have o2 : ∀ e ∈ members p', Json.NumOk D e.2 := (Codec.numOkMembers_iff D _).1 (Codec.payloadJson_ok D p' he').1
  have l1 : ∀ e ∈ members p, DepthLe e.2 126 := by
    intro e hm
    have := he.depth
    simp only [Codec.payloadJson, Json.depth, Json.depthLimit] at this
    exact depthLe_mono (depthLe_members _ e hm) (by show Json.depthMembers (BMap.ofList (Codec.payloadFields p)) ≤ 126; omega)
  have l2 : ∀ e ∈ members p', DepthLe e.2 126 := by
    intro e hm
    have := he'.depth
    simp only [Codec.payloadJson, Json.depth, Json.depthLimit] at this
    exact depthLe_mono (depthLe_members _ e hm) (by show Json.depthMembers (BMap.ofList (Codec.payloadFields p')) ≤ 126; omega)
  have n0 : ∀ e ∈ nulls, e.1 ∈ payloadNames ∧ e.2 = .null := by
    intro e hm
    obtain ⟨k, hk, rfl⟩ := List.mem_map.1 hm
    exact ⟨hk, rfl⟩
  let pm := members p ++ nulls ++ members p'
  let pm' := members p ++ nulls.filter fun e => !((members p).map Prod.fst).contains e.1
  have inpm : ∀ e ∈ pm, e ∈ members p ∨ e ∈ nulls ∨ e ∈ members p' := by
    intro e hm
    simp only [pm, List.mem_append] at hm
    rcases hm with (hm | hm) | hm
    · exact .inl hm
    · exact .inr (.inl hm)
    · exact .inr (.inr hm)
  have inpm' : ∀ e, e ∈ pm' ↔ e ∈ members p ∨ e ∈ nulls ∧ Absent (members p) e.1 := by
    intro e
    simp only [pm', List.mem_append, List.mem_filter, Bool.not_eq_true', List.contains_eq_mem, decide_eq_false_iff_not, List.mem_map, not_exists, not_and, Absent]
  have nodup' : (pm'.map Prod.fst).Nodup := by
    rw [List.map_append, List.nodup_append]
    refine ⟨members_nodup p, ?_, ?_⟩
    · refine List.Nodup.sublist (List.Sublist.map _ List.filter_sublist) ?_
      show payloadNames.Nodup
      decide
    · intro a ha b hb hab
      obtain ⟨x, hx, rfl⟩ := List.mem_map.1 hb
      simp only [List.mem_filter, Bool.not_eq_true', List.contains_eq_mem, decide_eq_false_iff_not] at hx
      exact hx.2 (hab ▸ ha)
  have rd : ∀ e ∈ pm, Readable D e.2 := by
    intro e hm
    rcases inpm e hm with hm | hm | hm
    · exact q1 e hm
    · rw [(n0 e hm).2]; exact .null
    · exact q2 e hm
  let hb := Codec.headerBytes D h
  let pb := Json.print D (.obj pm)
  let sd := Base64.encode hb ++ 46 :: Base64.encode pb
  let sg := sign sd
  let tb : Bytes := sd ++ 46 :: Base64.encode sg
  have hasc : IsAscii tb := by
    intro x hx
    simp only [tb, sd, List.mem_append, List.mem_cons] at hx
    rcases hx with (hx | rfl | hx) | rfl | hx
    · exact Base64.encode_ascii _ x hx
    · decide
    · exact Base64.encode_ascii _ x hx
    · decide
    · exact Base64.encode_ascii _ x hx
  have hcons : Consists D (strBytes (asciiStr tb)) [("alg", .str h.alg), ("typ", .str h.typ)] pm sd sg := by
    refine ⟨hb, pb, _, _, _, [], ?_, .inl rfl, (C69_base64_encode _ _).1 rfl, (C69_base64_encode _ _).1 rfl, (C69_base64_encode _ _).1 rfl,
      header_document D h, ?_, rfl⟩
    · rw [strBytes_asciiStr hasc]
      simp [tb, sd]
    · refine document_print D _ ((Codec.numOkMembers_iff D _).2 fun e hm => ?_) (.obj fun e hm => ?_)
      · rcases inpm e hm with hm | hm | hm
        · exact o1 e hm
        · rw [(n0 e hm).2]; trivial
        · exact o2 e hm
      · rcases inpm e hm with hm | hm | hm
        · exact l1 e hm
        · rw [(n0 e hm).2]; exact .null
        · exact l2 e hm
  refine ⟨asciiStr tb, ⟨h, p', sd, sg⟩, _, pm, pm', ?_, rfl, rfl, rfl, hcons, ?_, ?_, ?_⟩
  · refine (C120_content D _ _ _ _ _ hcons _).2 ⟨?_, ?_, ?_, ?_, rfl, rfl⟩
    · refine readable_obj (fun e hm => ?_) (k := "alg") (k' := "typ") (v := .str h.alg) (v' := .str h.typ) (by simp) (by simp) (by decide)
      simp only [List.mem_cons, List.not_mem_nil, or_false] at hm
      rcases hm with rfl | rfl <;> exact .str
    · exact ⟨(member_of_nodup (by simp)).2 (by simp), (member_of_nodup (by simp)).2 (by simp)⟩
    · refine readable_obj rd (k := "ucv") (k' := "iss") (v := .null) (v' := .null) ?_ ?_ (by decide) <;>
        exact List.mem_append_left _ (List.mem_append_right _ (by simp [nulls, payloadNames]))
    · refine reads_extend (fun k _ v hv => member_append hv) (fun k hk ha => .inr ?_) v2
      exact member_append_left (member_append (nulls_member hk)) ha
  · refine .obj nodup' (fun k => ?_) fun k x y hx hy => ?_
    · constructor
      · intro ha e hm
        rcases (inpm' e).1 hm with hm | ⟨hm, _⟩
        · exact ha e (List.mem_append_left _ (List.mem_append_left _ hm))
        · exact ha e (List.mem_append_left _ (List.mem_append_right _ hm))
      · intro ha e hm hk
        have hn : k ∈ payloadNames := by
          rcases inpm e hm with hm | hm | hm
          · exact hk ▸ members_names p e hm
          · exact hk ▸ (n0 e hm).1
          · exact hk ▸ members_names p' e hm
        have ha' : Absent (members p) k := fun e hm => ha e ((inpm' e).2 (.inl hm))
        exact ha (k, .null) ((inpm' _).2 (.inr ⟨List.mem_map.2 ⟨k, hn, rfl⟩, ha'⟩)) rfl
    · rcases (inpm' _).1 hy with hy | ⟨hy, ha⟩
      · have := first_append (b := nulls ++ members p') ((first_of_nodup (members_nodup p)).2 hy)
        rw [← List.append_assoc] at this
        rw [first_unique hx this]
        exact takesFirst_of_single (s1 _ hy)
      · have hn : (nulls.map Prod.fst).Nodup := by
          show payloadNames.Nodup
          decide
        have := first_append (b := members p') (first_append_right ((first_of_nodup hn).2 hy) ha)
        rw [first_unique hx this]
        have hz : y = .null := (n0 _ hy).2
        rw [hz]
        exact .null
  · refine readable_obj (fun e hm => ?_) (k := "ucv") (k' := "iss") (v := .str p.ucv) (v' := .str p.iss) ?_ ?_ (by decide)
    · rcases (inpm' e).1 hm with hm | ⟨hm, _⟩
      · exact q1 e hm
      · rw [(n0 e hm).2]; exact .null
    · exact (inpm' _).2 (.inl ((member_of_nodup (members_nodup p)).1 v1.ucv))
    · exact (inpm' _).2 (.inl ((member_of_nodup (members_nodup p)).1 v1.iss))
  · refine reads_extend (fun k _ v hv => ?_) (fun k hk ha => .inr ?_) v1
    · rw [member_of_nodup (members_nodup p)] at hv
      exact (member_of_nodup nodup').2 ((inpm' _).2 (.inl hv))
    · exact (member_of_nodup nodup').2 ((inpm' _).2 (.inr ⟨List.mem_map.2 ⟨k, hk, rfl⟩, ha⟩))

/-! ## Concrete cases -/

/-- Two payloads as `C120_two_readings` wants them: one that expires and one that does not. -/
example (D : Deps) : Codec.Encodable D (Ex.payload 0 "b" (some 5) none none (Ex.caps "a:b" "c")) ∧ Codec.Encodable D (Ex.payload 0 "b" none none none (Ex.caps "a:b" "c")) :=
  ⟨Ex.encodable D 0 "b" (some 5) none none "a:b" "c", Ex.encodable D 0 "b" none none none "a:b" "c"⟩

/-- The same document in another order (hypothesis of `C120_order_partial`). -/
example : Shuffled (.obj [("a", .int 1), ("b", .obj [("c", .null), ("d", .null)])]) (.obj [("b", .obj [("d", .null), ("c", .null)]), ("a", .int 1)]) := by
  refine .obj (by decide) (by decide) (fun k => ?_) fun k x y hx hy => ?_
  · simp [Absent]; grind
  · simp at hx hy
    rcases hx with ⟨rfl, rfl⟩ | ⟨rfl, rfl⟩ <;> simp at hy <;> subst hy
    · exact .int
    · refine .obj (by decide) (by decide) (fun k => ?_) fun k x y hx hy => ?_
      · simp [Absent]; grind
      · simp at hx hy
        rcases hx with ⟨rfl, rfl⟩ | ⟨rfl, rfl⟩ <;> simp at hy <;> subst hy <;> exact .null

end Verif
