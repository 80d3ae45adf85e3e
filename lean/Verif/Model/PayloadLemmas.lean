import Verif.Model.Payload

/-! # Decoding inverts encoding for headers and payloads -/

namespace Verif
namespace Codec

/-- A JSON value that survives DAG-JSON: numbers in range and accepted, maps sorted, no reserved form. -/
def Good (D : Deps) (v : Json) : Prop := Json.NumOk D v ∧ DagJson.Plain v ∧ DagJson.IntOk D v

/-- A payload the codec preserves. -/
structure Encodable (D : Deps) (p : Payload) : Prop where
  capSorted : BMap.Sorted p.cap
  abSorted : ∀ r ∈ p.cap, BMap.Sorted r.2
  caveats : ∀ r ∈ p.cap, ∀ a ∈ r.2, ∀ c ∈ a.2, Good D c
  facts : ∀ f, p.fct = some f → Good D (.obj f)
  depth : (payloadJson p).depth < Json.depthLimit

theorem get?_embedMembers (m : List (String × Json)) (k : String) :
    BMap.get? (DagJson.embedMembers m) k = (BMap.get? m k).map DagJson.embed := by
  induction m with
  | nil => rfl
  | cons e m ih =>
    obtain ⟨k', v⟩ := e
    simp only [DagJson.embedMembers, BMap.get?]
    split <;> simp [ih]

theorem mapAll_map {α β γ : Type} (f : β → Option γ) (g : α → β) (h : α → γ) (l : List α)
    (H : ∀ x ∈ l, f (g x) = some (h x)) : mapAll f (l.map g) = some (l.map h) := by
  induction l with
  | nil => rfl
  | cons x xs ih =>
    have h1 := H x (by simp)
    have h2 := ih fun y hy => H y (by simp [hy])
    simp [mapAll, h1, h2]

theorem asList_strs (l : List String) : asList asStr (DagJson.embed (.arr (l.map .str))) = some l := by
  simp only [DagJson.embed, DagJson.embedList_eq_map, asList, List.map_map]
  have := mapAll_map (f := asStr) (g := DagJson.embed ∘ Json.str) (h := id) l (by intro x _; rfl)
  rw [this, List.map_id]

theorem asMap_members {α β : Type} (f : Ipld → Option α) (g : β → Json) (h : β → α) (m : List (String × β))
    (H : ∀ e ∈ m, f (DagJson.embed (g e.2)) = some (h e.2)) :
    asMap f (DagJson.embed (.obj (m.map fun e => (e.1, g e.2)))) = some (m.map fun e => (e.1, h e.2)) := by
  simp only [DagJson.embed, DagJson.embedMembers_eq_map, asMap, List.map_map]
  exact mapAll_map _ _ _ m (by intro e he; simp [H e he])

theorem asList_values (D : Deps) (l : List Json) (h : ∀ c ∈ l, Good D c) :
    asList (DagJson.toValue D) (DagJson.embed (.arr l)) = some l := by
  simp only [DagJson.embed, DagJson.embedList_eq_map, asList]
  have := mapAll_map (f := DagJson.toValue D) (g := DagJson.embed) (h := id) l
    (by intro x hx; exact DagJson.toValue_embed D x (h x hx).2.2)
  rw [this, List.map_id]

theorem asCaps_capsJson (D : Deps) (c : Capabilities) (h : ∀ r ∈ c, ∀ a ∈ r.2, ∀ v ∈ a.2, Good D v) :
    asCaps D (DagJson.embed (capsJson c)) = some c := by
  unfold asCaps capsJson
  have := asMap_members (asMap (asList (DagJson.toValue D))) (fun m : BMap String (List Json) => .obj (m.map fun a => (a.1, .arr a.2)))
    (fun m => m) c (by
      intro r hr
      have := asMap_members (asList (DagJson.toValue D)) (fun l : List Json => .arr l) (fun l => l) r.2
        (by intro a ha; exact asList_values D a.2 (h r hr a ha))
      simpa using this)
  simpa using this

theorem asFacts (D : Deps) (m : Facts) (h : Good D (.obj m)) :
    asMap (DagJson.toValue D) (DagJson.embed (.obj m)) = some m := by
  have hi : DagJson.IntOkMembers D m := h.2.2
  have := asMap_members (DagJson.toValue D) (fun v : Json => v) (fun v => v) m (by
    clear h
    induction m with
    | nil => simp
    | cons e m ih =>
      intro x hx
      rcases List.mem_cons.1 hx with rfl | hx
      · exact DagJson.toValue_embed D _ hi.1
      · exact ih hi.2 x hx)
  simpa using this

theorem asU64_u64Json (n : UInt64) : asU64 (DagJson.embed (u64Json n)) = some n := by
  have := n.toNat_lt
  simp only [u64Json, DagJson.embed, asU64]
  rw [if_pos]
  · simp
  · constructor
    · exact Int.natCast_nonneg _
    · show (n.toNat : Int) < 2 ^ 64
      exact_mod_cast this

theorem payloadOfIpld_embed (D : Deps) (p : Payload) (h : Encodable D p) :
    payloadOfIpld D (DagJson.embed (payloadJson p)) = some p := by
  have hc := asCaps_capsJson D p.cap h.caveats
  have hf := h.facts
  obtain ⟨ucv, iss, aud, exp, nbf, nnc, cap, fct, prf⟩ := p
  simp only at hc hf
  have hexp : optVal asU64 (some (DagJson.embed (optU64Json exp))) = some exp := by
    cases exp with
    | none => rfl
    | some e =>
      have := asU64_u64Json e
      simp only [optU64Json]
      simp only [u64Json, DagJson.embed] at this ⊢
      simp [optVal]
      exact this
  have hnbf : ∀ n, optVal asU64 (some (DagJson.embed (u64Json n))) = some (some n) := by
    intro n
    have := asU64_u64Json n
    simp only [u64Json, DagJson.embed] at this ⊢
    simp [optVal]
    exact this
  have hfct : ∀ f, fct = some f → optVal (asMap (DagJson.toValue D)) (some (DagJson.embed (.obj f))) = some (some f) := by
    intro f hf'
    have := asFacts D f (hf f hf')
    simp only [DagJson.embed] at this ⊢
    simp [optVal, this]
  have hprf : ∀ l : List String, optVal (asList asStr) (some (DagJson.embed (.arr (l.map .str)))) = some (some l) := by
    intro l
    have := asList_strs l
    simp only [DagJson.embed] at this ⊢
    simp [optVal, this]
  have hcap : reqVal (asCaps D) (some (DagJson.embed (capsJson cap))) = some cap := hc
  have hstr : ∀ s, reqVal asStr (some (DagJson.embed (.str s))) = some s := fun s => rfl
  have hnnc : ∀ s, optVal asStr (some (DagJson.embed (.str s))) = some (some s) := fun s => rfl
  have hnone : ∀ {α : Type} (f : Ipld → Option α), optVal f none = some none := fun f => rfl
  unfold payloadJson payloadFields
  rw [DagJson.embed, payloadOfIpld, payloadOf]
  simp only [get?_embedMembers]
  cases nbf <;> cases nnc <;> cases fct <;> cases prf <;>
    simp [optField, BMap.ofList, BMap.get?_insert, BMap.get?, hexp, hnbf, hcap, hprf, hstr, hnnc, hnone, hfct]

theorem headerOfIpld_embed (D : Deps) (h : Header) : headerOfIpld D (DagJson.embed (headerJson h)) = some h := by
  unfold headerJson
  rw [DagJson.embed, headerOfIpld, headerOf]
  simp [get?_embedMembers, BMap.ofList, BMap.get?_insert, DagJson.embed, reqVal, asStr]

theorem mem_ofList_imp {ν : Type} {l : List (String × ν)} {e : String × ν} (h : e ∈ BMap.ofList l) : e ∈ l := by
  have key : ∀ (l : List (String × ν)) (m : BMap String ν), e ∈ l.foldl (fun m e => m.insert e.1 e.2) m → e ∈ m ∨ e ∈ l := by
    intro l
    induction l with
    | nil => intro m h; exact Or.inl h
    | cons x xs ih =>
      intro m h
      rcases ih _ h with h | h
      · rcases BMap.mem_insert_imp h with h | h
        · right; rw [h]; simp
        · exact Or.inl h
      · right; simp [h]
  rcases key l [] h with h | h
  · cases h
  · exact h

theorem numOkMembers_iff (D : Deps) (m : List (String × Json)) : Json.NumOkMembers D m ↔ ∀ e ∈ m, Json.NumOk D e.2 := by
  induction m with
  | nil => simp [Json.NumOkMembers]
  | cons e m ih => obtain ⟨k, v⟩ := e; simp only [Json.NumOkMembers, ih]; simp

theorem numOkList_iff (D : Deps) (m : List Json) : Json.NumOkList D m ↔ ∀ e ∈ m, Json.NumOk D e := by
  induction m with
  | nil => simp [Json.NumOkList]
  | cons e m ih => simp only [Json.NumOkList, ih]; simp

theorem plainMembers_iff (m : List (String × Json)) : DagJson.PlainMembers m ↔ ∀ e ∈ m, DagJson.Plain e.2 := by
  induction m with
  | nil => simp [DagJson.PlainMembers]
  | cons e m ih => obtain ⟨k, v⟩ := e; simp only [DagJson.PlainMembers, ih]; simp

theorem plainList_iff (m : List Json) : DagJson.PlainList m ↔ ∀ e ∈ m, DagJson.Plain e := by
  induction m with
  | nil => simp [DagJson.PlainList]
  | cons e m ih => simp only [DagJson.PlainList, ih]; simp

theorem numOk_u64 (D : Deps) (n : UInt64) : Json.NumOk D (u64Json n) := by
  have := n.toNat_lt
  simp only [u64Json, Json.NumOk]
  constructor
  · have : (0 : Int) ≤ Int.ofNat n.toNat := Int.natCast_nonneg _
    omega
  · show (n.toNat : Int) < 2 ^ 64
    exact_mod_cast this

theorem sorted_map_snd {α β : Type} (f : α → β) {m : List (String × α)} (h : BMap.Sorted m) :
    BMap.Sorted (m.map fun e => (e.1, f e.2)) := List.pairwise_map.2 h

theorem payloadFields_ok (D : Deps) (p : Payload) (h : Encodable D p) :
    ∀ e ∈ payloadFields p, Json.NumOk D e.2 ∧ DagJson.Plain e.2 := by
  have hcaps : Json.NumOk D (capsJson p.cap) ∧ DagJson.Plain (capsJson p.cap) := by
    unfold capsJson
    refine ⟨?_, ?_⟩
    · simp only [Json.NumOk, numOkMembers_iff, List.mem_map]
      rintro e ⟨r, hr, rfl⟩
      simp only [Json.NumOk, numOkMembers_iff, List.mem_map]
      rintro e ⟨a, ha, rfl⟩
      simp only [Json.NumOk, numOkList_iff]
      exact fun c hc => (h.caveats r hr a ha c hc).1
    · simp only [DagJson.Plain, plainMembers_iff, List.mem_map]
      refine ⟨List.pairwise_map.2 h.capSorted, ?_, ?_⟩
      · rintro (⟨s, hs⟩ | ⟨s, hs⟩)
        · cases hc : p.cap with
          | nil => simp [hc] at hs
          | cons r rs => simp [hc] at hs
        · cases hc : p.cap with
          | nil => simp [hc] at hs
          | cons r rs =>
            rw [hc] at hs
            simp at hs
      · rintro e ⟨r, hr, rfl⟩
        simp only [DagJson.Plain, plainMembers_iff, List.mem_map]
        refine ⟨sorted_map_snd _ (h.abSorted r hr), ?_, ?_⟩
        · rintro (⟨s, hs⟩ | ⟨s, hs⟩)
          · cases ha : r.2 with
            | nil => simp [ha] at hs
            | cons a as => simp [ha] at hs
          · cases ha : r.2 with
            | nil => simp [ha] at hs
            | cons a as => simp [ha] at hs
        · rintro e ⟨a, ha, rfl⟩
          simp only [DagJson.Plain, plainList_iff]
          exact fun c hc => (h.caveats r hr a ha c hc).2.1
  have hu : ∀ n, DagJson.Plain (u64Json n) := fun n => trivial
  intro e he
  unfold payloadFields at he
  simp only [List.mem_append, List.mem_cons, List.not_mem_nil, or_false] at he
  have hopt : ∀ {α : Type} (k : String) (f : α → Json) (o : Option α), e ∈ optField k f o → ∃ a, o = some a ∧ e = (k, f a) := by
    intro α k f o ho
    cases o with
    | none => simp [optField] at ho
    | some a => simp [optField] at ho; exact ⟨a, rfl, ho⟩
  rcases he with ((((he | he) | he) | he) | he) | he
  · rcases he with rfl | rfl | rfl | rfl
    · exact ⟨trivial, trivial⟩
    · exact ⟨trivial, trivial⟩
    · exact ⟨trivial, trivial⟩
    · cases p.exp with
      | none => exact ⟨trivial, trivial⟩
      | some n => exact ⟨numOk_u64 D n, trivial⟩
  · obtain ⟨a, _, rfl⟩ := hopt _ _ _ he
    exact ⟨numOk_u64 D a, trivial⟩
  · obtain ⟨a, _, rfl⟩ := hopt _ _ _ he
    exact ⟨trivial, trivial⟩
  · rw [he]; exact hcaps
  · obtain ⟨a, ha, rfl⟩ := hopt _ _ _ he
    have := h.facts a ha
    exact ⟨this.1, this.2.1⟩
  · obtain ⟨a, ha, rfl⟩ := hopt _ _ _ he
    simp [Json.NumOk, DagJson.Plain, numOkList_iff, plainList_iff]

theorem payloadJson_ok (D : Deps) (p : Payload) (h : Encodable D p) :
    Json.NumOk D (payloadJson p) ∧ DagJson.Plain (payloadJson p) := by
  have hf := payloadFields_ok D p h
  unfold payloadJson
  refine ⟨?_, ?_⟩
  · simp only [Json.NumOk, numOkMembers_iff]
    exact fun e he => (hf e (mem_ofList_imp he)).1
  · simp only [DagJson.Plain, plainMembers_iff]
    refine ⟨BMap.sorted_ofList _, ?_, fun e he => (hf e (mem_ofList_imp he)).2⟩
    have hv : BMap.get? (BMap.ofList (payloadFields p)) "ucv" = some (.str p.ucv) := by
      obtain ⟨ucv, iss, aud, exp, nbf, nnc, cap, fct, prf⟩ := p
      unfold payloadFields
      cases nbf <;> cases nnc <;> cases fct <;> cases prf <;>
        simp [optField, BMap.ofList, BMap.get?_insert]
    have hm := BMap.mem_of_get? hv
    rintro (⟨s, hs⟩ | ⟨s, hs⟩) <;> rw [hs] at hm <;> simp at hm

/-- Payload round trip through DAG-JSON bytes. -/
theorem payloadOfBytes_payloadBytes (D : Deps) (p : Payload) (h : Encodable D p) :
    payloadOfBytes D (payloadBytes D p) = some p := by
  unfold payloadOfBytes payloadBytes
  rw [DagJson.decode_print D _ (payloadJson_ok D p h).1 (payloadJson_ok D p h).2 h.depth]
  exact payloadOfIpld_embed D p h

/-- Header round trip through DAG-JSON bytes. -/
theorem headerOfBytes_headerBytes (D : Deps) (h : Header) : headerOfBytes D (headerBytes D h) = some h := by
  have hj : headerJson h = .obj [("alg", .str h.alg), ("typ", .str h.typ)] := by
    unfold headerJson
    rw [BMap.ofList_sorted]
    simp only [BMap.Sorted, List.pairwise_cons, List.mem_singleton, forall_eq, List.not_mem_nil, false_implies, implies_true,
      List.Pairwise.nil, and_true]
    show bytesLt (strBytes "alg") (strBytes "typ") = true
    decide +kernel
  unfold headerOfBytes headerBytes
  rw [DagJson.decode_print D]
  · exact headerOfIpld_embed D h
  · rw [hj]; exact ⟨trivial, trivial, trivial⟩
  · rw [hj]
    refine ⟨?_, ?_, trivial, trivial, trivial⟩
    · rw [← Json.obj.inj hj]
      exact BMap.sorted_ofList _
    · rintro (⟨s, hs⟩ | ⟨s, hs⟩) <;> simp at hs
  · rw [hj]; simp [Json.depth, Json.depthMembers, Json.depthLimit]

end Codec
end Verif
