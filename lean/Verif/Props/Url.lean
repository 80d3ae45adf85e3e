import Verif.Props.Fixtures
import Verif.Props.JsonText
import Verif.Spec.Url
import Verif.Props.Ipv4

/-! # C82: resource URLs -/

namespace Verif
open Spec

namespace Url

/-! ## Escapes -/

theorem flatMap_single {α β : Type} (f : α → List β) (a : α) (l : List α) : (a :: l).flatMap f = f a ++ l.flatMap f := rfl

theorem escaped_iff {keep : UInt8 → Prop} {f : UInt8 → Bytes}
    (hf : ∀ b, (keep b ∧ f b = [b]) ∨ (¬ keep b ∧ ∃ h ∈ strBytes "0123456789ABCDEF", ∃ l ∈ strBytes "0123456789ABCDEF",
      (strBytes "0123456789ABCDEF")[b.toNat / 16]? = some h ∧ (strBytes "0123456789ABCDEF")[b.toNat % 16]? = some l ∧ f b = [37, h, l]))
    (t t' : Bytes) : Escaped keep t t' ↔ t' = t.flatMap f := by
  constructor
  · intro h
    induction h with
    | nil => rfl
    | @keep b t t' hk _ ih =>
      rcases hf b with ⟨_, e⟩ | ⟨hn, _⟩
      · rw [flatMap_single, e, ih]; rfl
      · exact absurd hk hn
    | @escape b h l t t' hn h1 h2 _ ih =>
      rcases hf b with ⟨hk, _⟩ | ⟨_, h', _, l', _, h3, h4, e⟩
      · exact absurd hk hn
      · rw [h1] at h3; rw [h2] at h4
        cases h3; cases h4
        rw [flatMap_single, e, ih]; rfl
  · rintro rfl
    induction t with
    | nil => exact .nil
    | cons b t ih =>
      rw [flatMap_single]
      rcases hf b with ⟨hk, e⟩ | ⟨hn, h, _, l, _, h1, h2, e⟩
      · rw [e]; exact .keep hk ih
      · rw [e]; exact .escape hn h1 h2 ih

instance (b : UInt8) : Decidable (Visible b) := by unfold Visible; infer_instance
instance (b : UInt8) : Decidable (QueryChar b) := by unfold QueryChar; infer_instance
instance (b : UInt8) : Decidable (FragmentChar b) := by unfold FragmentChar; infer_instance
instance (b : UInt8) : Decidable (SegmentChar b) := by unfold SegmentChar; infer_instance
instance (b : UInt8) : Decidable (SpecialQueryChar b) := by unfold SpecialQueryChar; infer_instance
instance (b : UInt8) : Decidable (UserChar b) := by unfold UserChar; infer_instance

theorem escaped_path (t t' : Bytes) : Escaped Visible t t' ↔ t' = t.flatMap encPath :=
  escaped_iff (forall_uint8 (P := fun b => (Visible b ∧ encPath b = [b]) ∨ (¬ Visible b ∧ ∃ h ∈ strBytes "0123456789ABCDEF",
    ∃ l ∈ strBytes "0123456789ABCDEF", (strBytes "0123456789ABCDEF")[b.toNat / 16]? = some h ∧
    (strBytes "0123456789ABCDEF")[b.toNat % 16]? = some l ∧ encPath b = [37, h, l])) (by decide +kernel)) t t'

theorem escaped_query (t t' : Bytes) : Escaped QueryChar t t' ↔ t' = t.flatMap encQuery :=
  escaped_iff (forall_uint8 (P := fun b => (QueryChar b ∧ encQuery b = [b]) ∨ (¬ QueryChar b ∧ ∃ h ∈ strBytes "0123456789ABCDEF",
    ∃ l ∈ strBytes "0123456789ABCDEF", (strBytes "0123456789ABCDEF")[b.toNat / 16]? = some h ∧
    (strBytes "0123456789ABCDEF")[b.toNat % 16]? = some l ∧ encQuery b = [37, h, l])) (by decide +kernel)) t t'

theorem escaped_fragment (t t' : Bytes) : Escaped FragmentChar t t' ↔ t' = t.flatMap encFragment :=
  escaped_iff (forall_uint8 (P := fun b => (FragmentChar b ∧ encFragment b = [b]) ∨ (¬ FragmentChar b ∧ ∃ h ∈ strBytes "0123456789ABCDEF",
    ∃ l ∈ strBytes "0123456789ABCDEF", (strBytes "0123456789ABCDEF")[b.toNat / 16]? = some h ∧
    (strBytes "0123456789ABCDEF")[b.toNat % 16]? = some l ∧ encFragment b = [37, h, l])) (by decide +kernel)) t t'

theorem escaped_segment (t t' : Bytes) : Escaped SegmentChar t t' ↔ t' = t.flatMap encSegment :=
  escaped_iff (forall_uint8 (P := fun b => (SegmentChar b ∧ encSegment b = [b]) ∨ (¬ SegmentChar b ∧ ∃ h ∈ strBytes "0123456789ABCDEF",
    ∃ l ∈ strBytes "0123456789ABCDEF", (strBytes "0123456789ABCDEF")[b.toNat / 16]? = some h ∧
    (strBytes "0123456789ABCDEF")[b.toNat % 16]? = some l ∧ encSegment b = [37, h, l])) (by decide +kernel)) t t'

theorem escaped_user (t t' : Bytes) : Escaped UserChar t t' ↔ t' = t.flatMap encUser :=
  escaped_iff (forall_uint8 (P := fun b => (UserChar b ∧ encUser b = [b]) ∨ (¬ UserChar b ∧ ∃ h ∈ strBytes "0123456789ABCDEF",
    ∃ l ∈ strBytes "0123456789ABCDEF", (strBytes "0123456789ABCDEF")[b.toNat / 16]? = some h ∧
    (strBytes "0123456789ABCDEF")[b.toNat % 16]? = some l ∧ encUser b = [37, h, l])) (by decide +kernel)) t t'

theorem escaped_special (t t' : Bytes) : Escaped SpecialQueryChar t t' ↔ t' = t.flatMap encSpecialQuery :=
  escaped_iff (forall_uint8 (P := fun b => (SpecialQueryChar b ∧ encSpecialQuery b = [b]) ∨ (¬ SpecialQueryChar b ∧ ∃ h ∈ strBytes "0123456789ABCDEF",
    ∃ l ∈ strBytes "0123456789ABCDEF", (strBytes "0123456789ABCDEF")[b.toNat / 16]? = some h ∧
    (strBytes "0123456789ABCDEF")[b.toNat % 16]? = some l ∧ encSpecialQuery b = [37, h, l])) (by decide +kernel)) t t'

theorem ascii_of {f : UInt8 → Bytes} (hf : ∀ b, ∀ x ∈ f b, x.toNat < 128) (t : Bytes) : IsAscii (t.flatMap f) := by
  intro x hx
  obtain ⟨b, _, hb⟩ := List.mem_flatMap.1 hx
  exact hf b x hb

theorem path_ascii (t : Bytes) : IsAscii (t.flatMap encPath) :=
  ascii_of (forall_uint8 (P := fun b => ∀ x ∈ encPath b, x.toNat < 128) (by decide +kernel)) t
theorem query_ascii (t : Bytes) : IsAscii (t.flatMap encQuery) :=
  ascii_of (forall_uint8 (P := fun b => ∀ x ∈ encQuery b, x.toNat < 128) (by decide +kernel)) t
theorem fragment_ascii (t : Bytes) : IsAscii (t.flatMap encFragment) :=
  ascii_of (forall_uint8 (P := fun b => ∀ x ∈ encFragment b, x.toNat < 128) (by decide +kernel)) t
theorem segment_ascii (t : Bytes) : IsAscii (t.flatMap encSegment) :=
  ascii_of (forall_uint8 (P := fun b => ∀ x ∈ encSegment b, x.toNat < 128) (by decide +kernel)) t

theorem user_ascii (t : Bytes) : IsAscii (t.flatMap encUser) :=
  ascii_of (forall_uint8 (P := fun b => ∀ x ∈ encUser b, x.toNat < 128) (by decide +kernel)) t

theorem special_ascii (t : Bytes) : IsAscii (t.flatMap encSpecialQuery) :=
  ascii_of (forall_uint8 (P := fun b => ∀ x ∈ encSpecialQuery b, x.toNat < 128) (by decide +kernel)) t

theorem str_eq_iff {b : Bytes} (hb : IsAscii b) (s : String) : strBytes s = b ↔ s = asciiStr b := by
  constructor
  · intro h; apply strBytes_inj; rw [h, strBytes_asciiStr hb]
  · rintro rfl; exact strBytes_asciiStr hb

theorem escaped_path_str (t : Bytes) (s : String) : Escaped Visible t (strBytes s) ↔ s = asciiStr (t.flatMap encPath) := by
  rw [escaped_path, str_eq_iff (path_ascii t)]
theorem escaped_query_str (t : Bytes) (s : String) : Escaped QueryChar t (strBytes s) ↔ s = asciiStr (t.flatMap encQuery) := by
  rw [escaped_query, str_eq_iff (query_ascii t)]
theorem escaped_fragment_str (t : Bytes) (s : String) : Escaped FragmentChar t (strBytes s) ↔ s = asciiStr (t.flatMap encFragment) := by
  rw [escaped_fragment, str_eq_iff (fragment_ascii t)]

theorem escaped_user_str (t : Bytes) (s : String) : Escaped UserChar t (strBytes s) ↔ s = asciiStr (t.flatMap encUser) := by
  rw [escaped_user, str_eq_iff (user_ascii t)]

theorem escaped_special_str (t : Bytes) (s : String) : Escaped SpecialQueryChar t (strBytes s) ↔ s = asciiStr (t.flatMap encSpecialQuery) := by
  rw [escaped_special, str_eq_iff (special_ascii t)]

theorem escapedAll_iff (ss ss' : List Bytes) : EscapedAll SegmentChar ss ss' ↔ ss' = ss.map fun s => s.flatMap encSegment := by
  constructor
  · rintro ⟨hl, h⟩
    apply List.ext_getElem?
    intro i
    rw [List.getElem?_map]
    cases hi : ss[i]? with
    | none =>
      rw [List.getElem?_eq_none_iff] at hi
      exact List.getElem?_eq_none_iff.2 (hl ▸ hi)
    | some s =>
      have hlt : i < ss'.length := by rw [hl]; exact (List.getElem?_eq_some_iff.1 hi).1
      rw [List.getElem?_eq_getElem hlt]
      exact congrArg some ((escaped_segment _ _).1 (h i s _ hi (List.getElem?_eq_getElem hlt)))
  · rintro rfl
    refine ⟨by simp, fun i s s' hs hs' => ?_⟩
    rw [List.getElem?_map, hs] at hs'
    cases hs'
    exact (escaped_segment _ _).2 rfl

/-! ## Dots -/

theorem dot_eqs : strBytes "." = [46] ∧ strBytes "%2e" = [37, 50, 101] ∧ strBytes "%2E" = [37, 50, 69] := by decide +kernel

theorem isDot_iff (s : Bytes) : isDot s = true ↔ Dot s := by
  unfold Dot
  rw [dot_eqs.1, dot_eqs.2.1, dot_eqs.2.2]
  simp only [isDot, Bool.or_eq_true, beq_iff_eq, or_assoc]

theorem isDotDot_iff (s : Bytes) : isDotDot s = true ↔ DotDot s := by
  constructor
  · intro h
    simp only [isDotDot, Bool.or_eq_true, beq_iff_eq, or_assoc] at h
    have d1 : Dot [46] := (isDot_iff _).1 rfl
    have d2 : Dot [37, 50, 101] := (isDot_iff _).1 rfl
    have d3 : Dot [37, 50, 69] := (isDot_iff _).1 rfl
    rcases h with rfl | rfl | rfl | rfl | rfl | rfl | rfl | rfl | rfl
    · exact ⟨_, _, d1, d1, rfl⟩
    · exact ⟨_, _, d1, d2, rfl⟩
    · exact ⟨_, _, d1, d3, rfl⟩
    · exact ⟨_, _, d2, d1, rfl⟩
    · exact ⟨_, _, d3, d1, rfl⟩
    · exact ⟨_, _, d2, d2, rfl⟩
    · exact ⟨_, _, d2, d3, rfl⟩
    · exact ⟨_, _, d3, d2, rfl⟩
    · exact ⟨_, _, d3, d3, rfl⟩
  · rintro ⟨a, b, ha, hb, rfl⟩
    unfold Dot at ha hb
    rw [dot_eqs.1, dot_eqs.2.1, dot_eqs.2.2] at ha hb
    rcases ha with rfl | rfl | rfl <;> rcases hb with rfl | rfl | rfl <;> rfl

theorem not_dot_dotDot {s : Bytes} (h : Dot s) (h' : DotDot s) : False := by
  rw [← isDot_iff] at h
  rw [← isDotDot_iff] at h'
  simp only [isDot, Bool.or_eq_true, beq_iff_eq, or_assoc] at h
  rcases h with rfl | rfl | rfl <;> exact absurd h' (by decide)

theorem _root_.Verif.Spec.Place.unique {p q : List Bytes} (h : Place p q) : ∀ {q' : List Bytes}, Place p q' → q = q' := by
  have inj : ∀ {a b : List Bytes} {x y : Bytes}, a ++ [x] = b ++ [y] → a = b ∧ x = y := by
    intro a b x y e
    have := List.append_inj' e rfl
    exact ⟨this.1, by simpa using this.2⟩
  induction h with
  | root =>
    intro q' h'
    generalize hp : ([] : List Bytes) = p at h'
    cases h' with
    | root => rfl
    | _ => simp at hp
  | @down p q s _ h1 h2 ih =>
    intro q' h'
    generalize hp : p ++ [s] = p' at h'
    cases h' with
    | root => simp at hp
    | down h _ _ => obtain ⟨rfl, rfl⟩ := inj hp; rw [ih h]
    | stay _ hd => obtain ⟨rfl, rfl⟩ := inj hp; exact absurd hd h1
    | up _ hd => obtain ⟨rfl, rfl⟩ := inj hp; exact absurd hd h2
    | top _ hd => obtain ⟨rfl, rfl⟩ := inj hp; exact absurd hd h2
  | @stay p q s _ h1 ih =>
    intro q' h'
    generalize hp : p ++ [s] = p' at h'
    cases h' with
    | root => simp at hp
    | down h hn _ => obtain ⟨rfl, rfl⟩ := inj hp; exact absurd h1 hn
    | stay h hd => obtain ⟨rfl, rfl⟩ := inj hp; exact ih h
    | up _ hd => obtain ⟨rfl, rfl⟩ := inj hp; exact (not_dot_dotDot h1 hd).elim
    | top _ hd => obtain ⟨rfl, rfl⟩ := inj hp; exact (not_dot_dotDot h1 hd).elim
  | @up p q s x _ h1 ih =>
    intro q' h'
    generalize hp : p ++ [s] = p' at h'
    cases h' with
    | root => simp at hp
    | down h _ hn => obtain ⟨rfl, rfl⟩ := inj hp; exact absurd h1 hn
    | stay _ hd => obtain ⟨rfl, rfl⟩ := inj hp; exact (not_dot_dotDot hd h1).elim
    | up h _ => obtain ⟨rfl, rfl⟩ := inj hp; exact (inj (ih h)).1
    | top h _ => obtain ⟨rfl, rfl⟩ := inj hp; have := ih h; simp at this
  | @top p s _ h1 ih =>
    intro q' h'
    generalize hp : p ++ [s] = p' at h'
    cases h' with
    | root => rfl
    | down h _ hn => obtain ⟨rfl, rfl⟩ := inj hp; exact absurd h1 hn
    | stay _ hd => obtain ⟨rfl, rfl⟩ := inj hp; exact (not_dot_dotDot hd h1).elim
    | up h _ => obtain ⟨rfl, rfl⟩ := inj hp; have := ih h; simp at this
    | top h _ => rfl

theorem _root_.Verif.Spec.Normalised.unique {p out out' : List Bytes} (h : Normalised p out) (h' : Normalised p out') : out = out' := by
  obtain ⟨q, hq, h⟩ := h
  obtain ⟨q', hq', h'⟩ := h'
  cases Place.unique hq hq'
  rcases h with ⟨he, rfl⟩ | ⟨he, rfl⟩ <;> rcases h' with ⟨he', rfl⟩ | ⟨he', rfl⟩
  · rfl
  · exact absurd he he'
  · exact absurd he' he
  · rfl

/-- One step of the path state. -/
theorem place_step {p : List Bytes} {acc : List Bytes} (h : Place p acc.reverse) (s : Bytes) :
    Place (p ++ [s]) (if isDotDot s then acc.tail else if isDot s then acc else s :: acc).reverse := by
  split
  · rename_i hd
    rw [isDotDot_iff] at hd
    cases acc with
    | nil => exact .top h hd
    | cons x acc =>
      rw [List.reverse_cons] at h
      exact .up h hd
  · rename_i hn
    split
    · rename_i hd
      exact .stay h ((isDot_iff _).1 hd)
    · rename_i hn'
      rw [List.reverse_cons]
      exact .down h (fun e => hn' ((isDot_iff _).2 e)) (fun e => hn ((isDotDot_iff _).2 e))

theorem pathState_normalised : ∀ (ss : List Bytes) (p acc : List Bytes), Place p acc.reverse → ss ≠ [] → Normalised (p ++ ss) (pathState acc ss)
  | [], _, _, _, h => absurd rfl h
  | [s], p, acc, h, _ => by
    refine ⟨_, place_step h s, ?_⟩
    have hl : (p ++ [s]).getLast? = some s := by simp
    unfold pathState
    by_cases hdd : isDotDot s
    · simp only [if_pos hdd]
      exact Or.inl ⟨⟨s, hl, Or.inr ((isDotDot_iff _).1 hdd)⟩, by simp⟩
    · simp only [if_neg hdd]
      by_cases hd : isDot s
      · simp only [if_pos hd]
        exact Or.inl ⟨⟨s, hl, Or.inl ((isDot_iff _).1 hd)⟩, by simp⟩
      · simp only [if_neg hd]
        refine Or.inr ⟨?_, by simp⟩
        rintro ⟨s', hs', h'⟩
        rw [hl] at hs'
        cases hs'
        rcases h' with h' | h'
        · exact hd ((isDot_iff _).2 h')
        · exact hdd ((isDotDot_iff _).2 h')
  | s :: t :: rest, p, acc, h, _ => by
    have := pathState_normalised (t :: rest) (p ++ [s]) _ (place_step h s) (by simp)
    rw [List.append_assoc] at this
    exact this

/-! ## SegmentsText -/

theorem splitSlash_ne_nil (b : Bytes) : splitSlash b ≠ [] := by
  cases b with
  | nil => simp [splitSlash]
  | cons x b =>
    unfold splitSlash
    split
    · simp
    · split <;> simp

theorem splitSlash_slashed (b : Bytes) : slashed (splitSlash b) = 47 :: b := by
  induction b with
  | nil => rfl
  | cons x b ih =>
    unfold splitSlash
    split
    · rename_i h
      rw [h]
      show 47 :: ([] ++ slashed (splitSlash b)) = _
      rw [ih]; rfl
    · split
      · rename_i h t e
        rw [e] at ih
        have ih : 47 :: (h ++ slashed t) = 47 :: b := ih
        show 47 :: (x :: h ++ slashed t) = _
        rw [List.cons_append, (List.cons.inj ih).2]
      · rename_i e
        exact absurd e (splitSlash_ne_nil b)

theorem splitSlash_mem (b : Bytes) : ∀ s ∈ splitSlash b, 47 ∉ s ∧ ∀ x ∈ s, x ∈ b := by
  induction b with
  | nil => simp [splitSlash]
  | cons x b ih =>
    unfold splitSlash
    split
    · intro s hs
      rcases List.mem_cons.1 hs with rfl | hs
      · simp
      · exact ⟨(ih s hs).1, fun y hy => List.mem_cons_of_mem _ ((ih s hs).2 y hy)⟩
    · rename_i hx
      split
      · rename_i h t e
        rw [e] at ih
        intro s hs
        rcases List.mem_cons.1 hs with rfl | hs
        · have := ih h (by simp)
          refine ⟨?_, fun y hy => ?_⟩
          · rw [List.mem_cons]
            rintro (e | e)
            · exact hx e.symm
            · exact this.1 e
          · rcases List.mem_cons.1 hy with rfl | hy
            · simp
            · exact List.mem_cons_of_mem _ (this.2 y hy)
        · have := ih s (by simp [hs])
          exact ⟨this.1, fun y hy => List.mem_cons_of_mem _ (this.2 y hy)⟩
      · rename_i e
        exact absurd e (splitSlash_ne_nil b)

theorem splitSlash_append {s : Bytes} (h : 47 ∉ s) (r : Bytes) : splitSlash (s ++ 47 :: r) = s :: splitSlash r := by
  induction s with
  | nil => simp [splitSlash]
  | cons x s ih =>
    simp only [List.mem_cons, not_or] at h
    rw [List.cons_append, splitSlash, if_neg (fun e => h.1 e.symm), ih h.2]

theorem splitSlash_single {s : Bytes} (h : 47 ∉ s) : splitSlash s = [s] := by
  induction s with
  | nil => rfl
  | cons x s ih =>
    simp only [List.mem_cons, not_or] at h
    rw [splitSlash, if_neg (fun e => h.1 e.symm), ih h.2]

theorem splitSlash_of : ∀ (segs : List Bytes) (b : Bytes), (∀ s ∈ segs, 47 ∉ s) → slashed segs = 47 :: b → splitSlash b = segs
  | [], b, _, e => by cases e
  | [s], b, h, e => by
    have e : 47 :: (s ++ []) = 47 :: b := e
    rw [List.append_nil] at e
    rw [← (List.cons.inj e).2, splitSlash_single (h s (by simp))]
  | s :: t :: rest, b, h, e => by
    have e : 47 :: (s ++ 47 :: (t ++ slashed rest)) = 47 :: b := e
    rw [← (List.cons.inj e).2, splitSlash_append (h s (by simp))]
    rw [splitSlash_of (t :: rest) (t ++ slashed rest) (fun x hx => h x (by simp only [List.mem_cons] at hx ⊢; exact Or.inr hx)) rfl]

theorem normalised_nil : Normalised [] [] := ⟨[], .root, Or.inr ⟨fun ⟨s, h, _⟩ => by (cases h), rfl⟩⟩

/-- The path of segments. -/
theorem hierPath_iff (segs : List Bytes) (h : ∀ s ∈ segs, 47 ∉ s) (path : Bytes) : PathText segs path ↔ path = hierPath (slashed segs) := by
  have key : PathText segs (hierPath (slashed segs)) := by
    refine ⟨pathState [] (segs.map fun s => s.flatMap encSegment), ⟨_, (escapedAll_iff _ _).2 rfl, ?_⟩, ?_⟩
    · cases segs with
      | nil => exact normalised_nil
      | cons s segs => exact pathState_normalised _ [] [] .root (by simp)
    · cases segs with
      | nil => rfl
      | cons s segs =>
        have : slashed (s :: segs) = 47 :: (s ++ slashed segs) := rfl
        rw [this, hierPath, splitSlash_of (s :: segs) _ h this]
        rfl
  constructor
  · rintro ⟨out, ⟨enc, h1, h2⟩, rfl⟩
    obtain ⟨out', ⟨enc', h1', h2'⟩, e⟩ := key
    rw [escapedAll_iff] at h1 h1'
    subst h1; subst h1'
    rw [e, Normalised.unique h2 h2']
  · rintro rfl; exact key

/-! ## Parts of a text -/

theorem takeWhile_of {p : UInt8 → Bool} {a b : Bytes} (ha : ∀ x ∈ a, p x = true) (hb : ∀ x ∈ b.head?, p x = false) :
    (a ++ b).takeWhile p = a ∧ (a ++ b).dropWhile p = b := by
  induction a with
  | nil =>
    cases b with
    | nil => exact ⟨rfl, rfl⟩
    | cons x b =>
      have := hb x (by simp)
      simp [this]
  | cons x a ih =>
    have h := ih (fun y hy => ha y (by simp [hy]))
    have hx := ha x (by simp)
    simp [hx, h.1, h.2]

theorem takeWhile_all (p : UInt8 → Bool) (l : Bytes) : ∀ x ∈ l.takeWhile p, p x = true := by
  induction l with
  | nil => simp
  | cons y l ih =>
    intro x hx
    rw [List.takeWhile_cons] at hx
    split at hx
    · rcases List.mem_cons.1 hx with rfl | hx
      · assumption
      · exact ih x hx
    · cases hx

theorem dropWhile_head (p : UInt8 → Bool) (l : Bytes) : ∀ x ∈ (l.dropWhile p).head?, p x = false := by
  induction l with
  | nil => simp
  | cons y l ih =>
    intro x hx
    rw [List.dropWhile_cons] at hx
    split at hx
    · exact ih x hx
    · rename_i hy
      simp at hx
      subst hx
      simpa using hy

theorem isPathByte_iff (b : UInt8) : isPathByte b = true ↔ b ∉ strBytes "?#" := by
  revert b
  exact forall_uint8 (P := fun b => isPathByte b = true ↔ b ∉ strBytes "?#") (by decide +kernel)

theorem noMark_iff (b : UInt8) : (b != 47 && isPathByte b) = true ↔ b ∉ strBytes "/?#" := by
  revert b
  exact forall_uint8 (P := fun b => (b != 47 && isPathByte b) = true ↔ b ∉ strBytes "/?#") (by decide +kernel)

theorem opaque_eq (sch : String) (rest : Bytes) : opaque_ sch rest =
    ⟨sch, "", asciiStr ((rest.takeWhile isPathByte).flatMap encPath), (tailOf encQuery (rest.dropWhile isPathByte)).1,
      (tailOf encQuery (rest.dropWhile isPathByte)).2, "", none, none⟩ := rfl

theorem afterHost_eq (sch host : String) (rest : Bytes) : afterHost sch host rest =
    ⟨sch, host, asciiStr (hierPath (rest.takeWhile isPathByte)), (tailOf encQuery (rest.dropWhile isPathByte)).1,
      (tailOf encQuery (rest.dropWhile isPathByte)).2, "", none, none⟩ := rfl

theorem tailText_head {keep : UInt8 → Prop} {tail : Bytes} {q f : Option String} (h : TailText keep tail q f) : ∀ x ∈ tail.head?, isPathByte x = false := by
  cases h <;> simp [isPathByte]

theorem tailText_of {keep : UInt8 → Prop} {enc : UInt8 → Bytes} (escaped : ∀ t s, Escaped keep t (strBytes s) ↔ s = asciiStr (t.flatMap enc))
    (tail : Bytes) (h : ∀ x ∈ tail.head?, isPathByte x = false) (q f : Option String) :
    TailText keep tail q f ↔ (q, f) = tailOf enc tail := by
  constructor
  · intro ht
    cases ht with
    | none => rfl
    | @query q q' hq he =>
      have := takeWhile_of (p := (· != 35)) (a := q) (b := []) (fun x hx => by
        simp only [bne_iff_ne]; rintro rfl; exact hq hx) (by simp)
      rw [List.append_nil] at this
      rw [tailOf, this.1, this.2, (escaped _ _).1 he]
    | fragment he => rw [tailOf, (escaped_fragment_str _ _).1 he]
    | @both q f q' f' hq he he' =>
      have := takeWhile_of (p := (· != 35)) (a := q) (b := 35 :: f) (fun x hx => by
        simp only [bne_iff_ne]; rintro rfl; exact hq hx) (by simp)
      rw [tailOf, this.1, this.2, (escaped _ _).1 he, (escaped_fragment_str _ _).1 he']
  · intro e
    cases tail with
    | nil => cases e; exact .none
    | cons b t =>
      have hb : b = 63 ∨ b = 35 := by
        have := h b (by simp)
        simp only [isPathByte, Bool.and_eq_false_iff, bne_eq_false_iff_eq] at this
        exact this
      rcases hb with rfl | rfl
      · rw [tailOf] at e
        obtain ⟨rfl, e2⟩ := Prod.mk.inj e
        have hsplit := List.takeWhile_append_dropWhile (p := (· != (35 : UInt8))) (l := t)
        have hq : (35 : UInt8) ∉ t.takeWhile (· != 35) := fun hm => by simpa using takeWhile_all _ _ _ hm
        have hd := dropWhile_head (· != (35 : UInt8)) t
        generalize ht : t.takeWhile (· != 35) = a at *
        generalize hd' : t.dropWhile (· != 35) = b at *
        cases b with
        | nil =>
          subst e2
          rw [List.append_nil] at hsplit
          subst hsplit
          exact .query hq ((escaped _ _).2 rfl)
        | cons x b =>
          have : x = 35 := by simpa using hd x (by simp)
          subst this
          subst e2
          rw [← hsplit]
          exact .both hq ((escaped _ _).2 rfl) ((escaped_fragment_str _ _).2 rfl)
      · cases e
        exact .fragment ((escaped_fragment_str _ _).2 rfl)

theorem tailText_iff (tail : Bytes) (h : ∀ x ∈ tail.head?, isPathByte x = false) (q f : Option String) :
    TailText QueryChar tail q f ↔ (q, f) = tailOf encQuery tail := tailText_of escaped_query_str tail h q f

/-! ## Scheme -/

theorem folds_iff (x x' : UInt8) : Folds "" x x' ↔ isAlpha x = true ∧ x' = toLower x := by
  constructor
  · rintro (⟨i, h1, h2⟩ | ⟨rfl, h | h⟩)
    · have hi : i < 26 := by
        have := (List.getElem?_eq_some_iff.1 h1).1
        have hl : (strBytes "ABCDEFGHIJKLMNOPQRSTUVWXYZ").length = 26 := by decide +kernel
        omega
      have key : ∀ i : Fin 26, ∃ y, (strBytes "ABCDEFGHIJKLMNOPQRSTUVWXYZ")[i.1]? = some y ∧ isAlpha y = true ∧
          (strBytes "abcdefghijklmnopqrstuvwxyz")[i.1]? = some (toLower y) := by
        intro i
        have : ∀ i : Fin 26, ∃ y ∈ strBytes "ABCDEFGHIJKLMNOPQRSTUVWXYZ", (strBytes "ABCDEFGHIJKLMNOPQRSTUVWXYZ")[i.1]? = some y ∧
          isAlpha y = true ∧ (strBytes "abcdefghijklmnopqrstuvwxyz")[i.1]? = some (toLower y) := by decide +kernel
        obtain ⟨y, _, h⟩ := this i
        exact ⟨y, h⟩
      obtain ⟨y, k1, k2, k3⟩ := key ⟨i, hi⟩
      rw [h1] at k1; rw [h2] at k3
      cases k1; cases k3
      exact ⟨k2, rfl⟩
    · have : ∀ x ∈ strBytes "abcdefghijklmnopqrstuvwxyz", isAlpha x = true ∧ x = toLower x := by decide +kernel
      exact this x h
    · cases h
  · rintro ⟨h, rfl⟩
    have key : ∀ x : UInt8, isAlpha x = true → (∃ i : Fin 26, (strBytes "ABCDEFGHIJKLMNOPQRSTUVWXYZ")[i.1]? = some x ∧
        (strBytes "abcdefghijklmnopqrstuvwxyz")[i.1]? = some (toLower x)) ∨ (x = toLower x ∧ x ∈ strBytes "abcdefghijklmnopqrstuvwxyz") :=
      forall_uint8 (P := fun x => isAlpha x = true → (∃ i : Fin 26, (strBytes "ABCDEFGHIJKLMNOPQRSTUVWXYZ")[i.1]? = some x ∧
        (strBytes "abcdefghijklmnopqrstuvwxyz")[i.1]? = some (toLower x)) ∨ (x = toLower x ∧ x ∈ strBytes "abcdefghijklmnopqrstuvwxyz"))
        (by decide +kernel)
    rcases key x h with ⟨i, h⟩ | ⟨h1, h2⟩
    · exact Or.inl ⟨i.1, h⟩
    · exact Or.inr ⟨h1, Or.inl h2⟩

theorem folds_all_iff (x x' : UInt8) : Folds "0123456789+-." x x' ↔ isSchemeByte x = true ∧ x' = toLower x := by
  constructor
  · rintro (h | ⟨rfl, h | h⟩)
    · have := (folds_iff x x').1 (Or.inl h)
      refine ⟨?_, this.2⟩
      unfold isSchemeByte
      rw [this.1]; rfl
    · have := (folds_iff x x).1 (Or.inr ⟨rfl, Or.inl h⟩)
      refine ⟨?_, this.2⟩
      unfold isSchemeByte
      rw [this.1]; rfl
    · have : ∀ x ∈ strBytes "0123456789+-.", isSchemeByte x = true ∧ x = toLower x := by decide +kernel
      exact this x h
  · rintro ⟨h, rfl⟩
    by_cases ha : isAlpha x = true
    · rcases (folds_iff x _).2 ⟨ha, rfl⟩ with h | ⟨h, h' | h'⟩
      · exact Or.inl h
      · exact Or.inr ⟨h, Or.inl h'⟩
      · cases h'
    · have key : ∀ x : UInt8, isSchemeByte x = true → isAlpha x ≠ true → x = toLower x ∧ x ∈ strBytes "0123456789+-." :=
        forall_uint8 (P := fun x => isSchemeByte x = true → isAlpha x ≠ true → x = toLower x ∧ x ∈ strBytes "0123456789+-.") (by decide +kernel)
      exact Or.inr ⟨(key x h ha).1, Or.inr (key x h ha).2⟩

theorem schemeText_iff (raw low : Bytes) : SchemeText raw low ↔
    ∃ c r, raw = c :: r ∧ isAlpha c = true ∧ (∀ x ∈ r, isSchemeByte x = true) ∧ low = raw.map toLower := by
  constructor
  · rintro ⟨c, r, c', r', rfl, rfl, h1, h2, h3⟩
    obtain ⟨ha, rfl⟩ := (folds_iff c c').1 h1
    have key : ∀ (r r' : Bytes), r'.length = r.length → (∀ (i : Nat) (x x' : UInt8), r[i]? = some x → r'[i]? = some x' → Folds "0123456789+-." x x') →
        (∀ x ∈ r, isSchemeByte x = true) ∧ r' = r.map toLower := by
      intro r
      induction r with
      | nil => intro r' hl _; exact ⟨by simp, by simpa using hl⟩
      | cons x r ih =>
        intro r' hl h
        cases r' with
        | nil => simp at hl
        | cons x' r' =>
          obtain ⟨g1, g2⟩ := ih r' (by simpa using hl) (fun i y y' hy hy' => h (i + 1) y y' (by simpa using hy) (by simpa using hy'))
          obtain ⟨g3, g4⟩ := (folds_all_iff x x').1 (h 0 x x' rfl rfl)
          refine ⟨?_, by rw [g2, g4]; rfl⟩
          intro y hy
          rcases List.mem_cons.1 hy with rfl | hy
          · exact g3
          · exact g1 y hy
    obtain ⟨g1, g2⟩ := key r r' h2 h3
    exact ⟨c, r, rfl, ha, g1, by rw [g2]; rfl⟩
  · rintro ⟨c, r, rfl, ha, hr, rfl⟩
    refine ⟨c, r, toLower c, r.map toLower, rfl, rfl, (folds_iff _ _).2 ⟨ha, rfl⟩, by simp, ?_⟩
    intro i x x' hx hx'
    rw [List.getElem?_map, hx] at hx'
    cases hx'
    exact (folds_all_iff _ _).2 ⟨hr x (List.mem_of_getElem? hx), rfl⟩

theorem go_iff (r : Bytes) : ∀ (acc s rest : Bytes), splitScheme.go acc r = some (s, rest) ↔
    ∃ raw, r = raw ++ 58 :: rest ∧ (∀ x ∈ raw, isSchemeByte x = true) ∧ s = acc.reverse ++ raw.map toLower := by
  induction r with
  | nil =>
    intro acc s rest
    simp [splitScheme.go]
  | cons b r ih =>
    intro acc s rest
    unfold splitScheme.go
    split
    · rename_i hb
      subst hb
      constructor
      · intro e
        cases e
        exact ⟨[], rfl, by simp, by simp⟩
      · rintro ⟨raw, e, h, rfl⟩
        cases raw with
        | nil => simp at e; rw [e]; simp
        | cons x raw =>
          have hx : isSchemeByte x = true := h x (by simp)
          cases (List.cons.inj e).1
          exact absurd hx (by decide)
    · rename_i hb
      split
      · rename_i hs
        rw [ih]
        constructor
        · rintro ⟨raw, rfl, h, rfl⟩
          refine ⟨b :: raw, rfl, ?_, by simp⟩
          intro x hx
          rcases List.mem_cons.1 hx with rfl | hx
          · exact hs
          · exact h x hx
        · rintro ⟨raw, e, h, rfl⟩
          cases raw with
          | nil => exact absurd (List.cons.inj e).1 hb
          | cons x raw =>
            obtain ⟨rfl, e'⟩ := List.cons.inj e
            exact ⟨raw, e', fun y hy => h y (by simp [hy]), by simp⟩
      · rename_i hs
        constructor
        · intro e; cases e
        · rintro ⟨raw, e, h, rfl⟩
          cases raw with
          | nil => exact absurd (List.cons.inj e).1 hb
          | cons x raw =>
            obtain ⟨rfl, e⟩ := List.cons.inj e
            exact absurd (h _ (by simp)) hs

theorem splitScheme_iff (t s rest : Bytes) : splitScheme t = some (s, rest) ↔ ∃ raw, t = raw ++ 58 :: rest ∧ SchemeText raw s := by
  simp only [schemeText_iff]
  cases t with
  | nil => simp [splitScheme]
  | cons b t =>
    rw [splitScheme]
    split
    · rename_i ha
      rw [go_iff]
      constructor
      · rintro ⟨raw, rfl, h, rfl⟩
        exact ⟨b :: raw, rfl, b, raw, rfl, ha, h, rfl⟩
      · rintro ⟨_, e, c, r, rfl, _, h, rfl⟩
        obtain ⟨rfl, e'⟩ := List.cons.inj e
        exact ⟨r, e', h, rfl⟩
    · rename_i ha
      constructor
      · intro e; cases e
      · rintro ⟨_, e, c, r, rfl, h, _⟩
        obtain ⟨rfl, e⟩ := List.cons.inj e
        exact absurd h ha

theorem scheme_ascii {raw low : Bytes} (h : SchemeText raw low) : IsAscii low := by
  obtain ⟨c, r, rfl, ha, hr, rfl⟩ := (schemeText_iff _ _).1 h
  have key : ∀ x : UInt8, isSchemeByte x = true → (toLower x).toNat < 128 :=
    forall_uint8 (P := fun x => isSchemeByte x = true → (toLower x).toNat < 128) (by decide +kernel)
  intro x hx
  obtain ⟨y, hy, rfl⟩ := List.mem_map.1 hx
  rcases List.mem_cons.1 hy with rfl | hy
  · exact key _ (by unfold isSchemeByte; rw [ha]; rfl)
  · exact key _ (hr y hy)

/-! ## Host and port -/

theorem isForbiddenHost_iff (b : UInt8) : isForbiddenHost b = true ↔ b ∈ strBytes "\x00\t\n\r #/:<>?@[\\]^|" := by
  revert b
  exact forall_uint8 (P := fun b => isForbiddenHost b = true ↔ b ∈ strBytes "\x00\t\n\r #/:<>?@[\\]^|") (by decide +kernel)

theorem digit10_iff (b : UInt8) : isDigit b = true ↔ Ipv4.isDigitOf 10 b = true :=
  forall_uint8 (P := fun b => isDigit b = true ↔ Ipv4.isDigitOf 10 b = true) (by decide +kernel) b

theorem digit10_val (b : UInt8) : isDigit b = true → b.toNat - 48 = (Ipv6.hexVal b).getD 0 :=
  forall_uint8 (P := fun b => isDigit b = true → b.toNat - 48 = (Ipv6.hexVal b).getD 0) (by decide +kernel) b

theorem foldl_congr {α β : Type} {f g : α → β → α} {l : List β} (h : ∀ b ∈ l, ∀ a, f a b = g a b) : ∀ a, l.foldl f a = l.foldl g a := by
  induction l with
  | nil => intro a; rfl
  | cons b l ih =>
    intro a
    rw [List.foldl_cons, List.foldl_cons, h b (by simp), ih fun c hc => h c (by simp [hc])]

theorem radix10_iff (p : Bytes) (n : Nat) : RadixText 10 p n ↔ p.all isDigit = true ∧ n = p.foldl (fun n d => 10 * n + (d.toNat - 48)) 0 := by
  rw [← Ipv4.radixText_iff (by omega), Ipv4.number]
  have hall : p.all isDigit = true ↔ p.all (Ipv4.isDigitOf 10) = true := by
    simp only [List.all_eq_true]
    exact ⟨fun h x hx => (digit10_iff x).1 (h x hx), fun h x hx => (digit10_iff x).2 (h x hx)⟩
  rw [hall]
  constructor
  · intro h
    split at h
    · rename_i ha
      refine ⟨ha, ?_⟩
      rw [← Option.some.inj h]
      apply foldl_congr
      intro b hb a
      rw [digit10_val b ((digit10_iff b).2 (List.all_eq_true.1 ha b hb))]
    · cases h
  · rintro ⟨ha, rfl⟩
    rw [if_pos ha]
    congr 1
    apply foldl_congr
    intro b hb a
    rw [digit10_val b ((digit10_iff b).2 (List.all_eq_true.1 ha b hb))]

/-- The port that is read after the colon. -/
def portVal : Bytes → Option Nat
  | [] => none
  | b :: p => some ((b :: p).foldl (fun n d => 10 * n + (d.toNat - 48)) 0)

theorem portText_iff (pt : Bytes) (port : Option Nat) :
    PortText pt port ↔ (pt = [] ∨ ∃ p, pt = 58 :: p) ∧ portOk pt.tail = true ∧ port = portVal pt.tail := by
  constructor
  · intro h
    cases h with
    | none => exact ⟨Or.inl rfl, rfl, rfl⟩
    | missing => exact ⟨Or.inr ⟨[], rfl⟩, rfl, rfl⟩
    | @given p n hne hr hn =>
      obtain ⟨ha, e⟩ := (radix10_iff p n).1 hr
      refine ⟨Or.inr ⟨p, rfl⟩, ?_, ?_⟩
      · rw [List.tail_cons, portOk, ha, ← e, decide_eq_true hn]; rfl
      · cases p with
        | nil => exact absurd rfl hne
        | cons b p => rw [List.tail_cons, portVal, ← e]
  · rintro ⟨h, hok, rfl⟩
    rcases h with rfl | ⟨p, rfl⟩
    · exact .none
    · cases p with
      | nil => exact .missing
      | cons b p =>
        rw [List.tail_cons, portOk, Bool.and_eq_true, decide_eq_true_eq] at hok
        exact .given (by simp) ((radix10_iff _ _).2 ⟨hok.1, rfl⟩) hok.2

/-! ### User and password -/

/-- Everything before the last `@`, and it. -/
def userPart (a : Bytes) : Bytes := (a.reverse.dropWhile (· != 64)).reverse

theorem userPart_append (a : Bytes) : userPart a ++ hostPort a = a := by
  rw [userPart, hostPort, ← List.reverse_append, List.takeWhile_append_dropWhile, List.reverse_reverse]

theorem userPart_shape (a : Bytes) : (userPart a = [] ∧ userInfo a = []) ∨ userPart a = userInfo a ++ [64] := by
  have := dropWhile_head (· != (64 : UInt8)) a.reverse
  unfold userPart userInfo
  generalize a.reverse.dropWhile (· != 64) = r at this
  cases r with
  | nil => exact Or.inl ⟨rfl, rfl⟩
  | cons y r =>
    have : y = 64 := by simpa using this y (by simp)
    subst this
    exact Or.inr (by simp)

theorem hostPort_at (a : Bytes) : 64 ∉ hostPort a := by
  intro hm
  rw [hostPort, List.mem_reverse] at hm
  simpa using takeWhile_all _ _ _ hm

theorem hostPort_of {us m : Bytes} (hu : us = [] ∨ ∃ x, us = x ++ [64]) (hm : 64 ∉ m) : hostPort (us ++ m) = m := by
  rw [hostPort, List.reverse_append]
  have := (takeWhile_of (p := (· != (64 : UInt8))) (a := m.reverse) (b := us.reverse)
    (fun x hx => by simp only [bne_iff_ne]; rintro rfl; exact hm (by simpa using hx))
    (by rcases hu with rfl | ⟨x, rfl⟩ <;> simp)).1
  rw [this, List.reverse_reverse]

theorem userPart_of {us m : Bytes} (hu : us = [] ∨ ∃ x, us = x ++ [64]) (hm : 64 ∉ m) : userPart (us ++ m) = us := by
  have h := userPart_append (us ++ m)
  rw [hostPort_of hu hm] at h
  exact List.append_cancel_right h

/-- User and password that are read from what stands before the `@`. -/
theorem userText_iff (a : Bytes) (u : String) (pw : Option String) :
    UserText (userPart a) u pw ↔ u = userOf a ∧ pw = passwordOf a := by
  have hname (x y : Bytes) (hx : 58 ∉ x) (hy : y = [] ∨ ∃ z, y = 58 :: z) (hi : userInfo a = x ++ y) : userOf a = asciiStr (x.flatMap encUser) ∧
      passwordOf a = (match y.tail with | [] => none | b :: p => some (asciiStr ((b :: p).flatMap encUser))) := by
    obtain ⟨e1, e2⟩ := takeWhile_of (p := (· != (58 : UInt8))) (a := x) (b := y) (fun b hb => by
      simp only [bne_iff_ne]; rintro rfl; exact hx hb) (by rcases hy with rfl | ⟨z, rfl⟩ <;> simp)
    rw [userOf, passwordOf, hi, e1, e2]
    exact ⟨rfl, rfl⟩
  have info (x : Bytes) (h : x ++ [64] = userPart a) : userInfo a = x := by
    rcases userPart_shape a with ⟨h1, _⟩ | h1
    · rw [h1] at h; simp at h
    · rw [h1] at h; exact (List.append_cancel_right h).symm
  constructor
  · intro h
    generalize he : userPart a = us at h
    cases h with
    | none =>
      rcases userPart_shape a with ⟨_, h1⟩ | h1
      · have := hname [] [] (by simp) (Or.inl rfl) h1
        exact ⟨this.1.symm, this.2.symm⟩
      · rw [he] at h1; simp at h1
    | @user x u hx hu =>
      have := hname x [] hx (Or.inl rfl) (by rw [info x he.symm, List.append_nil])
      exact ⟨by rw [this.1]; exact (escaped_user_str _ _).1 hu, this.2.symm⟩
    | @missing x u hx hu =>
      have := hname x [58] hx (Or.inr ⟨[], rfl⟩) (info (x ++ [58]) (by rw [he]; simp))
      exact ⟨by rw [this.1]; exact (escaped_user_str _ _).1 hu, this.2.symm⟩
    | @password x y u p hx hy hu hp =>
      have := hname x (58 :: y) hx (Or.inr ⟨y, rfl⟩) (info (x ++ 58 :: y) (by rw [he]; simp))
      refine ⟨by rw [this.1]; exact (escaped_user_str _ _).1 hu, ?_⟩
      rw [this.2]
      cases y with
      | nil => exact absurd rfl hy
      | cons b y => rw [(escaped_user_str _ _).1 hp]; rfl
  · rintro ⟨rfl, rfl⟩
    rcases userPart_shape a with ⟨h1, h2⟩ | h1
    · have := hname [] [] (by simp) (Or.inl rfl) h2
      rw [h1, this.1, this.2]
      exact .none
    · have hsplit := List.takeWhile_append_dropWhile (p := (· != (58 : UInt8))) (l := userInfo a)
      have hx : (58 : UInt8) ∉ (userInfo a).takeWhile (· != 58) := fun hm => by simpa using takeWhile_all _ _ _ hm
      have hd := dropWhile_head (· != (58 : UInt8)) (userInfo a)
      generalize (userInfo a).takeWhile (· != 58) = x at *
      generalize (userInfo a).dropWhile (· != 58) = y at *
      rw [h1]
      cases y with
      | nil =>
        have := hname x [] hx (Or.inl rfl) hsplit.symm
        rw [this.1, this.2, ← hsplit, List.append_nil]
        exact .user hx ((escaped_user_str _ _).2 rfl)
      | cons c y =>
        have : c = 58 := by simpa using hd c (by simp)
        subst this
        have := hname x (58 :: y) hx (Or.inr ⟨y, rfl⟩) hsplit.symm
        rw [this.1, this.2, ← hsplit]
        cases y with
        | nil => rw [List.append_assoc]; exact .missing hx ((escaped_user_str _ _).2 rfl)
        | cons b y => rw [List.append_assoc, List.cons_append]; exact .password hx (by simp) ((escaped_user_str _ _).2 rfl) ((escaped_user_str _ _).2 rfl)

/-- Without colons and brackets. -/
theorem splitHost_name {h r : Bytes} (hh : ∀ b ∈ h, b ≠ 58 ∧ b ≠ 91 ∧ b ≠ 93) (hr : r = [] ∨ ∃ p, r = 58 :: p) : splitHost false (h ++ r) = (h, r) := by
  induction h with
  | nil =>
    rcases hr with rfl | ⟨p, rfl⟩
    · rfl
    · simp [splitHost]
  | cons b h ih =>
    obtain ⟨h1, h2, h3⟩ := hh b (by simp)
    rw [List.cons_append, splitHost, if_neg (fun e => h1 e.1), if_neg h2, if_neg h3, ih (fun x hx => hh x (by simp [hx]))]

theorem splitHost_inside {x r : Bytes} (hx : ∀ b ∈ x, b ≠ 91 ∧ b ≠ 93) (hr : r = [] ∨ ∃ p, r = 58 :: p) :
    splitHost true (x ++ 93 :: r) = (x ++ [93], r) := by
  induction x with
  | nil =>
    rw [List.nil_append, splitHost, if_neg (by simp), if_neg (by decide), if_pos rfl]
    have := splitHost_name (h := []) (r := r) (by simp) hr
    rw [List.nil_append] at this
    rw [this]
    rfl
  | cons b x ih =>
    obtain ⟨h2, h3⟩ := hx b (by simp)
    rw [List.cons_append, splitHost, if_neg (by simp), if_neg h2, if_neg h3, ih (fun x hx' => hx x (by simp [hx']))]
    rfl

theorem splitHost_address {x r : Bytes} (hx : ∀ b ∈ x, b ≠ 91 ∧ b ≠ 93) (hr : r = [] ∨ ∃ p, r = 58 :: p) :
    splitHost false (91 :: (x ++ [93]) ++ r) = (91 :: (x ++ [93]), r) := by
  rw [List.cons_append, List.append_assoc, List.singleton_append, splitHost, if_neg (by decide), if_pos rfl, splitHost_inside hx hr]

theorem splitHost_append (b : Bytes) : ∀ inside, (splitHost inside b).1 ++ (splitHost inside b).2 = b := by
  induction b with
  | nil => intro _; rfl
  | cons x b ih =>
    intro inside
    unfold splitHost
    split
    · rfl
    · rw [List.cons_append, ih]

theorem splitHost_snd (b : Bytes) : ∀ inside, (splitHost inside b).2 = [] ∨ ∃ p, (splitHost inside b).2 = 58 :: p := by
  induction b with
  | nil => intro _; exact Or.inl rfl
  | cons x b ih =>
    intro inside
    unfold splitHost
    split
    · rename_i h
      exact Or.inr ⟨b, by rw [h.1]⟩
    · exact ih _

theorem address_chars (b : UInt8) : (Ipv6.isHex b = true ∨ b = 58 ∨ b = 46) → 32 < b.toNat ∧ b.toNat < 128 ∧ b ∉ strBytes "[]@/?#" := by
  revert b
  exact forall_uint8 (P := fun b => (Ipv6.isHex b = true ∨ b = 58 ∨ b = 46) → 32 < b.toNat ∧ b.toNat < 128 ∧ b ∉ strBytes "[]@/?#")
    (by decide +kernel)

theorem address_char (b : UInt8) : b ∉ strBytes "[]@/?#" → b ∉ strBytes "[]@" ∧ b ∉ strBytes "/?#" := by
  revert b
  exact forall_uint8 (P := fun b => b ∉ strBytes "[]@/?#" → b ∉ strBytes "[]@" ∧ b ∉ strBytes "/?#") (by decide +kernel)

theorem addressText_chars {x : Bytes} {ps : List Nat} (h : AddressText x ps) : ∀ b ∈ x, b ∉ strBytes "[]@" :=
  fun b hb => (address_char b (address_chars b (Ipv6.address_chars h b hb)).2.2).1

theorem hostOf_iff (h : Bytes) (host : String) : hostOf h = some host ↔ HostText h host := by
  unfold hostOf
  split
  · rename_i hh
    cases h with
    | nil => cases hh
    | cons b t =>
      simp only [List.head?_cons, Option.some.injEq] at hh
      subst hh
      constructor
      · intro e
        split at e
        · rename_i hl
          obtain ⟨y, hy, rfl⟩ := Option.map_eq_some_iff.1 e
          rw [List.tail_cons] at hy
          have hs : ∃ x, t = x ++ [93] := by
            rcases List.eq_nil_or_concat t with rfl | ⟨x, y, rfl⟩
            · simp at hl
            · rw [List.concat_eq_append, ← List.cons_append, List.getLast?_concat] at hl
              cases hl
              exact ⟨x, List.concat_eq_append⟩
          obtain ⟨x, rfl⟩ := hs
          rw [List.dropLast_concat] at hy
          obtain ⟨ps, h1, h2⟩ := (Ipv6.normal_iff x y).1 hy
          refine .address h1 ?_
          rw [strBytes_asciiStr]
          · exact h2
          · intro b hb
            exact (address_chars b (Ipv6.address_chars (Ipv6.normal_address h2 (Ipv6.address_shape h1).1) b hb)).2.1
        · cases e
      · intro e
        generalize hb : 91 :: t = b at e
        cases e with
        | name hn _ => subst hb; exact absurd (by decide +kernel) (hn 91 (by simp))
        | @address x ps s hx hi =>
          obtain ⟨_, rfl⟩ := List.cons.inj hb
          rw [if_pos (by rw [← List.cons_append, List.getLast?_concat])]
          rw [List.tail_cons, List.dropLast_concat, (Ipv6.normal_iff x (strBytes s)).2 ⟨ps, hx, hi⟩]
          have hs : asciiStr (strBytes s) = s := strBytes_inj (strBytes_asciiStr fun b hb =>
            (address_chars b (Ipv6.address_chars (Ipv6.normal_address hi (Ipv6.address_shape hx).1) b hb)).2.1)
          rw [Option.map_some, hs]
  · rename_i hh
    constructor
    · intro e
      split at e
      · cases e
      · rename_i hf
        simp only [Option.some.injEq] at e
        refine .name ?_ ((escaped_path_str _ _).2 e.symm)
        intro b hb hc
        exact hf (List.any_eq_true.2 ⟨b, hb, (isForbiddenHost_iff b).2 hc⟩)
    · intro e
      cases e with
      | name hn he =>
        rw [if_neg, (escaped_path_str _ _).1 he]
        intro hc
        obtain ⟨b, hb, hf⟩ := List.any_eq_true.1 hc
        exact hn b hb ((isForbiddenHost_iff b).1 hf)
      | address => exact absurd rfl hh

theorem hostText_at {h : Bytes} {host : String} (hh : HostText h host) : 64 ∉ h := by
  cases hh with
  | name hn _ => exact fun hm => hn 64 hm (by decide +kernel)
  | address hx _ =>
    intro hm
    simp only [List.mem_cons, List.mem_append, List.not_mem_nil, or_false] at hm
    rcases hm with hm | hm | hm
    · exact absurd hm (by decide)
    · exact addressText_chars hx 64 hm (by decide +kernel)
    · exact absurd hm (by decide)

theorem splitHost_hostText {h r : Bytes} {host : String} (hh : HostText h host) (hr : r = [] ∨ ∃ p, r = 58 :: p) :
    splitHost false (h ++ r) = (h, r) := by
  cases hh with
  | name hn _ =>
    refine splitHost_name (fun b hb => ⟨?_, ?_, ?_⟩) hr <;> (rintro rfl; exact hn _ hb (by decide +kernel))
  | address hx _ =>
    refine splitHost_address (fun b hb => ⟨?_, ?_⟩) hr <;> (rintro rfl; exact addressText_chars hx _ hb (by decide +kernel))

theorem userText_end {us : Bytes} {u : String} {pw : Option String} (h : UserText us u pw) : us = [] ∨ ∃ x, us = x ++ [64] := by
  cases h with
  | none => exact Or.inl rfl
  | user => exact Or.inr ⟨_, rfl⟩
  | @missing x => exact Or.inr ⟨x ++ [58], by simp⟩
  | @password x y => exact Or.inr ⟨x ++ 58 :: y, by simp⟩

/-- User, host and port are read exactly from their text, if hosts are and do not contain the marks between them. -/
theorem authorityOf_of {host : Bytes → Option String} {hosts : Bytes → String → Prop} (hiff : ∀ h s, host h = some s ↔ hosts h s)
    (hat : ∀ h s, hosts h s → 64 ∉ h)
    (hsplit : ∀ h s r, hosts h s → (r = [] ∨ ∃ p, r = 58 :: p) → splitHost false (h ++ r) = (h, r))
    (a : Bytes) (s user : String) (pw : Option String) (port : Option Nat) :
    (authorityOf host a = some s ∧ user = userOf a ∧ pw = passwordOf a ∧ port = portOf a) ↔ AuthorityText hosts a s user pw port := by
  have hpo : portOf a = portVal (splitHost false (hostPort a)).2.tail := by
    unfold portOf portVal
    rfl
  constructor
  · rintro ⟨e, hu, hpw, hport⟩
    have ha := userPart_append a
    have hu' := (userText_iff a user pw).2 ⟨hu, hpw⟩
    rw [hpo] at hport
    unfold authorityOf at e
    simp only [] at e
    have hs := splitHost_append (hostPort a) false
    have hq := splitHost_snd (hostPort a) false
    generalize (splitHost false (hostPort a)).1 = h at *
    generalize (splitHost false (hostPort a)).2 = pt at *
    split at e
    · cases e
    · rename_i hg
      split at e
      · rename_i hok
        refine ⟨userPart a, h, pt, by rw [List.append_assoc, hs, ha], hu', (portText_iff _ _).2 ⟨hq, hok, hport⟩, (hiff h s).1 e, ?_⟩
        intro hn
        constructor
        · rcases userPart_shape a with ⟨h1, _⟩ | h1
          · exact h1
          · exact absurd ⟨hn, Or.inl (by rw [← ha, h1]; simp)⟩ hg
        · exact Classical.byContradiction fun hne => hg ⟨hn, Or.inr hne⟩
      · cases e
  · rintro ⟨us, h, pt, ha, hu, hport, hh, hempty⟩
    obtain ⟨hr, hok, hpv⟩ := (portText_iff _ _).1 hport
    have hm : 64 ∉ h ++ pt := by
      intro hm
      rcases List.mem_append.1 hm with hm | hm
      · exact hat h s hh hm
      · rcases hr with rfl | ⟨p, rfl⟩
        · cases hm
        · rcases List.mem_cons.1 hm with hm | hm
          · exact absurd hm (by decide)
          · rw [List.tail_cons, portOk, Bool.and_eq_true, List.all_eq_true] at hok
            exact absurd (hok.1 64 hm) (by decide)
    have ha' : a = us ++ (h ++ pt) := by rw [ha, List.append_assoc]
    have hp : hostPort a = h ++ pt := by rw [ha']; exact hostPort_of (userText_end hu) hm
    have hup : userPart a = us := by rw [ha']; exact userPart_of (userText_end hu) hm
    rw [← hup] at hu
    obtain ⟨h1, h2⟩ := (userText_iff a user pw).1 hu
    refine ⟨?_, h1, h2, ?_⟩
    · unfold authorityOf
      simp only []
      rw [hp, hsplit h s pt hh hr, if_neg, if_pos hok]
      · exact (hiff h s).2 hh
      · rintro ⟨hn, hc⟩
        obtain ⟨e1, e2⟩ := hempty hn
        have hn : h = [] := hn
        rcases hc with hc | hc
        · rw [ha', e1, e2, hn] at hc; cases hc
        · exact hc e2
    · rw [hpo, hp, hsplit h s pt hh hr, hpv]

theorem authorityOf_iff (a : Bytes) (s user : String) (pw : Option String) (port : Option Nat) :
    (authorityOf hostOf a = some s ∧ user = userOf a ∧ pw = passwordOf a ∧ port = portOf a) ↔ AuthorityText HostText a s user pw port :=
  authorityOf_of hostOf_iff (fun _ _ h => hostText_at h) (fun _ _ _ h hr => splitHost_hostText h hr) a s user pw port

/-! ## Space -/

theorem isC0Space_iff (b : UInt8) : isC0Space b = true ↔ b.toNat ≤ 32 := by
  revert b
  exact forall_uint8 (P := fun b => isC0Space b = true ↔ b.toNat ≤ 32) (by decide +kernel)

theorem isTabNl_iff (b : UInt8) : (!isTabNl b) = true ↔ b ∉ strBytes "\t\n\r" := by
  revert b
  exact forall_uint8 (P := fun b => (!isTabNl b) = true ↔ b ∉ strBytes "\t\n\r") (by decide +kernel)

theorem trim_of {pre m post : Bytes} (h1 : ∀ b ∈ pre, b.toNat ≤ 32) (h2 : ∀ b ∈ post, b.toNat ≤ 32) (h3 : ∀ b ∈ m.head?, 32 < b.toNat)
    (h4 : ∀ b ∈ m.getLast?, 32 < b.toNat) : trim (pre ++ m ++ post) = m := by
  have hno : ∀ b : UInt8, 32 < b.toNat → isC0Space b = false := fun b hb => by
    cases h : isC0Space b with
    | false => rfl
    | true => exact absurd ((isC0Space_iff b).1 h) (by omega)
  unfold trim
  cases m with
  | nil =>
    have : (pre ++ [] ++ post).dropWhile isC0Space = [] := by
      have := (takeWhile_of (p := isC0Space) (a := pre ++ post) (b := []) (fun x hx => by
        rcases List.mem_append.1 hx with hx | hx
        · exact (isC0Space_iff _).2 (h1 x hx)
        · exact (isC0Space_iff _).2 (h2 x hx)) (by simp)).2
      simpa using this
    rw [this]
    rfl
  | cons x m =>
    have e1 : (pre ++ x :: m ++ post).dropWhile isC0Space = x :: m ++ post := by
      rw [List.append_assoc]
      exact (takeWhile_of (fun y hy => (isC0Space_iff _).2 (h1 y hy)) (by
        intro y hy
        exact hno y (h3 y (by simpa using hy)))).2
    have e2 : (x :: m ++ post).reverse.dropWhile isC0Space = (x :: m).reverse := by
      rw [List.reverse_append]
      exact (takeWhile_of (fun y hy => (isC0Space_iff _).2 (h2 y (by simpa using hy))) (by
        intro y hy
        rw [List.head?_reverse] at hy
        exact hno y (h4 y hy))).2
    rw [e1, e2, List.reverse_reverse]

theorem trim_split (t : Bytes) : ∃ pre post, t = pre ++ trim t ++ post ∧ (∀ b ∈ pre, b.toNat ≤ 32) ∧ (∀ b ∈ post, b.toNat ≤ 32) ∧
    (∀ b ∈ (trim t).head?, 32 < b.toNat) ∧ (∀ b ∈ (trim t).getLast?, 32 < b.toNat) := by
  have hno : ∀ b : UInt8, isC0Space b = false → 32 < b.toNat := fun b hb => by
    apply Classical.byContradiction
    intro h
    rw [(isC0Space_iff b).2 (by omega)] at hb
    cases hb
  have e2 := List.takeWhile_append_dropWhile (p := isC0Space) (l := (t.dropWhile isC0Space).reverse)
  have e1 := List.takeWhile_append_dropWhile (p := isC0Space) (l := t)
  refine ⟨t.takeWhile isC0Space, ((t.dropWhile isC0Space).reverse.takeWhile isC0Space).reverse, ?_, ?_, ?_, ?_, ?_⟩
  · unfold trim
    rw [List.append_assoc, ← List.reverse_append, e2, List.reverse_reverse, e1]
  · intro b hb
    exact (isC0Space_iff b).1 (takeWhile_all _ _ b hb)
  · intro b hb
    rw [List.mem_reverse] at hb
    exact (isC0Space_iff b).1 (takeWhile_all _ _ b hb)
  · intro b hb
    have hd := dropWhile_head isC0Space t
    have : (t.dropWhile isC0Space) = trim t ++ ((t.dropWhile isC0Space).reverse.takeWhile isC0Space).reverse := by
      unfold trim
      rw [← List.reverse_append, e2, List.reverse_reverse]
    rw [this, List.head?_append] at hd
    cases hm : (trim t).head? with
    | none => rw [hm] at hb; cases hb
    | some y =>
      rw [hm] at hd hb
      cases hb
      exact hno _ (hd b rfl)
  · intro b hb
    unfold trim at hb
    rw [List.getLast?_reverse] at hb
    exact hno b (dropWhile_head _ _ b hb)

theorem tidied_iff (t t' : Bytes) : Tidied t t' ↔ t' = (trim t).filter fun b => !isTabNl b := by
  have hf : ∀ m : Bytes, (m.filter fun b => !isTabNl b) = m.filter fun b => b ∉ strBytes "\t\n\r" := by
    intro m
    congr 1
    funext b
    rw [Bool.eq_iff_iff, isTabNl_iff, decide_eq_true_iff]
  constructor
  · rintro ⟨pre, m, post, rfl, h1, h2, h3, h4, rfl⟩
    rw [trim_of h1 h2 h3 h4, hf]
  · rintro rfl
    obtain ⟨pre, post, e, h1, h2, h3, h4⟩ := trim_split t
    exact ⟨pre, _, post, e, h1, h2, h3, h4, hf _⟩

/-! ## URLs -/

theorem pathState_mem : ∀ (ss acc : List Bytes), ∀ x ∈ pathState acc ss, x = [] ∨ x ∈ acc ∨ x ∈ ss
  | [], acc, x, hx => by
    rw [pathState, List.mem_reverse] at hx
    exact Or.inr (Or.inl hx)
  | [s], acc, x, hx => by
    rw [pathState, List.mem_reverse] at hx
    split at hx
    · rcases List.mem_cons.1 hx with rfl | hx
      · exact Or.inl rfl
      · exact Or.inr (Or.inl (List.mem_of_mem_tail hx))
    · split at hx
      · rcases List.mem_cons.1 hx with rfl | hx
        · exact Or.inl rfl
        · exact Or.inr (Or.inl hx)
      · rcases List.mem_cons.1 hx with rfl | hx
        · exact Or.inr (Or.inr (by simp))
        · exact Or.inr (Or.inl hx)
  | s :: t :: rest, acc, x, hx => by
    rw [pathState] at hx
    rcases pathState_mem (t :: rest) _ x hx with h | h | h
    · exact Or.inl h
    · split at h
      · exact Or.inr (Or.inl (List.mem_of_mem_tail h))
      · split at h
        · exact Or.inr (Or.inl h)
        · rcases List.mem_cons.1 h with rfl | h
          · exact Or.inr (Or.inr (by simp))
          · exact Or.inr (Or.inl h)
    · exact Or.inr (Or.inr (List.mem_cons_of_mem _ h))

theorem hierPath_ascii (b : Bytes) : IsAscii (hierPath b) := by
  cases b with
  | nil => intro x hx; cases hx
  | cons b p =>
    intro x hx
    obtain ⟨s, hs, hx⟩ := List.mem_flatMap.1 hx
    rcases List.mem_cons.1 hx with rfl | hx
    · decide
    · rcases pathState_mem _ _ s hs with rfl | h | h
      · cases hx
      · cases h
      · obtain ⟨s', _, rfl⟩ := List.mem_map.1 h
        exact segment_ascii s' x hx

theorem noMark_slash {s : Bytes} (h : NoMark s) : 47 ∉ s := fun hm => h 47 hm (by decide +kernel)
theorem noMark_path {s : Bytes} (h : NoMark s) : ∀ x ∈ s, isPathByte x = true := by
  intro x hx
  have := (noMark_iff x).2 (h x hx)
  rw [Bool.and_eq_true] at this
  exact this.2

theorem pathText_iff {segs : List Bytes} (h : ∀ s ∈ segs, NoMark s) (path : String) :
    PathText segs (strBytes path) ↔ path = asciiStr (hierPath (slashed segs)) := by
  rw [hierPath_iff segs (fun s hs => noMark_slash (h s hs)), str_eq_iff (hierPath_ascii _)]

theorem slashed_path {segs : List Bytes} (h : ∀ s ∈ segs, NoMark s) : ∀ x ∈ slashed segs, isPathByte x = true := by
  intro x hx
  obtain ⟨s, hs, hx⟩ := List.mem_flatMap.1 hx
  rcases List.mem_cons.1 hx with rfl | hx
  · rfl
  · exact noMark_path (h s hs) x hx

theorem slashed_head {segs : List Bytes} : ∀ x ∈ (slashed segs).head?, x = 47 := by
  intro x hx
  cases segs with
  | nil => cases hx
  | cons s segs =>
    have hx : x ∈ (47 :: (s ++ slashed segs)).head? := hx
    simpa using hx.symm

theorem segments_of {b : Bytes} (hb : ∀ x ∈ b, isPathByte x = true) (hh : ∀ x ∈ b.head?, x = 47) :
    ∃ segs, b = slashed segs ∧ ∀ s ∈ segs, NoMark s := by
  cases b with
  | nil => exact ⟨[], rfl, by simp⟩
  | cons x b =>
    have : x = 47 := hh x (by simp)
    subst this
    refine ⟨splitSlash b, (splitSlash_slashed b).symm, ?_⟩
    intro s hs x hx
    obtain ⟨h1, h2⟩ := splitSlash_mem b s hs
    refine (noMark_iff x).1 ?_
    rw [Bool.and_eq_true]
    refine ⟨?_, hb x (List.mem_cons_of_mem _ (h2 x hx))⟩
    simp only [bne_iff_ne]
    rintro rfl
    exact h1 hx

theorem special_iff (sch : String) : sch ∈ specials ↔ Special sch := Iff.rfl

theorem path_tail {segs : List Bytes} {tail : Bytes} {q f : Option String} (hs : ∀ s ∈ segs, NoMark s) (ht : TailText QueryChar tail q f) (sch host : String) :
    afterHost sch host (slashed segs ++ tail) = ⟨sch, host, asciiStr (hierPath (slashed segs)), q, f, "", none, none⟩ := by
  obtain ⟨e1, e2⟩ := takeWhile_of (slashed_path hs) (tailText_head ht)
  rw [afterHost_eq, e1, e2, ← (tailText_iff tail (tailText_head ht) q f).1 ht]

theorem afterHost_parts (rest : Bytes) (hh : ∀ x ∈ rest.head?, x = 47 ∨ isPathByte x = false) : ∃ segs tail, rest = slashed segs ++ tail ∧
    (∀ s ∈ segs, NoMark s) ∧ ∀ sch host, PathText segs (strBytes (afterHost sch host rest).path) ∧
      TailText QueryChar tail (afterHost sch host rest).query (afterHost sch host rest).fragment := by
  have hb : ∀ x ∈ (rest.takeWhile isPathByte).head?, x = 47 := by
    intro x hx
    cases rest with
    | nil => cases hx
    | cons y rest =>
      rw [List.takeWhile_cons] at hx
      split at hx
      · rename_i hy
        simp at hx
        subst hx
        rcases hh y (by simp) with h | h
        · exact h
        · rw [h] at hy; cases hy
      · cases hx
  obtain ⟨segs, e, hs⟩ := segments_of (takeWhile_all isPathByte rest) hb
  refine ⟨segs, rest.dropWhile isPathByte, by rw [← e, List.takeWhile_append_dropWhile], hs, fun sch host => ?_⟩
  rw [afterHost_eq]
  refine ⟨?_, ?_⟩
  · rw [pathText_iff hs, ← e]
  · exact (tailText_iff _ (dropWhile_head _ _) _ _).2 rfl

end Url

open Url

/-- A text is read as a URL of a scheme that is not special exactly if it is one, and what is read is what the URL Standard says. -/
theorem C82_reads (D : Deps) (s : String) (u : Url) :
    (Url.parse D s = some u ∧ ¬ Special u.scheme) ↔ ∃ t, Tidied (strBytes s) t ∧ UrlText t u := by
  have hgoal : (∃ t, Tidied (strBytes s) t ∧ UrlText t u) ↔ UrlText ((trim (strBytes s)).filter fun b => !isTabNl b) u := by
    constructor
    · rintro ⟨t, h, hu⟩
      rw [tidied_iff] at h
      exact h ▸ hu
    · intro h
      exact ⟨_, (tidied_iff _ _).2 rfl, h⟩
  rw [hgoal]
  unfold Url.parse parseBytes
  generalize (trim (strBytes s)).filter (fun b => !isTabNl b) = t
  constructor
  · rintro ⟨h, hns⟩
    split at h
    · cases h
    · rename_i sc rest hsc
      obtain ⟨raw, rfl, hraw⟩ := (splitScheme_iff _ _ _).1 hsc
      have hasc := strBytes_asciiStr (scheme_ascii hraw)
      simp only [] at h
      split at h
      · rename_i hor
        split at h
        · rename_i v hv
          have hu := Option.some.inj h
          have hsp : asciiStr sc ∉ specials := by
            intro hm
            apply hns
            rw [← hu]
            exact hm
          rw [if_neg hsp] at hv
          have hhead : rest.head? = some 47 := hor.resolve_left hsp
          cases rest with
          | nil => cases hhead
          | cons x r =>
            simp only [List.head?_cons, Option.some.injEq] at hhead
            subst hhead
            unfold hierarchical at hv
            split at hv
            · rename_i r' hr'
              obtain ⟨_, rfl⟩ := List.cons.inj hr'
              simp only [] at hv
              split at hv
              · cases hv
              · rename_i host hhost
                have hv := Option.some.inj hv
                have hd := Url.dropWhile_head (fun b => b != 47 && isPathByte b) r'
                have ha := takeWhile_all (fun b => b != 47 && isPathByte b) r'
                have hsplit := List.takeWhile_append_dropWhile (p := fun b => b != 47 && isPathByte b) (l := r')
                generalize r'.takeWhile (fun b => b != 47 && isPathByte b) = a at *
                generalize r'.dropWhile (fun b => b != 47 && isPathByte b) = rest at *
                obtain ⟨segs, tail, e, hs, hp⟩ := afterHost_parts rest (by
                  intro x hx
                  have := hd x hx
                  rcases Bool.and_eq_false_iff.1 this with h | h
                  · exact Or.inl (by simpa using h)
                  · exact Or.inr h)
                have hp := hp (asciiStr sc) host
                have hscheme : strBytes u.scheme = sc := by rw [← hu]; exact hasc
                rw [← hsplit, e, ← List.append_assoc]
                refine .authority (u := u) (by rw [hscheme]; exact hraw) hns ?_ hs ?_ ?_ ?_
                · exact fun x hx => (noMark_iff x).1 (ha x hx)
                · rw [← hu, ← hv, afterHost_eq]
                  exact (authorityOf_iff _ _ _ _ _).1 ⟨hhost, rfl, rfl, rfl⟩
                · rw [← hu, ← hv]; exact hp.1
                · rw [← hu, ← hv]; exact hp.2
            · rename_i hno
              have hv := Option.some.inj hv
              obtain ⟨segs, tail, e, hs, hp⟩ := afterHost_parts (47 :: r) (by
                intro x hx
                exact Or.inl (by simpa using hx.symm))
              have hp := hp (asciiStr sc) ""
              rw [hv] at hp
              have hscheme : strBytes u.scheme = sc := by rw [← hu]; exact hasc
              have hne : segs ≠ [] := by
                rintro rfl
                have ht := tailText_head hp.2
                have e : 47 :: r = tail := e
                rw [← e] at ht
                exact absurd (ht 47 rfl) (by decide)
              rw [e]
              refine .rooted (u := u) (by rw [hscheme]; exact hraw) hns hne ?_ hs ?_ ?_ ?_
              · intro hh
                cases segs with
                | nil => cases hh
                | cons s0 segs =>
                  simp only [List.head?_cons, Option.some.injEq] at hh
                  subst hh
                  cases segs with
                  | nil => rfl
                  | cons s1 segs =>
                    have e : 47 :: r = 47 :: 47 :: (s1 ++ slashed segs ++ tail) := by
                      rw [e]
                      show 47 :: ([] ++ 47 :: (s1 ++ slashed segs)) ++ tail = _
                      simp
                    exact absurd e (hno _)
              · rw [← hu, ← hv, afterHost_eq]
                exact ⟨rfl, rfl, rfl, rfl⟩
              · rw [← hu]; exact hp.1
              · rw [← hu]; exact hp.2
        · cases h
      · rename_i hor
        have hu := Option.some.inj h
        have hsp : asciiStr sc ∉ specials := fun hm => hor (Or.inl hm)
        have hhead : rest.head? ≠ some 47 := fun hm => hor (Or.inr hm)
        rw [opaque_eq] at hu
        have hsplit := List.takeWhile_append_dropWhile (p := isPathByte) (l := rest)
        have hd := Url.dropWhile_head isPathByte rest
        have ha := takeWhile_all isPathByte rest
        generalize rest.takeWhile isPathByte = path at *
        generalize rest.dropWhile isPathByte = tail at *
        subst hu
        rw [← hsplit]
        refine .opaque (by rw [hasc]; exact hraw) hsp ?_ ?_ ⟨rfl, rfl, rfl, rfl⟩ ?_ ((tailText_iff _ hd _ _).2 rfl)
        · intro hh
          apply hhead
          rw [← hsplit, List.head?_append, hh]
          rfl
        · exact fun b hb => (isPathByte_iff b).1 (ha b hb)
        · exact (escaped_path_str _ _).2 rfl
  · intro h
    cases h with
    | @«opaque» raw path tail u hraw hns hhead hpath hhost hesc htail =>
      refine ⟨?_, hns⟩
      rw [(splitScheme_iff _ _ _).2 ⟨raw, rfl, hraw⟩]
      simp only []
      have hasc : asciiStr (strBytes u.scheme) = u.scheme := ((str_eq_iff (scheme_ascii hraw) _).1 rfl).symm
      rw [hasc, if_neg]
      · obtain ⟨e1, e2⟩ := takeWhile_of (p := isPathByte) (a := path) (b := tail) (fun x hx => (isPathByte_iff x).2 (hpath x hx)) (tailText_head htail)
        rw [opaque_eq, e1, e2, ← (tailText_iff _ (tailText_head htail) _ _).1 htail, ← (escaped_path_str _ _).1 hesc]
        obtain ⟨h1, h2, h3, h4⟩ := hhost
        cases u
        subst h1; subst h2; subst h3; subst h4
        rfl
      · rintro (h | h)
        · exact hns h
        · rw [List.head?_append] at h
          cases hp : path.head? with
          | none =>
            rw [hp] at h
            exact absurd (tailText_head htail 47 h) (by decide)
          | some x =>
            rw [hp] at h
            exact hhead (by rw [hp]; exact h)
    | @rooted raw tail segs u hraw hns hne hone hs hhost hpath htail =>
      refine ⟨?_, hns⟩
      rw [(splitScheme_iff _ _ _).2 ⟨raw, rfl, hraw⟩]
      simp only []
      have hasc : asciiStr (strBytes u.scheme) = u.scheme := ((str_eq_iff (scheme_ascii hraw) _).1 rfl).symm
      have hrest : ∃ r, slashed segs ++ tail = 47 :: r := by
        cases segs with
        | nil => exact absurd rfl hne
        | cons s0 segs => exact ⟨s0 ++ slashed segs ++ tail, rfl⟩
      have hno : ∀ r, slashed segs ++ tail ≠ 47 :: 47 :: r := by
        intro r e
        cases segs with
        | nil => exact hne rfl
        | cons s0 segs =>
          have e : 47 :: (s0 ++ slashed segs ++ tail) = 47 :: 47 :: r := e
          have e := (List.cons.inj e).2
          cases s0 with
          | nil =>
            have := hone rfl
            cases segs with
            | nil =>
              have e : tail = 47 :: r := e
              rw [e] at htail
              exact absurd (tailText_head htail 47 rfl) (by decide)
            | cons _ _ => simp at this
          | cons x s0 =>
            cases (List.cons.inj e).1
            exact noMark_slash (hs (47 :: s0) (by simp)) (by simp)
      rw [hasc, if_pos, if_neg (show u.scheme ∉ specials from hns)]
      · have : hierarchical u.scheme (slashed segs ++ tail) = some (afterHost u.scheme "" (slashed segs ++ tail)) := by
          unfold hierarchical
          split
          · rename_i r e
            exact absurd e (hno r)
          · rfl
        rw [this, path_tail hs htail, ← (pathText_iff hs _).1 hpath]
        obtain ⟨h1, h2, h3, h4⟩ := hhost
        cases u
        subst h1; subst h2; subst h3; subst h4
        rfl
      · right
        obtain ⟨r, e⟩ := hrest
        rw [e]; rfl
    | @authority raw a tail segs u hraw hns ha hs hhost hpath htail =>
      refine ⟨?_, hns⟩
      rw [(splitScheme_iff _ _ _).2 ⟨raw, rfl, hraw⟩]
      simp only []
      have hasc : asciiStr (strBytes u.scheme) = u.scheme := ((str_eq_iff (scheme_ascii hraw) _).1 rfl).symm
      rw [hasc, if_pos (Or.inr (List.head?_cons ..)), if_neg (show u.scheme ∉ specials from hns)]
      obtain ⟨e1, e2⟩ := takeWhile_of (p := fun b => b != 47 && isPathByte b) (a := a) (b := slashed segs ++ tail)
        (fun x hx => (noMark_iff x).2 (ha x hx)) (by
          intro x hx
          rw [List.head?_append] at hx
          cases hp : (slashed segs).head? with
          | none =>
            rw [hp] at hx
            rw [tailText_head htail x hx, Bool.and_false]
          | some y =>
            rw [hp] at hx
            cases hx
            rw [slashed_head x hp]
            rfl)
      obtain ⟨h1, h2, h3, h4⟩ := (authorityOf_iff _ _ _ _ _).2 hhost
      rw [List.append_assoc, hierarchical, e1, e2]
      simp only []
      rw [h1]
      simp only []
      rw [path_tail hs htail, ← (pathText_iff hs _).1 hpath, ← h2, ← h3, ← h4]

/-! ## SegmentsText of what is read -/

namespace Url

theorem place_clean {p q : List Bytes} (h : Place p q) : ∀ x ∈ q, x ∈ p ∧ ¬ Dot x ∧ ¬ DotDot x := by
  induction h with
  | root => simp
  | @down p q s _ h1 h2 ih =>
    intro x hx
    rcases List.mem_append.1 hx with hx | hx
    · exact ⟨List.mem_append_left _ (ih x hx).1, (ih x hx).2⟩
    · rw [List.mem_singleton] at hx
      subst hx
      exact ⟨by simp, h1, h2⟩
  | stay _ _ ih => exact fun x hx => ⟨List.mem_append_left _ (ih x hx).1, (ih x hx).2⟩
  | up _ _ ih =>
    intro x hx
    have := ih x (List.mem_append_left _ hx)
    exact ⟨List.mem_append_left _ this.1, this.2⟩
  | top => simp

theorem nil_not_dot : ¬ Dot [] ∧ ¬ DotDot [] := by
  rw [← isDot_iff, ← isDotDot_iff]
  decide

theorem normalised_clean {p out : List Bytes} (h : Normalised p out) : ∀ x ∈ out, (x = [] ∨ x ∈ p) ∧ ¬ Dot x ∧ ¬ DotDot x := by
  obtain ⟨q, hq, ⟨_, rfl⟩ | ⟨_, rfl⟩⟩ := h
  · intro x hx
    rcases List.mem_append.1 hx with hx | hx
    · exact ⟨Or.inr (place_clean hq x hx).1, (place_clean hq x hx).2⟩
    · rw [List.mem_singleton] at hx
      subst hx
      exact ⟨Or.inl rfl, nil_not_dot⟩
  · exact fun x hx => ⟨Or.inr (place_clean hq x hx).1, (place_clean hq x hx).2⟩

/-- SegmentsText without dots are their own normal form. -/
theorem place_self {p : List Bytes} (h : ∀ x ∈ p, ¬ Dot x ∧ ¬ DotDot x) : Place p p := by
  have : ∀ (r : List Bytes), (∀ x ∈ r, ¬ Dot x ∧ ¬ DotDot x) → Place r.reverse r.reverse := by
    intro r
    induction r with
    | nil => intro _; exact .root
    | cons x r ih =>
      intro h
      rw [List.reverse_cons]
      have hx := h x (by simp)
      exact .down (ih fun y hy => h y (by simp [hy])) hx.1 hx.2
  have := this p.reverse (fun x hx => h x (by simpa using hx))
  rwa [List.reverse_reverse] at this

theorem normalised_self {p : List Bytes} (h : ∀ x ∈ p, ¬ Dot x ∧ ¬ DotDot x) : Normalised p p := by
  refine ⟨p, place_self h, Or.inr ⟨?_, rfl⟩⟩
  rintro ⟨s, hs, hd⟩
  have := h s (List.mem_of_getLast? hs)
  rcases hd with hd | hd
  · exact this.1 hd
  · exact this.2 hd

theorem encSegment_chars (b : UInt8) : ∀ x ∈ encSegment b, SegmentChar x ∧ (b = 47 ∨ x ≠ 47) := by
  revert b
  exact forall_uint8 (P := fun b => ∀ x ∈ encSegment b, SegmentChar x ∧ (b = 47 ∨ x ≠ 47)) (by decide +kernel)

theorem encSegment_keep {s : Bytes} (h : ∀ x ∈ s, SegmentChar x) : s.flatMap encSegment = s := by
  have key : ∀ b : UInt8, SegmentChar b → encSegment b = [b] :=
    forall_uint8 (P := fun b => SegmentChar b → encSegment b = [b]) (by decide +kernel)
  induction s with
  | nil => rfl
  | cons x s ih => rw [flatMap_single, key x (h x (by simp)), ih fun y hy => h y (by simp [hy])]; rfl

theorem segmentChar_facts (b : UInt8) : SegmentChar b → 32 < b.toNat ∧ b.toNat < 128 ∧ (b = 47 ∨ b ∉ strBytes "/?#") := by
  revert b
  exact forall_uint8 (P := fun b => SegmentChar b → 32 < b.toNat ∧ b.toNat < 128 ∧ (b = 47 ∨ b ∉ strBytes "/?#")) (by decide +kernel)

/-- What the segments of a path look like. -/
theorem segments_clean {segs out : List Bytes} (hs : ∀ s ∈ segs, NoMark s) (h : SegmentsText segs out) :
    ∀ x ∈ out, (∀ b ∈ x, SegmentChar b ∧ b ≠ 47) ∧ ¬ Dot x ∧ ¬ DotDot x := by
  obtain ⟨enc, h1, h2⟩ := h
  rw [escapedAll_iff] at h1
  subst h1
  intro x hx
  obtain ⟨h, hd⟩ := normalised_clean h2 x hx
  refine ⟨?_, hd⟩
  rcases h with rfl | h
  · simp
  · obtain ⟨s, hs', rfl⟩ := List.mem_map.1 h
    intro b hb
    obtain ⟨c, hc, hb⟩ := List.mem_flatMap.1 hb
    obtain ⟨g1, g2⟩ := encSegment_chars c b hb
    refine ⟨g1, g2.resolve_left ?_⟩
    rintro rfl
    exact noMark_slash (hs s hs') hc

theorem segments_self {out : List Bytes} (h : ∀ x ∈ out, (∀ b ∈ x, SegmentChar b ∧ b ≠ 47) ∧ ¬ Dot x ∧ ¬ DotDot x) : SegmentsText out out := by
  refine ⟨out, (escapedAll_iff _ _).2 ?_, normalised_self fun x hx => (h x hx).2⟩
  have : ∀ l : List Bytes, (∀ x ∈ l, ∀ b ∈ x, SegmentChar b) → l = l.map fun s => s.flatMap encSegment := by
    intro l
    induction l with
    | nil => intro _; rfl
    | cons x l ih =>
      intro h
      rw [List.map_cons, encSegment_keep (h x (by simp)), ← ih fun y hy => h y (by simp [hy])]
  exact this out fun x hx b hb => ((h x hx).1 b hb).1

theorem slashed_inj {l m : List Bytes} (hl : ∀ s ∈ l, 47 ∉ s) (hm : ∀ s ∈ m, 47 ∉ s) (h : slashed l = slashed m) : l = m := by
  cases l with
  | nil =>
    cases m with
    | nil => rfl
    | cons y m => cases h
  | cons x l =>
    have e : slashed (x :: l) = 47 :: (x ++ slashed l) := rfl
    rw [← splitSlash_of _ _ hl e, splitSlash_of _ _ hm (h ▸ e)]

theorem slashed_append (l m : List Bytes) : slashed (l ++ m) = slashed l ++ slashed m := List.flatMap_append

theorem below_iff {p q : String} {l m : List Bytes} (hp : strBytes p = slashed l) (hq : strBytes q = slashed m) (hl : ∀ s ∈ l, 47 ∉ s)
    (hm : ∀ s ∈ m, 47 ∉ s) (ha : IsAscii (slashed l)) : Below p q ↔ l <+: m := by
  have hslash : strBytes "/" = [47] := by decide +kernel
  constructor
  · rintro (rfl | ⟨rest, rfl⟩)
    · rw [hp] at hq
      rw [slashed_inj hl hm hq]
      exact List.prefix_refl _
    · rw [strBytes_append, strBytes_append, hslash, hp, List.append_assoc] at hq
      refine ⟨splitSlash (strBytes rest), ?_⟩
      apply slashed_inj _ hm
      · rw [slashed_append, splitSlash_slashed, ← hq]
        rfl
      · intro s hs
        rcases List.mem_append.1 hs with hs | hs
        · exact hl s hs
        · exact (splitSlash_mem _ s hs).1
  · rintro ⟨r, rfl⟩
    rw [slashed_append] at hq
    cases r with
    | nil =>
      left
      apply strBytes_inj
      rw [hq, hp]
      exact List.append_nil _
    | cons x r =>
      right
      have e : strBytes q = (slashed l ++ [47]) ++ (x ++ slashed r) := by
        rw [hq, List.append_assoc]; rfl
      obtain ⟨t, ht⟩ := strBytes_drop_ascii (p := slashed l ++ [47]) (by
        intro y hy
        rcases List.mem_append.1 hy with hy | hy
        · exact ha y hy
        · rw [List.mem_singleton] at hy
          subst hy
          decide) e
      refine ⟨t, ?_⟩
      apply strBytes_inj
      rw [e, ht, strBytes_append, strBytes_append, hp, hslash]

theorem slashed_ascii {out : List Bytes} (h : ∀ x ∈ out, ∀ b ∈ x, SegmentChar b) : IsAscii (slashed out) := by
  intro y hy
  obtain ⟨s, hs, hy⟩ := List.mem_flatMap.1 hy
  rcases List.mem_cons.1 hy with rfl | hy
  · decide
  · exact (segmentChar_facts y (h s hs y hy)).2.1

end Url

/-- No path that follows a host has a segment made of dots: whatever is written, the path read is the place it leads to. -/
theorem C82_no_dots (D : Deps) (s : String) (u : Url) (h : Url.parse D s = some u) (hs : ¬ Special u.scheme) (hh : u.host ≠ "") :
    ∃ out, strBytes u.path = slashed out ∧ ∀ x ∈ out, (∀ b ∈ x, SegmentChar b ∧ b ≠ 47) ∧ ¬ Dot x ∧ ¬ DotDot x := by
  obtain ⟨t, _, ht⟩ := (C82_reads D s u).1 ⟨h, hs⟩
  cases ht with
  | «opaque» _ _ _ _ he => exact absurd he.1 hh
  | rooted _ _ _ _ _ he => exact absurd he.1 hh
  | authority _ _ _ hsegs _ hp _ =>
    obtain ⟨out, ho, e⟩ := hp
    exact ⟨out, e, segments_clean hsegs ho⟩

open Fixtures

/-- A resource is a WNFS scope exactly if it is the text of one: host and path of the URL, whatever user, port, query and fragment it has. -/
theorem C82_wnfs_resource (D : Deps) (s : String) (sc : WnfsScope) :
    wnfsSemantics.resourceOf D s = some (.resource (.scoped sc)) ↔
      ∃ t segs, Tidied (strBytes s) t ∧ WnfsText t sc.origin segs ∧ PathText segs (strBytes sc.path) := by
  have hns : ¬ Special "wnfs" := by unfold Special; decide
  have hstar : ∀ {segs : List Bytes}, PathText segs (strBytes "*") → False := by
    rintro segs ⟨out, _, e⟩
    have e : [42] = slashed out := by rw [← e]; decide +kernel
    cases out with
    | nil => cases e
    | cons x out =>
      have e : [42] = 47 :: (x ++ slashed out) := e
      cases e
  unfold Semantics.resourceOf
  constructor
  · intro h
    split at h
    · cases h
    · rename_i u hu
      split at h
      · cases hr : wnfsSemantics.parseResource u with
        | none => rw [hr] at h; cases h
        | some r => rw [hr] at h; cases h
      · split at h
        · split at h
          · cases h
          · split at h
            · cases h
            · rename_i v _
              cases hr : wnfsSemantics.parseResource v with
              | none => rw [hr] at h; cases h
              | some r => rw [hr] at h; cases h
        · unfold Semantics.parseResource at h
          split at h
          · cases h
          · simp only [wnfsSemantics, WnfsScope.ofUrl] at h
            split at h
            · rename_i hc
              cases h
              obtain ⟨t, ht, hut⟩ := (C82_reads D s u).1 ⟨hu, by rw [hc.1]; exact hns⟩
              cases hut with
              | «opaque» _ _ _ _ he => exact absurd he.1 hc.2
              | rooted _ _ _ _ _ he => exact absurd he.1 hc.2
              | @authority raw a tail segs _ hraw _ ha hsegs hau hp htail =>
                rw [hc.1] at hraw
                exact ⟨_, segs, ht, ⟨raw, a, tail, _, _, rfl, hraw, ha, hsegs, ⟨_, _, _, hau⟩, hc.2, htail⟩, hp⟩
            · cases h
  · rintro ⟨t, segs, ht, ⟨raw, a, tail, q, f, rfl, hraw, ha, hsegs, ⟨us, pw, pt, hau⟩, hne, htail⟩, hp⟩
    have hu := ((C82_reads D s ⟨"wnfs", sc.origin, sc.path, q, f, us, pw, pt⟩).2 ⟨_, ht, .authority hraw hns ha hsegs hau hp htail⟩).1
    rw [hu]
    simp only []
    rw [if_neg (by decide), if_neg (by decide)]
    unfold Semantics.parseResource
    rw [if_neg]
    · simp [wnfsSemantics, WnfsScope.ofUrl, hne]
    · intro e
      have e : sc.path = "*" := e
      rw [e] at hp
      exact hstar hp

/-- Of two WNFS resources one contains the other exactly if they have the same host and the segments of the first, read, are the first
segments of the second. -/
theorem C82_wnfs_covers (D : Deps) (r1 r2 : String) (t1 t2 : Bytes) (h1 h2 : String) (s1 s2 o1 o2 : List Bytes) (ht1 : Tidied (strBytes r1) t1)
    (hw1 : WnfsText t1 h1 s1) (ho1 : SegmentsText s1 o1) (ht2 : Tidied (strBytes r2) t2) (hw2 : WnfsText t2 h2 s2) (ho2 : SegmentsText s2 o2) :
    ∃ a b, wnfsSemantics.resourceOf D r1 = some (.resource (.scoped a)) ∧ wnfsSemantics.resourceOf D r2 = some (.resource (.scoped b)) ∧
      (wnfsSemantics.contains a b = true ↔ h1 = h2 ∧ o1 <+: o2) := by
  have hs1 : ∀ s ∈ s1, NoMark s := by obtain ⟨_, _, _, _, _, _, _, _, h, _⟩ := hw1; exact h
  have hs2 : ∀ s ∈ s2, NoMark s := by obtain ⟨_, _, _, _, _, _, _, _, h, _⟩ := hw2; exact h
  have c1 := segments_clean hs1 ho1
  have c2 := segments_clean hs2 ho2
  have a1 := slashed_ascii fun x hx b hb => ((c1 x hx).1 b hb).1
  have a2 := slashed_ascii fun x hx b hb => ((c2 x hx).1 b hb).1
  have e1 := strBytes_asciiStr a1
  have e2 := strBytes_asciiStr a2
  refine ⟨⟨h1, asciiStr (slashed o1)⟩, ⟨h2, asciiStr (slashed o2)⟩, (C82_wnfs_resource D r1 _).2 ⟨t1, s1, ht1, hw1, o1, ho1, e1⟩,
    (C82_wnfs_resource D r2 _).2 ⟨t2, s2, ht2, hw2, o2, ho2, e2⟩, ?_⟩
  rw [C74_wnfs_contains, below_iff e1 e2 (fun s hs h => ((c1 s hs).1 47 h).2 rfl) (fun s hs h => ((c2 s hs).1 47 h).2 rfl) a1]

namespace Url

theorem encPath_facts (b : UInt8) : ∀ x ∈ encPath b, Visible x ∧
    (b ∉ strBytes "\x00\t\n\r #/:<>?@[\\]^|" → x ∉ strBytes "\x00\t\n\r #/:<>?@[\\]^|") := by
  revert b
  exact forall_uint8 (P := fun b => ∀ x ∈ encPath b, Visible x ∧
    (b ∉ strBytes "\x00\t\n\r #/:<>?@[\\]^|" → x ∉ strBytes "\x00\t\n\r #/:<>?@[\\]^|")) (by decide +kernel)

theorem encPath_keep {s : Bytes} (h : ∀ x ∈ s, Visible x) : s.flatMap encPath = s := by
  have key : ∀ b : UInt8, Visible b → encPath b = [b] := forall_uint8 (P := fun b => Visible b → encPath b = [b]) (by decide +kernel)
  induction s with
  | nil => rfl
  | cons x s ih => rw [flatMap_single, key x (h x (by simp)), ih fun y hy => h y (by simp [hy])]; rfl

theorem host_char (b : UInt8) : Visible b → b ∉ strBytes "\x00\t\n\r #/:<>?@[\\]^|" → 32 < b.toNat ∧ b ∉ strBytes "/?#" := by
  revert b
  exact forall_uint8 (P := fun b => Visible b → b ∉ strBytes "\x00\t\n\r #/:<>?@[\\]^|" → 32 < b.toNat ∧ b ∉ strBytes "/?#") (by decide +kernel)

/-- A host that was read is read as itself. -/
theorem host_again {h : Bytes} {host : String} (hh : HostText h host) :
    HostText (strBytes host) host ∧ ∀ b ∈ strBytes host, 32 < b.toNat ∧ b ∉ strBytes "/?#" := by
  cases hh with
  | name hn he =>
    have e := (escaped_path _ _).1 he
    have key : ∀ b ∈ strBytes host, Visible b ∧ b ∉ strBytes "\x00\t\n\r #/:<>?@[\\]^|" := by
      intro b hb
      rw [e] at hb
      obtain ⟨c, hc, hb⟩ := List.mem_flatMap.1 hb
      exact ⟨(encPath_facts c b hb).1, (encPath_facts c b hb).2 (hn c hc)⟩
    refine ⟨.name (fun b hb => (key b hb).2) ?_, fun b hb => host_char b (key b hb).1 (key b hb).2⟩
    rw [escaped_path, encPath_keep fun b hb => (key b hb).1]
  | @address x ps s hx hi =>
    have h1 := Ipv6.normal_address hi (Ipv6.address_shape hx).1
    have h2 : ∀ b ∈ strBytes s, 32 < b.toNat ∧ b ∉ strBytes "[]@/?#" := fun b hb =>
      ⟨(address_chars b (Ipv6.address_chars h1 b hb)).1, (address_chars b (Ipv6.address_chars h1 b hb)).2.2⟩
    have e : strBytes ("[" ++ s ++ "]") = 91 :: (strBytes s ++ [93]) := by
      rw [strBytes_append, strBytes_append]
      have : strBytes "[" = [91] ∧ strBytes "]" = [93] := by decide +kernel
      rw [this.1, this.2]
      rfl
    rw [e]
    refine ⟨.address h1 hi, ?_⟩
    intro b hb
    rcases List.mem_cons.1 hb with rfl | hb
    · decide +kernel
    · rcases List.mem_append.1 hb with hb | hb
      · exact ⟨(h2 b hb).1, (address_char b (h2 b hb).2).2⟩
      · rw [List.mem_singleton] at hb
        subst hb
        decide +kernel

theorem tidied_self {t : Bytes} (h : ∀ b ∈ t, 32 < b.toNat) : Tidied t t := by
  refine ⟨[], t, [], by simp, by simp, by simp, fun b hb => h b (List.mem_of_mem_head? hb), fun b hb => h b (List.mem_of_getLast? hb), ?_⟩
  symm
  rw [List.filter_eq_self]
  intro b hb
  have key : ∀ b : UInt8, 32 < b.toNat → b ∉ strBytes "\t\n\r" :=
    forall_uint8 (P := fun b => 32 < b.toNat → b ∉ strBytes "\t\n\r") (by decide +kernel)
  exact decide_eq_true (key b (h b hb))

end Url

/-- A WNFS resource that was read, written again, is read as the same scope. -/
theorem C82_wnfs_round_trip (D : Deps) (s : String) (sc : WnfsScope)
    (h : wnfsSemantics.resourceOf D s = some (.resource (.scoped sc))) :
    wnfsSemantics.resourceOf D (wnfsSemantics.scopeStr sc) = some (.resource (.scoped sc)) := by
  obtain ⟨t, segs, _, ⟨raw, a, tail, q, f, _, _, _, hsegs, ⟨_, _, _, _, hb, _, _, _, _, hhost, _⟩, hne, _⟩, out, hout, hpath⟩ :=
    (C82_wnfs_resource D s sc).1 h
  obtain ⟨hh, hchars⟩ := host_again hhost
  have hclean := segments_clean hsegs hout
  have hhead : strBytes "wnfs://" = strBytes "wnfs" ++ [58, 47, 47] := by decide +kernel
  have e : strBytes (wnfsSemantics.scopeStr sc) = strBytes "wnfs" ++ 58 :: 47 :: 47 :: (strBytes sc.origin ++ slashed out ++ []) := by
    show strBytes ("wnfs://" ++ sc.origin ++ sc.path) = _
    rw [strBytes_append, strBytes_append, hpath, hhead]
    simp
  refine (C82_wnfs_resource D _ sc).2 ⟨_, out, tidied_self ?_, ⟨strBytes "wnfs", strBytes sc.origin, [], none, none, e, ?_, ?_, ?_, ?_, hne, .none⟩,
    out, segments_self hclean, hpath⟩
  · rw [e]
    intro b hb
    simp only [List.mem_append, List.mem_cons, List.not_mem_nil, or_false] at hb
    rcases hb with hb | rfl | rfl | rfl | hb | hb
    · have : ∀ b ∈ strBytes "wnfs", 32 < b.toNat := by decide +kernel
      exact this b hb
    · decide
    · decide
    · decide
    · exact (hchars b hb).1
    · obtain ⟨x, hx, hb⟩ := List.mem_flatMap.1 hb
      rcases List.mem_cons.1 hb with rfl | hb
      · decide
      · exact (segmentChar_facts b ((hclean x hx).1 b hb).1).1
  · rw [schemeText_iff]
    exact ⟨119, [110, 102, 115], by decide +kernel, by decide, by decide, by decide +kernel⟩
  · exact fun b hb => (hchars b hb).2
  · intro x hx b hb
    obtain ⟨h1, h2⟩ := (hclean x hx).1 b hb
    exact (segmentChar_facts b h1).2.2.resolve_left h2
  · exact ⟨"", none, none, [], strBytes sc.origin, [], by simp, .none, .none, hh, fun _ => ⟨rfl, rfl⟩⟩

/-- So does a WNFS capability. -/
theorem C82_wnfs_capability (D : Deps) (c : Capability) (sc : WnfsScope) (l : WnfsLevel) (k : Json)
    (h : wnfsSemantics.parseCapability D c = some ⟨.resource (.scoped sc), l, k⟩) :
    wnfsSemantics.parseCapability D (wnfsSemantics.toCapability ⟨.resource (.scoped sc), l, k⟩) = some ⟨.resource (.scoped sc), l, k⟩ := by
  unfold Semantics.parseCapability at h ⊢
  obtain ⟨h1, _, _⟩ := (parse_eq_some _ _ _ _ _ _).1 h
  have := C82_wnfs_round_trip D _ _ h1
  refine (parse_eq_some _ _ _ _ _ _).2 ⟨this, ?_, rfl⟩
  exact (C74_wnfs_names _ _).2 rfl

/-- Addresses in brackets are the same host exactly if they are the same address. -/
theorem C82_addresses (x x' : Bytes) (host host' : String) (ps ps' : List Nat) (h : HostText (91 :: (x ++ [93])) host)
    (h' : HostText (91 :: (x' ++ [93])) host') (hx : AddressText x ps) (hx' : AddressText x' ps') : host = host' ↔ ps = ps' := by
  have key : ∀ {x host ps}, HostText (91 :: (x ++ [93])) host → AddressText x ps → ∃ y, Ipv6.normal x = some y ∧ strBytes host = 91 :: (y ++ [93]) := by
    intro x host ps h hx
    generalize hb : 91 :: (x ++ [93]) = b at h
    cases h with
    | name hn _ => subst hb; exact absurd (by decide +kernel) (hn 91 (by simp))
    | @address z qs s hz hs =>
      have e : x = z := List.append_cancel_right (List.cons.inj hb).2
      subst e
      refine ⟨strBytes s, (Ipv6.normal_iff _ _).2 ⟨qs, hz, hs⟩, ?_⟩
      have : strBytes "[" = [91] ∧ strBytes "]" = [93] := by decide +kernel
      rw [strBytes_append, strBytes_append, this.1, this.2]
      rfl
  obtain ⟨y, hy, e⟩ := key h hx
  obtain ⟨y', hy', e'⟩ := key h' hx'
  rw [← Ipv6.normal_same hx hx' hy hy']
  constructor
  · rintro rfl
    rw [e] at e'
    exact List.append_cancel_right (List.cons.inj e').2
  · rintro rfl
    exact strBytes_inj (e.trans e'.symm)

/-- C82: the texts that are read as an e-mail resource, and the address read: what stands in the path of a `mailto` URL. -/
theorem C82_email_resource (D : Deps) (s : String) (e : EmailAddress) :
    emailSemantics.resourceOf D s = some (.resource (.scoped e)) ↔
      ∃ t u, Tidied (strBytes s) t ∧ UrlText t u ∧ u.scheme = "mailto" ∧ u.path = e.address ∧ e.address ≠ "*" := by
  have hns : ¬ Special "mailto" := by unfold Special; decide
  unfold Semantics.resourceOf
  constructor
  · intro h
    split at h
    · cases h
    · rename_i u hu
      split at h
      · cases hr : emailSemantics.parseResource u with
        | none => rw [hr] at h; cases h
        | some r => rw [hr] at h; cases h
      · split at h
        · split at h
          · cases h
          · split at h
            · cases h
            · rename_i v _
              cases hr : emailSemantics.parseResource v with
              | none => rw [hr] at h; cases h
              | some r => rw [hr] at h; cases h
        · unfold Semantics.parseResource at h
          split at h
          · cases h
          · rename_i hstar
            simp only [emailSemantics, EmailAddress.ofUrl] at h
            split at h
            · rename_i hc
              cases h
              obtain ⟨t, ht, hut⟩ := (C82_reads D s u).1 ⟨hu, by rw [hc]; exact hns⟩
              exact ⟨t, u, ht, hut, hc, rfl, hstar⟩
            · cases h
  · rintro ⟨t, u, ht, hut, hs, hp, hne⟩
    have hu := ((C82_reads D s u).2 ⟨t, ht, hut⟩).1
    rw [hu]
    simp only []
    rw [if_neg (by rw [hs]; decide), if_neg (by rw [hs]; decide)]
    unfold Semantics.parseResource
    rw [if_neg (by rw [hp]; exact hne)]
    simp [emailSemantics, EmailAddress.ofUrl, hs, hp]

/-- C82: unlike WNFS resources, an e-mail resource need not survive being written and read: a slash pair at the start of the path turns into
a host. -/
theorem C82_email_lost : ∃ (s : String) (e : EmailAddress), ∀ D : Deps, emailSemantics.resourceOf D s = some (.resource (.scoped e)) ∧
    emailSemantics.resourceOf D (emailSemantics.scopeStr e) ≠ some (.resource (.scoped e)) := by
  refine ⟨"mailto://h//x", ⟨"//x"⟩, fun D => ?_⟩
  have h1 : Url.parse D "mailto://h//x" = some ⟨"mailto", "h", "//x", none, none, "", none, none⟩ := by
    unfold Url.parse Url.parseBytes
    have h1 : Url.splitScheme ((Url.trim (strBytes "mailto://h//x")).filter fun b => !Url.isTabNl b) = some (strBytes "mailto", strBytes "//h//x") := by
      decide +kernel
    rw [h1]
    simp only []
    have h2 : asciiStr (strBytes "mailto") = "mailto" := by decide +kernel
    have h3 : Url.hierarchical "mailto" (strBytes "//h//x") = some ⟨"mailto", "h", "//x", none, none, "", none, none⟩ := by decide +kernel
    rw [h2, if_pos (Or.inr (by decide +kernel)), if_neg (by decide), h3]
  have h2 : Url.parse D "mailto://x" = some ⟨"mailto", "x", "", none, none, "", none, none⟩ := by
    unfold Url.parse Url.parseBytes
    have h1 : Url.splitScheme ((Url.trim (strBytes "mailto://x")).filter fun b => !Url.isTabNl b) = some (strBytes "mailto", strBytes "//x") := by
      decide +kernel
    rw [h1]
    simp only []
    have h2 : asciiStr (strBytes "mailto") = "mailto" := by decide +kernel
    have h3 : Url.hierarchical "mailto" (strBytes "//x") = some ⟨"mailto", "x", "", none, none, "", none, none⟩ := by decide +kernel
    rw [h2, if_pos (Or.inr (by decide +kernel)), if_neg (by decide), h3]
  have e : emailSemantics.scopeStr ⟨"//x"⟩ = "mailto://x" := by decide +kernel
  rw [e]
  unfold Semantics.resourceOf
  rw [h1, h2]
  simp only []
  rw [if_neg (by decide), if_neg (by decide), if_neg (by decide), if_neg (by decide)]
  constructor
  · decide +kernel
  · decide +kernel

/-! ### Beside C82 -/

namespace Ex

example : Url.parse plainDeps " WnFs://me:pw@gozala:8080/public/./a b/../%2E%2e/private?q=1#f " =
      some ⟨"wnfs", "gozala", "/private", some "q=1", some "f", "me", some "pw", some 8080⟩ ∧
    Url.parse plainDeps "wnfs:/a/../../b" = some ⟨"wnfs", "", "/b", none, none, "", none, none⟩ ∧
    Url.parse plainDeps "mailto:a@b/../c?x" = some ⟨"mailto", "", "a@b/../c", some "x", none, "", none, none⟩ ∧
    Url.parse plainDeps "wnfs://a:65536/" = none ∧ Url.parse plainDeps "wnfs://a b/" = none ∧ Url.parse plainDeps "wnfs://:80/" = none ∧
    Url.parse plainDeps "1wnfs://a" = none ∧
    Url.parse plainDeps "wnfs://[2001:DB8:0:0:0:0:0:1]:80/x" = some ⟨"wnfs", "[2001:db8::1]", "/x", none, none, "", none, some 80⟩ ∧
    Url.parse plainDeps "wnfs://[::FFFF:192.0.2.1]/x" = some ⟨"wnfs", "[::ffff:c000:201]", "/x", none, none, "", none, none⟩ ∧
    Url.parse plainDeps "wnfs://[1::2::3]/x" = none := by decide +kernel

/-- There are texts of WNFS resources. -/
example : ∃ t segs, Tidied (strBytes "wnfs://gozala/public/../private") t ∧ WnfsText t "gozala" segs ∧ PathText segs (strBytes "/private") :=
  (C82_wnfs_resource plainDeps _ ⟨"gozala", "/private"⟩).1 (by decide +kernel)

/-- Dots do not lead out of what was given, and neither does the spelling of a letter lead into it. -/
example : wnfsSemantics.resourceOf plainDeps "wnfs://gozala/public/../private" = some (.resource (.scoped ⟨"gozala", "/private"⟩)) ∧
    wnfsSemantics.contains ⟨"gozala", "/public"⟩ ⟨"gozala", "/private"⟩ = false ∧
    wnfsSemantics.resourceOf plainDeps "wnfs://gozala/private/../public/x?y" = some (.resource (.scoped ⟨"gozala", "/public/x"⟩)) ∧
    wnfsSemantics.contains ⟨"gozala", "/public"⟩ ⟨"gozala", "/public/x"⟩ = true ∧
    wnfsSemantics.resourceOf plainDeps "wnfs://gozala/publi%63/x" = some (.resource (.scoped ⟨"gozala", "/publi%63/x"⟩)) ∧
    wnfsSemantics.contains ⟨"gozala", "/public"⟩ ⟨"gozala", "/publi%63/x"⟩ = false := by decide +kernel

end Ex

end Verif
