import Verif.Model.Debug
import Verif.Spec.Debug
import Verif.Props.JsonText

/-! # C107 The debug texts of reports -/

namespace Verif
open Spec

namespace Debug

theorem hexChar_facts (n : Nat) (h : n < 16) : 32 ≤ (hexChar n).toNat ∧ (hexChar n).toNat < 127 ∧ hexChar n ≠ '}' ∧ hexChar n ≠ ',' ∧ hexChar n ≠ ')' := by
  have : ∀ m : Fin 16, 32 ≤ (hexChar m.val).toNat ∧ (hexChar m.val).toNat < 127 ∧ hexChar m.val ≠ '}' ∧ hexChar m.val ≠ ',' ∧ hexChar m.val ≠ ')' := by decide
  exact this ⟨n, h⟩

theorem hexChar_inj {a b : Nat} (ha : a < 16) (hb : b < 16) (h : hexChar a = hexChar b) : a = b := by
  have : ∀ m n : Fin 16, hexChar m.val = hexChar n.val → m = n := by decide
  exact congrArg Fin.val (this ⟨a, ha⟩ ⟨b, hb⟩ h)

theorem map_hexChar_inj : ∀ {l m : List Nat}, (∀ x ∈ l, x < 16) → (∀ x ∈ m, x < 16) → l.map hexChar = m.map hexChar → l = m
  | [], [], _, _, _ => rfl
  | [], _ :: _, _, _, h => by cases h
  | _ :: _, [], _, _, h => by cases h
  | a :: l, b :: m, hl, hm, h => by
    simp only [List.map_cons, List.cons.injEq] at h
    rw [hexChar_inj (hl a (by simp)) (hm b (by simp)) h.1, map_hexChar_inj (fun x hx => hl x (by simp [hx])) (fun x hx => hm x (by simp [hx])) h.2]

/-- A word that avoids `c` ends at the first `c`. -/
theorem until_inj {c : Char} : ∀ {l m x y : List Char}, (∀ d ∈ l, d ≠ c) → (∀ d ∈ m, d ≠ c) → l ++ c :: x = m ++ c :: y → l = m ∧ x = y
  | [], [], _, _, _, _, h => ⟨rfl, (List.cons.inj h).2⟩
  | [], b :: m, _, _, _, hm, h => absurd (List.cons.inj h).1.symm (hm b (by simp))
  | a :: l, [], _, _, hl, _, h => absurd (List.cons.inj h).1 (hl a (by simp))
  | a :: l, b :: m, _, _, hl, hm, h => by
    obtain ⟨h1, h2⟩ := List.cons.inj h
    obtain ⟨h3, h4⟩ := until_inj (fun d hd => hl d (by simp [hd])) (fun d hd => hm d (by simp [hd])) h2
    exact ⟨by rw [h1, h3], h4⟩

theorem digits_lt {b : Nat} (hb : 2 ≤ b) (h16 : b ≤ 16) (n : Nat) : ∀ x ∈ toDigits b n, x < 16 := fun x hx => Nat.lt_of_lt_of_le (toDigits_lt hb n x hx) h16

theorem toDigits_inj {b m n : Nat} (hb : 2 ≤ b) (h : toDigits b m = toDigits b n) : m = n := by
  rw [← ofDigits_toDigits hb m, h, ofDigits_toDigits hb n]

theorem unicode_inj {c d : Char} {x y : List Char} (h : unicode c ++ x = unicode d ++ y) : c = d ∧ x = y := by
  unfold unicode at h
  simp only [List.append_assoc, List.cons_append, List.nil_append, List.cons.injEq, true_and] at h
  have avoid : ∀ n, ∀ e ∈ (toDigits 16 n).map hexChar, e ≠ '}' := by
    intro n e he
    obtain ⟨k, hk, rfl⟩ := List.mem_map.1 he
    exact (hexChar_facts k (digits_lt (by omega) (by omega) n k hk)).2.2.1
  obtain ⟨h1, h2⟩ := until_inj (avoid _) (avoid _) h
  have := toDigits_inj (by omega) (map_hexChar_inj (digits_lt (by omega) (by omega) _) (digits_lt (by omega) (by omega) _) h1)
  exact ⟨Char.ext (UInt32.toNat_inj.1 this), h2⟩

/-- The forms of an escaped character. -/
inductive Form (c : Char) : List Char → Prop
  | plain : c ≠ '\\' → c ≠ '"' → Form c [c]
  | letter (l : Char) : (l, c) ∈ [('0', '\x00'), ('t', '\t'), ('r', '\r'), ('n', '\n'), ('\\', '\\'), ('"', '"')] → Form c ['\\', l]
  | code : Form c (unicode c)

theorem escape_form (pr : Char → Bool) (c : Char) : Form c (escape pr c) := by
  unfold escape
  repeat' split
  all_goals first
    | (subst_vars; exact .letter _ (by simp))
    | exact .code
    | exact .plain (by assumption) (by assumption)

theorem Form.inj {c d : Char} {l m x y : List Char} (h1 : Form c l) (h2 : Form d m) (h : l ++ x = m ++ y) : c = d ∧ x = y := by
  cases h1 with
  | plain hc hq =>
    cases h2 with
    | plain => exact ⟨(List.cons.inj h).1, (List.cons.inj h).2⟩
    | letter => exact absurd (List.cons.inj h).1 hc
    | code => exact absurd (List.cons.inj h).1 hc
  | letter l hl =>
    cases h2 with
    | plain hd => exact absurd (List.cons.inj h).1.symm hd
    | letter m hm =>
      obtain ⟨_, h⟩ := List.cons.inj h
      obtain ⟨rfl, h⟩ := List.cons.inj h
      refine ⟨?_, (List.cons.inj h).2⟩
      simp only [List.mem_cons, Prod.mk.injEq, List.not_mem_nil, or_false] at hl hm
      rcases hl with ⟨rfl, rfl⟩ | ⟨rfl, rfl⟩ | ⟨rfl, rfl⟩ | ⟨rfl, rfl⟩ | ⟨rfl, rfl⟩ | ⟨rfl, rfl⟩ <;> revert hm <;> simp <;> intro h <;> exact h.symm
    | code =>
      obtain ⟨_, h⟩ := List.cons.inj h
      obtain ⟨rfl, h⟩ := List.cons.inj h
      simp at hl
  | code =>
    cases h2 with
    | plain hd => exact absurd (List.cons.inj h).1.symm hd
    | letter m hm =>
      obtain ⟨_, h⟩ := List.cons.inj h
      obtain ⟨rfl, h⟩ := List.cons.inj h
      simp at hm
    | code => exact unicode_inj h

theorem Form.head {c : Char} {l : List Char} (h : Form c l) : ∃ a r, l = a :: r ∧ a ≠ '"' := by
  cases h with
  | plain _ hq => exact ⟨_, _, rfl, hq⟩
  | letter => exact ⟨_, _, rfl, by decide⟩
  | code => exact ⟨_, _, rfl, by decide⟩

theorem body_inj (pr : Char → Bool) : ∀ {l m x y : List Char}, l.flatMap (escape pr) ++ '"' :: x = m.flatMap (escape pr) ++ '"' :: y → l = m ∧ x = y
  | [], [], _, _, h => ⟨rfl, (List.cons.inj h).2⟩
  | [], b :: m, _, _, h => by
    obtain ⟨a, r, e, ha⟩ := (escape_form pr b).head
    rw [List.flatMap_cons, e] at h
    exact absurd (List.cons.inj h).1.symm ha
  | b :: l, [], _, _, h => by
    obtain ⟨a, r, e, ha⟩ := (escape_form pr b).head
    rw [List.flatMap_cons, e] at h
    exact absurd (List.cons.inj h).1 ha
  | a :: l, b :: m, _, _, h => by
    rw [List.flatMap_cons, List.flatMap_cons, List.append_assoc, List.append_assoc] at h
    obtain ⟨h1, h2⟩ := (escape_form pr a).inj (escape_form pr b) h
    obtain ⟨h3, h4⟩ := body_inj pr h2
    exact ⟨by rw [h1, h3], h4⟩

theorem quoted_inj (pr : Char → Bool) {s t : String} {x y : List Char} (h : quoted pr s ++ x = quoted pr t ++ y) : s = t ∧ x = y := by
  unfold quoted at h
  simp only [List.cons_append, List.append_assoc, List.cons.injEq, true_and, List.nil_append] at h
  obtain ⟨h1, h2⟩ := body_inj pr h
  exact ⟨String.toList_injective h1, h2⟩

theorem number_avoid (n : UInt64) : ∀ e ∈ number n, e ≠ ')' := by
  intro e he
  unfold number at he
  split at he
  · rw [List.mem_singleton.1 he]; decide
  · obtain ⟨k, hk, rfl⟩ := List.mem_map.1 he
    exact (hexChar_facts k (digits_lt (by omega) (by omega) _ k hk)).2.2.2.2

theorem number_inj {m n : UInt64} (h : number m = number n) : m = n := by
  have zero : ∀ {k : UInt64}, k ≠ 0 → ¬ (toDigits 10 k.toNat).map hexChar = ['0'] := by
    intro k hk e
    have e : (toDigits 10 k.toNat).map hexChar = [0].map hexChar := e
    have := map_hexChar_inj (digits_lt (by omega) (by omega) _) (by simp) e
    have h0 : k.toNat = 0 := by rw [← ofDigits_toDigits (b := 10) (by omega) k.toNat, this]; rfl
    exact hk (UInt64.toNat_inj.1 h0)
  unfold number at h
  split at h <;> split at h
  · simp_all
  · exact absurd h.symm (zero (by assumption))
  · exact absurd h (zero (by assumption))
  · exact UInt64.toNat_inj.1 (toDigits_inj (by omega) (map_hexChar_inj (digits_lt (by omega) (by omega) _) (digits_lt (by omega) (by omega) _) h))

theorem time_inj {a b : Option UInt64} {x y : List Char} (h : time a ++ x = time b ++ y) : a = b ∧ x = y := by
  cases a with
  | none =>
    cases b with
    | none => exact ⟨rfl, List.append_cancel_left h⟩
    | some n => cases (List.cons.inj h).1
  | some m =>
    cases b with
    | none => cases (List.cons.inj h).1
    | some n =>
      simp only [time, List.append_assoc] at h
      obtain ⟨h1, h2⟩ := until_inj (number_avoid m) (number_avoid n) (List.append_cancel_left h)
      exact ⟨by rw [number_inj h1], h2⟩

theorem entries_inj (pr : Char → Bool) : ∀ {l m : List String} {x y : List Char}, entries pr l ++ x = entries pr m ++ y → l = m ∧ x = y
  | [], [], _, _, h => ⟨rfl, List.append_cancel_left h⟩
  | [], _ :: _, _, _, h => by cases (List.cons.inj h).1
  | _ :: _, [], _, _, h => by cases (List.cons.inj h).1
  | a :: l, b :: m, _, _, h => by
    simp only [entries, List.append_assoc] at h
    obtain ⟨h1, h2⟩ := quoted_inj pr (List.append_cancel_left h)
    obtain ⟨h3, h4⟩ := entries_inj pr h2
    exact ⟨by rw [h1, h3], h4⟩

theorem set_inj (pr : Char → Bool) {l m : List String} {x y : List Char} (h : set pr l ++ x = set pr m ++ y) : l = m ∧ x = y := by
  cases l with
  | nil =>
    cases m with
    | nil => exact ⟨rfl, List.append_cancel_left h⟩
    | cons b m => cases (List.cons.inj (List.cons.inj h).2).1
  | cons a l =>
    cases m with
    | nil => cases (List.cons.inj (List.cons.inj h).2).1
    | cons b m =>
      simp only [set, List.cons_append, List.append_assoc, List.cons.injEq, true_and] at h
      obtain ⟨h1, h2⟩ := quoted_inj pr h
      obtain ⟨h3, h4⟩ := entries_inj pr h2
      exact ⟨by rw [h1, h3], h4⟩

theorem view_inj {S A : Type} (D : Deps) (pr : Char → Bool) (sem : Semantics S A) {v w : View S A} {x y : List Char}
    (h : view D pr sem v ++ x = view D pr sem w ++ y) :
    v.resource.toStr sem.scopeStr = w.resource.toStr sem.scopeStr ∧ sem.actionStr v.ability = sem.actionStr w.ability ∧ json D v.caveat = json D w.caveat ∧ x = y := by
  unfold view at h
  generalize "Capability { resource: ".toList = p1, ", ability: ".toList = p2, ", caveats: Ok(".toList = p3, ") }".toList = p4 at h
  simp only [List.append_assoc] at h
  obtain ⟨h1, h⟩ := quoted_inj pr (List.append_cancel_left h)
  obtain ⟨h2, h⟩ := quoted_inj pr (List.append_cancel_left h)
  obtain ⟨h3, h⟩ := quoted_inj pr (List.append_cancel_left h)
  exact ⟨h1, h2, h3, List.append_cancel_left h⟩

theorem info_inj {S A : Type} (D : Deps) (pr : Char → Bool) (sem : Semantics S A) {i j : Info S A} (h : info D pr sem i = info D pr sem j) :
    i.originators = j.originators ∧ i.notBefore = j.notBefore ∧ i.expiresAt = j.expiresAt ∧
    i.capability.resource.toStr sem.scopeStr = j.capability.resource.toStr sem.scopeStr ∧
    sem.actionStr i.capability.ability = sem.actionStr j.capability.ability ∧ json D i.capability.caveat = json D j.capability.caveat := by
  unfold info at h
  generalize "CapabilityInfo { originators: ".toList = p1, ", not_before: ".toList = p2, ", expires_at: ".toList = p3, ", capability: ".toList = p4,
    " }".toList = p5 at h
  simp only [List.append_assoc] at h
  obtain ⟨h1, h⟩ := set_inj pr (List.append_cancel_left h)
  obtain ⟨h2, h⟩ := time_inj (List.append_cancel_left h)
  obtain ⟨h3, h⟩ := time_inj (List.append_cancel_left h)
  obtain ⟨h4, h5, h6, _⟩ := view_inj D pr sem (List.append_cancel_left h)
  exact ⟨h1, h2, h3, h4, h5, h6⟩

/-! ## JSON texts are UTF-8 -/

def Utf8 (b : Bytes) : Prop := ∃ s, strBytes s = b

theorem Utf8.append {a b : Bytes} (ha : Utf8 a) (hb : Utf8 b) : Utf8 (a ++ b) := by
  obtain ⟨s, rfl⟩ := ha
  obtain ⟨t, rfl⟩ := hb
  exact ⟨s ++ t, strBytes_append s t⟩

theorem Utf8.ascii {b : Bytes} (h : IsAscii b) : Utf8 b := ⟨_, strBytes_asciiStr h⟩

theorem Utf8.cons {c : UInt8} {b : Bytes} (hc : c.toNat < 128) (hb : Utf8 b) : Utf8 (c :: b) :=
  Utf8.append (a := [c]) (.ascii (by intro x hx; rw [List.mem_singleton.1 hx]; exact hc)) hb

theorem escByte_ascii (c : UInt8) : c.toNat < 128 → IsAscii (Json.escByte c) := by
  unfold IsAscii
  exact forall_uint8 (P := fun c => c.toNat < 128 → ∀ x ∈ Json.escByte c, x.toNat < 128) (by decide +kernel) c

theorem escByte_high (c : UInt8) : ¬ c.toNat < 128 → Json.escByte c = [c] :=
  forall_uint8 (P := fun c => ¬ c.toNat < 128 → Json.escByte c = [c]) (by decide +kernel) c

theorem escAll_high {b : Bytes} (h : ∀ x ∈ b, ¬ x.toNat < 128) : Json.escAll b = b := by
  induction b with
  | nil => rfl
  | cons c b ih =>
    have ih := ih fun x hx => h x (by simp [hx])
    unfold Json.escAll at ih ⊢
    rw [List.flatMap_cons, escByte_high c (h c (by simp)), ih]
    rfl

theorem utf8EncodeChar_cases (c : Char) : (∃ x : UInt8, x.toNat < 128 ∧ String.utf8EncodeChar c = [x]) ∨ ∀ x ∈ String.utf8EncodeChar c, ¬ x.toNat < 128 := by
  unfold String.utf8EncodeChar
  simp only
  split
  · exact Or.inl ⟨_, by simp only [UInt8.toNat_ofNat']; omega, rfl⟩
  · right
    split
    · simp only [List.mem_cons, List.not_mem_nil, or_false]; rintro x (rfl | rfl) <;> (simp only [UInt8.toNat_ofNat']; omega)
    split
    · simp only [List.mem_cons, List.not_mem_nil, or_false]; rintro x (rfl | rfl | rfl) <;> (simp only [UInt8.toNat_ofNat']; omega)
    · simp only [List.mem_cons, List.not_mem_nil, or_false]; rintro x (rfl | rfl | rfl | rfl) <;> (simp only [UInt8.toNat_ofNat']; omega)

theorem escAll_utf8 (s : String) : Utf8 (Json.escAll (strBytes s)) := by
  have key : ∀ l : List Char, Utf8 (Json.escAll (l.flatMap String.utf8EncodeChar)) := by
    intro l
    induction l with
    | nil => exact ⟨"", rfl⟩
    | cons c l ih =>
      unfold Json.escAll at ih ⊢
      rw [List.flatMap_cons, List.flatMap_append]
      refine Utf8.append ?_ ih
      rcases utf8EncodeChar_cases c with ⟨x, hx, e⟩ | h
      · rw [e, List.flatMap_cons, List.flatMap_nil, List.append_nil]
        exact .ascii (escByte_ascii x hx)
      · rw [show List.flatMap Json.escByte (String.utf8EncodeChar c) = _ from escAll_high h]
        exact ⟨String.ofList [c], by rw [strBytes_ofList]; simp⟩
  have := key s.toList
  rwa [← strBytes_ofList, String.ofList_toList] at this

theorem printStr_utf8 (s : String) : Utf8 (Json.printStr s) :=
  .cons (by decide) ((escAll_utf8 s).append (.ascii (by intro x hx; rw [List.mem_singleton.1 hx]; decide)))

theorem digits_ascii {b : Bytes} (h : Digits b) : IsAscii b := fun x hx => by have := h.2 x hx; omega

theorem _root_.Verif.IsAscii.append {a b : Bytes} (ha : IsAscii a) (hb : IsAscii b) : IsAscii (a ++ b) := by
  intro x hx
  rcases List.mem_append.1 hx with h | h
  · exact ha x h
  · exact hb x h

theorem _root_.Verif.IsAscii.cons {c : UInt8} {b : Bytes} (hc : c.toNat < 128) (hb : IsAscii b) : IsAscii (c :: b) := by
  intro x hx
  rcases List.mem_cons.1 hx with rfl | h
  · exact hc
  · exact hb x h

theorem numberText_ascii {D : Deps} {t : Bytes} {v : Json} (h : NumberText D t v) : IsAscii t := by
  have frac : ∀ {t}, Fraction t → IsAscii t := by
    rintro t (rfl | ⟨ds, rfl, h⟩)
    · intro x hx; cases hx
    · exact .cons (by decide) (digits_ascii h)
  have exp : ∀ {t}, Exponent t → IsAscii t := by
    rintro t (rfl | ⟨e, sg, ds, rfl, he, hs, h⟩)
    · intro x hx; cases hx
    · refine .cons (by rcases he with rfl | rfl <;> decide) (.append ?_ (digits_ascii h))
      rcases hs with rfl | rfl | rfl <;> intro x hx
      · cases hx
      · rw [List.mem_singleton.1 hx]; decide
      · rw [List.mem_singleton.1 hx]; decide
  cases h with
  | nat h => exact digits_ascii h.1
  | neg h => exact .cons (by decide) (digits_ascii h.1)
  | double hs hi hf he =>
    refine .append (.append (.append ?_ (digits_ascii hi.1)) (frac hf)) (exp he)
    rcases hs with rfl | rfl <;> intro x hx
    · cases hx
    · rw [List.mem_singleton.1 hx]; decide

mutual
theorem print_utf8 (D : Deps) : ∀ v : Json, v.NumOk D → Utf8 (v.print D)
  | .null, _ => .ascii (by unfold IsAscii Json.print; decide)
  | .bool true, _ => .ascii (by unfold IsAscii Json.print; decide)
  | .bool false, _ => .ascii (by unfold IsAscii Json.print; decide)
  | .int i, h => by
    have := C71_written D (.int i) h
    generalize he : Json.print D (.int i) = b at this
    cases this with
    | number h => exact .ascii (numberText_ascii h)
  | .float f, h => by
    have := C71_written D (.float f) h
    generalize he : Json.print D (.float f) = b at this
    cases this with
    | number h => exact .ascii (numberText_ascii h)
  | .str s, _ => printStr_utf8 s
  | .arr l, h => .cons (by decide) (printElems_utf8 D l h)
  | .obj m, h => .cons (by decide) (printMembers_utf8 D m h)
theorem printElems_utf8 (D : Deps) : ∀ l : List Json, Json.NumOkList D l → Utf8 (Json.printElems D l)
  | [], _ => .ascii (by unfold IsAscii Json.printElems; decide)
  | x :: xs, h => (print_utf8 D x h.1).append (printElemsTail_utf8 D xs h.2)
theorem printElemsTail_utf8 (D : Deps) : ∀ l : List Json, Json.NumOkList D l → Utf8 (Json.printElemsTail D l)
  | [], _ => .ascii (by unfold IsAscii Json.printElemsTail; decide)
  | x :: xs, h => .cons (by decide) ((print_utf8 D x h.1).append (printElemsTail_utf8 D xs h.2))
theorem printMembers_utf8 (D : Deps) : ∀ l : List (String × Json), Json.NumOkMembers D l → Utf8 (Json.printMembers D l)
  | [], _ => .ascii (by unfold IsAscii Json.printMembers; decide)
  | (k, x) :: xs, h => (printStr_utf8 k).append (.cons (by decide) ((print_utf8 D x h.1).append (printMembersTail_utf8 D xs h.2)))
theorem printMembersTail_utf8 (D : Deps) : ∀ l : List (String × Json), Json.NumOkMembers D l → Utf8 (Json.printMembersTail D l)
  | [], _ => .ascii (by unfold IsAscii Json.printMembersTail; decide)
  | (k, x) :: xs, h => .cons (by decide) ((printStr_utf8 k).append (.cons (by decide) ((print_utf8 D x h.1).append (printMembersTail_utf8 D xs h.2))))
end

theorem json_bytes (D : Deps) (v : Json) (h : v.NumOk D) : strBytes (json D v) = v.print D := by
  obtain ⟨s, hs⟩ := print_utf8 D v h
  unfold json
  rw [← hs, bytesStr?_strBytes]
  rfl

theorem json_inj (D : Deps) {v w : Json} (hv : v.NumOk D) (hw : w.NumOk D) (h : json D v = json D w) : v = w := by
  have e : v.print D = w.print D := by rw [← json_bytes D v hv, h, json_bytes D w hw]
  have h1 := C71_written D v hv
  have h2 := C71_written D w hw
  rw [e] at h1
  have whole : ∀ {t : Bytes} {v : Json}, ValueText D t v → ElementText D t v := fun {t v} h => by
    have : ElementText D ([] ++ (t ++ [])) v := .mk (fun _ h => nomatch h) h (fun _ h => nomatch h)
    rwa [List.nil_append, List.append_nil] at this
  exact C71_unambiguous D _ v w (whole h1) (whole h2)

/-! ## Characters -/

theorem _root_.Verif.Spec.OneLine.append {pr : Char → Bool} {a b : List Char} (ha : OneLine pr a) (hb : OneLine pr b) : OneLine pr (a ++ b) := by
  intro c hc
  rcases List.mem_append.1 hc with h | h
  · exact ha c h
  · exact hb c h

theorem _root_.Verif.Spec.OneLine.ascii {pr : Char → Bool} {l : List Char} (h : l.all (fun c => decide (32 ≤ c.toNat ∧ c.toNat < 127)) = true) : OneLine pr l := by
  intro c hc
  have := of_decide_eq_true (List.all_eq_true.1 h c hc)
  exact ⟨by omega, fun h => by omega⟩

theorem hex_line (pr : Char → Bool) {l : List Nat} (h : ∀ x ∈ l, x < 16) : OneLine pr (l.map hexChar) := by
  refine .ascii (List.all_eq_true.2 fun c hc => ?_)
  obtain ⟨k, hk, rfl⟩ := List.mem_map.1 hc
  have := hexChar_facts k (h k hk)
  exact decide_eq_true ⟨this.1, this.2.1⟩

theorem unicode_line (pr : Char → Bool) (c : Char) : OneLine pr (unicode c) :=
  (OneLine.append (.ascii (by decide)) (hex_line pr (digits_lt (by omega) (by omega) _))).append (.ascii (by decide))

theorem escape_line (pr : Char → Bool) (c : Char) : OneLine pr (escape pr c) := by
  unfold escape
  repeat' split
  any_goals exact unicode_line pr c
  any_goals
    refine .ascii ?_
    decide
  · intro d hd
    rw [List.mem_singleton.1 hd]
    exact ⟨by omega, fun h => by omega⟩
  · rename_i hp
    intro d hd
    rw [List.mem_singleton.1 hd]
    exact ⟨by omega, fun _ => hp⟩

theorem quoted_line (pr : Char → Bool) (s : String) : OneLine pr (quoted pr s) := by
  refine OneLine.append (a := ['"']) (.ascii (by decide)) (.append ?_ (.ascii (by decide)))
  intro c hc
  obtain ⟨d, _, hd⟩ := List.mem_flatMap.1 hc
  exact escape_line pr d c hd

theorem time_line (pr : Char → Bool) (t : Option UInt64) : OneLine pr (time t) := by
  cases t with
  | none => exact .ascii (by decide)
  | some n =>
    refine .append (.append (.ascii (by decide)) ?_) (.ascii (by decide))
    unfold number
    split
    · exact .ascii (by decide)
    · exact hex_line pr (digits_lt (by omega) (by omega) _)

theorem entries_line (pr : Char → Bool) : ∀ l : List String, OneLine pr (entries pr l)
  | [] => OneLine.ascii (l := ['}']) (by decide)
  | s :: ss => .append (.append (.ascii (by decide)) (quoted_line pr s)) (entries_line pr ss)

theorem set_line (pr : Char → Bool) : ∀ l : List String, OneLine pr (set pr l)
  | [] => OneLine.ascii (l := ['{', '}']) (by decide)
  | s :: ss => OneLine.append (a := ['{']) (.ascii (by decide)) ((quoted_line pr s).append (entries_line pr ss))

theorem view_line {S A : Type} (D : Deps) (pr : Char → Bool) (sem : Semantics S A) (v : View S A) : OneLine pr (view D pr sem v) :=
  .append (.append (.append (.append (.append (.append (.ascii (by decide)) (quoted_line pr _)) (.ascii (by decide))) (quoted_line pr _)) (.ascii (by decide)))
    (quoted_line pr _)) (.ascii (by decide))

end Debug

open Debug

/-- C107: the debug text of a report is one line without control characters, whatever the tokens contained. -/
theorem C107_line {S A : Type} (D : Deps) (pr : Char → Bool) (sem : Semantics S A) (i : Info S A) : OneLine pr (info D pr sem i) :=
  .append (.append (.append (.append (.append (.append (.append (.append (.ascii (by decide)) (set_line pr _)) (.ascii (by decide))) (time_line pr _))
    (.ascii (by decide))) (time_line pr _)) (.ascii (by decide))) (view_line D pr sem _)) (.ascii (by decide))

/-- C107: it tells who granted, from when until when, and the texts of what was granted: reports with the same debug text agree in all of that. -/
theorem C107_determines {S A : Type} (D : Deps) (pr : Char → Bool) (sem : Semantics S A) (i j : Info S A) (h : info D pr sem i = info D pr sem j) :
    i.originators = j.originators ∧ i.notBefore = j.notBefore ∧ i.expiresAt = j.expiresAt ∧
    i.capability.resource.toStr sem.scopeStr = j.capability.resource.toStr sem.scopeStr ∧
    sem.actionStr i.capability.ability = sem.actionStr j.capability.ability ∧
    (i.capability.caveat.NumOk D → j.capability.caveat.NumOk D → i.capability.caveat = j.capability.caveat) := by
  obtain ⟨h1, h2, h3, h4, h5, h6⟩ := info_inj D pr sem h
  exact ⟨h1, h2, h3, h4, h5, fun a b => json_inj D a b h6⟩

namespace Debug

theorem escape_plain {pr : Char → Bool} {c : Char} (h : ShownAsIs pr c) : escape pr c = [c] := by
  obtain ⟨h1, h2, h3⟩ := h
  have hlow : ∀ d : Char, d.toNat < 32 → c ≠ d := by
    rintro d hd rfl
    omega
  unfold escape
  rw [if_neg (hlow _ (by decide)), if_neg (hlow _ (by decide)), if_neg (hlow _ (by decide)), if_neg (hlow _ (by decide)), if_neg h2, if_neg h1,
    if_neg (by omega)]
  rcases h3 with h3 | ⟨h3, h4⟩
  · rw [if_pos h3.2]
  · rw [if_neg (by omega), if_neg (by omega), if_pos h4]

theorem quoted_plain {pr : Char → Bool} {s : String} (h : ∀ c ∈ s.toList, ShownAsIs pr c) : quoted pr s = '"' :: (s.toList ++ ['"']) := by
  unfold quoted
  have : ∀ l : List Char, (∀ c ∈ l, ShownAsIs pr c) → l.flatMap (escape pr) = l := by
    intro l
    induction l with
    | nil => intro _; rfl
    | cons c l ih =>
      intro h
      rw [List.flatMap_cons, escape_plain (h c (by simp)), ih (fun d hd => h d (by simp [hd]))]
      rfl
  rw [this _ h]

theorem quotes_self {pr : Char → Bool} {s : String} (h : ∀ c ∈ s.toList, ShownAsIs pr c) : Quotes (quoted pr s) s :=
  ⟨[], [], by rw [quoted_plain h]; rfl⟩

theorem _root_.Verif.Spec.Quotes.left {l : List Char} {s : String} (h : Quotes l s) (x : List Char) : Quotes (x ++ l) s := by
  obtain ⟨a, b, rfl⟩ := h
  exact ⟨x ++ a, b, by simp⟩

theorem _root_.Verif.Spec.Quotes.right {l : List Char} {s : String} (h : Quotes l s) (x : List Char) : Quotes (l ++ x) s := by
  obtain ⟨a, b, rfl⟩ := h
  exact ⟨a, b ++ x, by simp⟩

theorem quotes_entries {pr : Char → Bool} {s : String} (h : ∀ c ∈ s.toList, ShownAsIs pr c) : ∀ l : List String, s ∈ l → Quotes (entries pr l) s
  | t :: ss, hm => by
    unfold entries
    rcases List.mem_cons.1 hm with rfl | hm
    · exact ((quotes_self h).left _).right _
    · exact (quotes_entries h ss hm).left _

theorem quotes_set {pr : Char → Bool} {s : String} (h : ∀ c ∈ s.toList, ShownAsIs pr c) : ∀ l : List String, s ∈ l → Quotes (set pr l) s
  | t :: ss, hm => by
    show Quotes (['{'] ++ (quoted pr t ++ entries pr ss)) s
    rcases List.mem_cons.1 hm with rfl | hm
    · exact ((quotes_self h).right _).left ['{']
    · exact ((quotes_entries h ss hm).left _).left ['{']

theorem number_decimal (n : UInt64) : DecimalOf n.toNat (number n) := by
  unfold number
  split
  · rename_i h
    subst h
    exact ⟨by decide, by decide, by decide⟩
  · rename_i h
    have hn : n.toNat ≠ 0 := fun e => h (UInt64.toNat_inj.1 e)
    have hlt := toDigits_lt (b := 10) (by omega) n.toNat
    have hdig : ∀ m : Fin 10, ('0' ≤ hexChar m.val ∧ hexChar m.val ≤ '9') ∧ (hexChar m.val).toNat - 48 = m.val := by decide
    refine ⟨?_, ?_, ?_, ?_⟩
    · intro c hc
      obtain ⟨k, hk, rfl⟩ := List.mem_map.1 hc
      exact (hdig ⟨k, hlt k hk⟩).1
    · have key : ∀ (l : List Nat) (a : Nat), (∀ x ∈ l, x < 10) →
          (l.map hexChar).foldl (fun a c => a * 10 + (c.toNat - 48)) a = l.foldl (fun a d => a * 10 + d) a := by
        intro l
        induction l with
        | nil => intro a _; rfl
        | cons x l ih =>
          intro a hx
          rw [List.map_cons, List.foldl_cons, List.foldl_cons, (hdig ⟨x, hx x (by simp)⟩).2, ih _ (fun y hy => hx y (by simp [hy]))]
      rw [key _ _ hlt]
      exact ofDigits_toDigits (by omega) n.toNat
    · intro e
      exact toDigits_ne_nil (b := 10) (by omega) hn (List.map_eq_nil_iff.1 e)
    · intro e
      cases hd : toDigits 10 n.toNat with
      | nil => exact absurd hd (toDigits_ne_nil (by omega) hn)
      | cons d ds =>
        rw [hd] at e
        simp only [List.map_cons, List.head?_cons, Option.some.injEq] at e
        have hd0 := toDigits_head (b := 10) (by omega) n.toNat d (by rw [hd]; rfl)
        have hd9 := hlt d (by rw [hd]; simp)
        have : ∀ m : Fin 10, hexChar m.val = '0' → m.val = 0 := by decide
        exact absurd (this ⟨d, hd9⟩ e) hd0

end Debug

/-- C107: what needs no escape can be read and searched for as it is: the DIDs of the originators, the resource and the ability. -/
theorem C107_verbatim {S A : Type} (D : Deps) (pr : Char → Bool) (sem : Semantics S A) (i : Info S A) (s : String)
    (h : ∀ c ∈ s.toList, ShownAsIs pr c)
    (hs : s ∈ i.originators ∨ s = i.capability.resource.toStr sem.scopeStr ∨ s = sem.actionStr i.capability.ability) : Quotes (info D pr sem i) s := by
  unfold info view
  rcases hs with hs | rfl | rfl
  · exact (((((((quotes_set h _ hs).left _).right _).right _).right _).right _).right _).right _ |>.right _
  · exact (((((((((quotes_self h).left _).right _).right _).right _).right _).right _).left _)).right _
  · exact ((((((((quotes_self h).left _).right _).right _).right _).left _)).right _)

/-- C107: times are written in decimal. -/
theorem C107_times (t : UInt64) : ∃ l, DecimalOf t.toNat l ∧ time (some t) = "Some(".toList ++ l ++ [')'] := ⟨_, number_decimal t, rfl⟩

theorem Spec.Field.left {l t : List Char} {n : String} (h : Field l n t) (x : List Char) : Field (x ++ l) n t := by
  obtain ⟨a, b, rfl⟩ := h
  exact ⟨x ++ a, b, by simp⟩

theorem Spec.Field.right {l t : List Char} {n : String} (h : Field l n t) (x : List Char) : Field (l ++ x) n t := by
  obtain ⟨a, b, rfl⟩ := h
  exact ⟨a, b ++ x, by simp⟩

namespace Debug

theorem hex_of {n : Nat} (hn : n ≠ 0) : HexOf n ((toDigits 16 n).map hexChar) := by
  have hlt := toDigits_lt (b := 16) (by omega) n
  have hdig : ∀ m : Fin 16, ('0' ≤ hexChar m.val ∧ hexChar m.val ≤ '9' ∨ 'a' ≤ hexChar m.val ∧ hexChar m.val ≤ 'f') ∧
      (if hexChar m.val ≤ '9' then (hexChar m.val).toNat - '0'.toNat else (hexChar m.val).toNat - 'a'.toNat + 10) = m.val := by decide
  refine ⟨?_, ?_, ?_⟩
  · intro c hc
    obtain ⟨k, hk, rfl⟩ := List.mem_map.1 hc
    exact (hdig ⟨k, hlt k hk⟩).1
  · have key : ∀ (l : List Nat) (a : Nat), (∀ x ∈ l, x < 16) →
        (l.map hexChar).foldl (fun a c => a * 16 + (if c ≤ '9' then c.toNat - '0'.toNat else c.toNat - 'a'.toNat + 10)) a = l.foldl (fun a d => a * 16 + d) a := by
      intro l
      induction l with
      | nil => intro a _; rfl
      | cons x l ih =>
        intro a hx
        rw [List.map_cons, List.foldl_cons, List.foldl_cons, (hdig ⟨x, hx x (by simp)⟩).2, ih _ (fun y hy => hx y (by simp [hy]))]
    rw [key _ _ hlt]
    exact ofDigits_toDigits (by omega) n
  · intro e
    cases hd : toDigits 16 n with
    | nil => exact absurd hd (toDigits_ne_nil (by omega) hn)
    | cons d ds =>
      rw [hd] at e
      simp only [List.map_cons, List.head?_cons, Option.some.injEq] at e
      have hd0 := toDigits_head (b := 16) (by omega) n d (by rw [hd]; rfl)
      have hd9 := hlt d (by rw [hd]; simp)
      have : ∀ m : Fin 16, hexChar m.val = '0' → m.val = 0 := by decide
      exact absurd (this ⟨d, hd9⟩ e) hd0

theorem escape_written (pr : Char → Bool) (c : Char) : CharText pr c (escape pr c) := by
  by_cases hs : c ∈ shortEscapes.map Prod.fst
  · simp only [shortEscapes, List.map_cons, List.map_nil, List.mem_cons, List.not_mem_nil, or_false] at hs
    rcases hs with rfl | rfl | rfl | rfl | rfl | rfl <;> exact .short (by decide)
  · by_cases hp : ShownAsIs pr c
    · rw [escape_plain hp]
      exact .plain hp
    · have hn : c.toNat ≠ 0 := by
        intro e
        have : c = '\x00' := Char.toNat_inj.1 e
        exact hs (by rw [this]; decide)
      have e : escape pr c = unicode c := by
        simp only [shortEscapes, List.map_cons, List.map_nil, List.mem_cons, List.not_mem_nil, or_false, not_or] at hs
        obtain ⟨h1, h2, h3, h4, h5, h6⟩ := hs
        unfold escape
        rw [if_neg h1, if_neg h2, if_neg h3, if_neg h4, if_neg h5, if_neg h6]
        split
        · rfl
        · split
          · exact absurd ⟨h6, h5, Or.inl (by omega)⟩ hp
          · split
            · rfl
            · split
              · exact absurd ⟨h6, h5, Or.inr (by refine ⟨by omega, by assumption⟩)⟩ hp
              · rfl
      rw [e]
      exact .code hp hs (hex_of hn)

theorem text_written (pr : Char → Bool) : ∀ l : List Char, QuotedText pr l (l.flatMap (escape pr))
  | [] => .nil
  | c :: l => by
    rw [List.flatMap_cons]
    exact .cons (escape_written pr c) (text_written pr l)

theorem set_field {pr : Char → Bool} {s : String} : ∀ l : List String, s ∈ l → Field (entries pr l) "" (quoted pr s)
  | t :: ss, hm => by
    unfold entries
    rcases List.mem_cons.1 hm with rfl | hm
    · exact ⟨", ".toList, entries pr ss, by simp⟩
    · exact (set_field ss hm).left _

end Debug

/-- C107: and everything else is written with the escapes of a Rust string: the text of each originator, the resource, the ability and the caveats can be
read off exactly. -/
theorem C107_texts {S A : Type} (D : Deps) (pr : Char → Bool) (sem : Semantics S A) (i : Info S A) :
    Field (info D pr sem i) "originators: {" [] ∧ Field (info D pr sem i) "capability: Capability { resource: " [] ∧
    (∀ o ∈ i.originators, ∃ t, QuotedText pr o.toList t ∧ Field (info D pr sem i) "" ('"' :: (t ++ ['"']))) ∧
    (∃ t, QuotedText pr (i.capability.resource.toStr sem.scopeStr).toList t ∧ Field (info D pr sem i) "resource: " ('"' :: (t ++ ['"']))) ∧
    (∃ t, QuotedText pr (sem.actionStr i.capability.ability).toList t ∧ Field (info D pr sem i) "ability: " ('"' :: (t ++ ['"']))) ∧
    ∃ t, QuotedText pr (json D i.capability.caveat).toList t ∧ Field (info D pr sem i) "caveats: Ok(" ('"' :: (t ++ ['"', ')'])) := by
  refine ⟨?_, ?_, fun o ho => ⟨_, text_written pr _, ?_⟩, ⟨_, text_written pr _, ?_⟩, ⟨_, text_written pr _, ?_⟩, ⟨_, text_written pr _, ?_⟩⟩
  · have e : "CapabilityInfo { originators: ".toList = "CapabilityInfo { ".toList ++ "originators: ".toList := rfl
    have hset : ∃ x, set pr i.originators = '{' :: x := by
      cases i.originators with
      | nil => exact ⟨['}'], rfl⟩
      | cons t ss => exact ⟨_, rfl⟩
    obtain ⟨x, hx⟩ := hset
    have : Field ("CapabilityInfo { originators: ".toList ++ set pr i.originators) "originators: {" [] :=
      ⟨"CapabilityInfo { ".toList, x, by rw [e, hx]; simp⟩
    unfold info
    exact ((((((this.right _).right _).right _).right _).right _).right _).right _
  · have e : ", capability: ".toList = ", ".toList ++ "capability: ".toList := rfl
    have e' : "capability: Capability { resource: ".toList = "capability: ".toList ++ "Capability { resource: ".toList := rfl
    have key : ∀ P x : List Char, Field (P ++ ", capability: ".toList ++ ("Capability { resource: ".toList ++ x) ++ " }".toList)
        "capability: Capability { resource: " [] := fun P x => ⟨P ++ ", ".toList, x ++ " }".toList, by rw [e, e']; simp⟩
    unfold info view
    have := key ("CapabilityInfo { originators: ".toList ++ set pr i.originators ++ ", not_before: ".toList ++ time i.notBefore ++ ", expires_at: ".toList ++
      time i.expiresAt) (quoted pr (i.capability.resource.toStr sem.scopeStr) ++ ", ability: ".toList ++ quoted pr (sem.actionStr i.capability.ability) ++
      ", caveats: Ok(".toList ++ quoted pr (json D i.capability.caveat) ++ ") }".toList)
    simpa only [List.append_assoc] using this
  · have hset : Field (set pr i.originators) "" (quoted pr o) := by
      generalize i.originators = l at ho
      cases l with
      | nil => cases ho
      | cons t ss =>
        show Field (['{'] ++ (quoted pr t ++ entries pr ss)) "" (quoted pr o)
        rcases List.mem_cons.1 ho with rfl | hm
        · exact ⟨['{'], entries pr ss, by simp⟩
        · exact ((set_field ss hm).left _).left ['{']
    unfold info
    exact (((((((hset.left _).right _).right _).right _).right _).right _).right _).right _
  · have : Field (view D pr sem i.capability) "resource: " (quoted pr (i.capability.resource.toStr sem.scopeStr)) := by
      unfold view
      have e : "Capability { resource: ".toList = "Capability { ".toList ++ "resource: ".toList := rfl
      have key : ∀ x, Field ("Capability { resource: ".toList ++ x) "resource: " x := fun x => ⟨"Capability { ".toList, [], by rw [e]; simp⟩
      exact ((((key _).right _).right _).right _).right _ |>.right _
    exact (this.left _).right _
  · have : Field (view D pr sem i.capability) "ability: " (quoted pr (sem.actionStr i.capability.ability)) := by
      unfold view
      have e : ", ability: ".toList = ", ".toList ++ "ability: ".toList := rfl
      have key : ∀ P x, Field (P ++ ", ability: ".toList ++ x) "ability: " x := fun P x => ⟨P ++ ", ".toList, [], by rw [e]; simp⟩
      exact (((key _ _).right _).right _).right _
    exact (this.left _).right _
  · have : Field (view D pr sem i.capability) "caveats: Ok(" ('"' :: ((json D i.capability.caveat).toList.flatMap (escape pr) ++ ['"', ')'])) := by
      unfold view
      have e : ", caveats: Ok(".toList = ", ".toList ++ "caveats: Ok(".toList := rfl
      have e' : ") }".toList = ")".toList ++ " }".toList := rfl
      have key : ∀ (P x : List Char), Field (P ++ ", caveats: Ok(".toList ++ '"' :: (x ++ ['"']) ++ ") }".toList) "caveats: Ok(" ('"' :: (x ++ ['"', ')'])) := by
        intro P x
        refine ⟨P ++ ", ".toList, " }".toList, ?_⟩
        rw [e, e']
        simp
      exact key _ _
    exact (this.left _).right _

/-- Beside C107: an escape character sent to confuse a terminal. -/
example : QuotedText (fun _ => true) ['a', '\x1b'] "a\\u{1b}".toList := text_written (fun _ => true) ['a', '\x1b']

/-- C107: the fields stand under their names, times as `None` or in decimal, texts in quotes. -/
theorem C107_fields {S A : Type} (D : Deps) (pr : Char → Bool) (sem : Semantics S A) (i : Info S A)
    (hr : ∀ c ∈ (i.capability.resource.toStr sem.scopeStr).toList, ShownAsIs pr c) (ha : ∀ c ∈ (sem.actionStr i.capability.ability).toList, ShownAsIs pr c) :
    Field (info D pr sem i) "not_before: " (time i.notBefore) ∧ Field (info D pr sem i) "expires_at: " (time i.expiresAt) ∧
    Field (info D pr sem i) "resource: \"" (i.capability.resource.toStr sem.scopeStr).toList ∧
    Field (info D pr sem i) "ability: \"" (sem.actionStr i.capability.ability).toList ∧ time none = "None".toList := by
  have hnum : ∀ (p x t : List Char) (l : String), Field (x ++ (p ++ l.toList) ++ t) l t := fun p x t l => ⟨x ++ p, [], by simp⟩
  have e1 : ", not_before: ".toList = ", ".toList ++ "not_before: ".toList := rfl
  have e2 : ", expires_at: ".toList = ", ".toList ++ "expires_at: ".toList := rfl
  have e3 : ∀ t : List Char, "Capability { resource: ".toList ++ '"' :: (t ++ ['"']) = "Capability { ".toList ++ ("resource: \"".toList ++ (t ++ ['"'])) := fun _ => rfl
  have e4 : ∀ t : List Char, ", ability: ".toList ++ '"' :: (t ++ ['"']) = ", ".toList ++ ("ability: \"".toList ++ (t ++ ['"'])) := fun _ => rfl
  have f3 : Field (view D pr sem i.capability) "resource: \"" (i.capability.resource.toStr sem.scopeStr).toList := by
    unfold view
    rw [quoted_plain hr, e3]
    exact Field.right (Field.right (Field.right (Field.right (Field.right ⟨_, ['"'], rfl⟩ _) _) _) _) _
  have f4 : Field (view D pr sem i.capability) "ability: \"" (sem.actionStr i.capability.ability).toList := by
    unfold view
    rw [quoted_plain ha, List.append_assoc (_ ++ _) _ ('"' :: _), e4]
    exact Field.right (Field.right (Field.right (Field.left ⟨_, ['"'], rfl⟩ _) _) _) _
  refine ⟨?_, ?_, ?_, ?_, rfl⟩
  · unfold info
    rw [e1]
    exact Field.right (Field.right (Field.right (Field.right (Field.right (hnum _ _ _ _) _) _) _) _) _
  · unfold info
    rw [e2]
    exact Field.right (Field.right (Field.right (hnum _ _ _ _) _) _) _
  · exact Field.right (Field.left f3 _) _
  · exact Field.right (Field.left f4 _) _

/-- A party who calls themselves a line of a log: the line break and the quotation mark are escaped. -/
example (pr : Char → Bool) : quoted pr "did:x\"}\nadmin" = "\"did:x\\\"}\\nadmin\"".toList := by
  rfl

end Verif
