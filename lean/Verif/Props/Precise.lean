import Verif.Spec.Precise
import Verif.Props.JsonText
import Verif.Props.Capability

/-! # C123: caveats with different numbers are told apart -/

namespace Verif
open Spec

namespace Precise

/-- More pigeons than holes. -/
theorem pigeons : ∀ (n : Nat) (g : Nat → Nat), (∀ i, i ≤ n → g i < n) → ∃ i j, i < j ∧ j ≤ n ∧ g i = g j := by
  intro n
  induction n with
  | zero => intro g h; exact absurd (h 0 (Nat.le_refl _)) (Nat.not_lt_zero _)
  | succ n ih =>
    intro g h
    by_cases hx : ∃ i, i ≤ n ∧ g i = g (n + 1)
    · obtain ⟨i, hi, he⟩ := hx
      exact ⟨i, n + 1, by omega, Nat.le_refl _, he⟩
    · have hne : ∀ i, i ≤ n → g i ≠ g (n + 1) := fun i hi he => hx ⟨i, hi, he⟩
      have hlast := h (n + 1) (Nat.le_refl _)
      obtain ⟨i, j, hij, hj, he⟩ := ih (fun i => if g i < g (n + 1) then g i else g i - 1) (by
        intro i hi
        have := h i (by omega)
        have := hne i hi
        split <;> omega)
      refine ⟨i, j, hij, by omega, ?_⟩
      have h1 := hne i (by omega)
      have h2 := hne j hj
      split at he <;> split at he <;> omega

theorem natural_dec (n : Nat) : Natural (Json.decBytes n) ∧ digitsValue (Json.decBytes n) = n := by
  refine ⟨⟨⟨Json.decBytes_ne_nil n, fun c hc => ?_⟩, ?_⟩, by rw [← Json.decVal_eq, Json.decVal_decBytes]⟩
  · have := Json.decBytes_digits n c hc
    unfold Json.isDigit at this
    simp only [Bool.and_eq_true, decide_eq_true_eq] at this
    exact this
  · by_cases h : (Json.decBytes n).head? = some 48
    · left
      have h1 : (Json.decBytes n).length = 1 := Classical.byContradiction fun hl => Json.decBytes_head n ⟨h, hl⟩
      match hd : Json.decBytes n, h1 with
      | [x], _ => rw [hd] at h; simp at h; rw [h]
    · exact .inr h

theorem caveat_text {D : Deps} {k t : Bytes} {s : String} {v : Json} (hk : StringText k s) (ht : NumberText D t v) :
    ElementText D (caveatText k t) (.obj [(s, v)]) := by
  have hw : Ws [] := fun c hc => by cases hc
  have he : ElementText D t v := by simpa using ElementText.mk hw (ValueText.number ht) hw
  have hm : MembersText D (k ++ 58 :: t) [(s, v)] := by simpa using MembersText.one hw hk hw he
  have := ElementText.mk hw (ValueText.object hm) hw
  simpa [caveatText] using this

theorem integer_value {D : Deps} {t : Bytes} {i : Int} (h : IntegerText t i) : NumberText D t (.int i) := by
  cases h with
  | nat h1 h2 => exact .nat h1 h2
  | neg h1 h2 h3 => exact .neg h1 h2 h3

theorem enables_one (s : String) (v v' : Json) : Caveat.enables [(s, v)] [(s, v')] = v.eqv v' := by
  unfold Caveat.enables
  simp only [List.isEmpty_cons, Bool.false_eq_true, if_false]
  simp only [Json.eqvMembers, Caveat.allIn, BMap.get?]
  cases h : v.eqv v' <;> simp [h]

/-- What is read from the text of one constraint. -/
theorem read_caveat {D : Deps} {k t : Bytes} {s : String} {v w : Json} (hk : StringText k s) (ht : NumberText D t v) (hr : ElementText D (caveatText k t) w) :
    w = .obj [(s, v)] := C71_unambiguous D _ _ _ hr (caveat_text hk ht)

end Precise
open Precise

/-- C123 is violated: there are two numbers, and texts of caveats that differ in nothing but these, which are read as one caveat; each enables the other.
Holds for every reader of doubles, since there are no more than 2 ^ 64 of them. -/
theorem C123_confused (D : Deps) (hD : ReadsWide D) : ∃ n m t t', n ≠ m ∧ Natural t ∧ digitsValue t = n ∧ Natural t' ∧ digitsValue t' = m ∧
    ∀ k s, StringText k s → ∃ c, ElementText D (caveatText k t) (.obj c) ∧ ElementText D (caveatText k t') (.obj c) ∧ Caveat.enables c c = true := by
  have hsome : ∀ i, i ≤ 2 ^ 64 → ∃ f, D.f64Parse (Json.decBytes (2 ^ 64 + i)) = some f := fun i hi =>
    hD _ (natural_dec _).1 (by rw [(natural_dec _).2]; omega)
  obtain ⟨i, j, hij, hj, he⟩ := pigeons (2 ^ 64) (fun i => ((D.f64Parse (Json.decBytes (2 ^ 64 + i))).getD default).bits.toNat)
    (fun i _ => UInt64.toNat_lt _)
  obtain ⟨f, hf⟩ := hsome i (by omega)
  obtain ⟨g, hg⟩ := hsome j hj
  simp only [hf, hg, Option.getD_some] at he
  have hfg : f = g := by
    cases f; cases g
    exact congrArg F64.mk (UInt64.toNat_inj.1 he)
  subst hfg
  have hn : ∀ x, D.f64Parse (Json.decBytes (2 ^ 64 + x)) = some f → NumberText D (Json.decBytes (2 ^ 64 + x)) (.float f) := by
    intro x hx
    have := NumberText.double (D := D) (sg := []) (ip := Json.decBytes (2 ^ 64 + x)) (fr := []) (ex := []) (f := f) (.inl rfl) (natural_dec _).1 (.inl rfl)
      (.inl rfl) (fun _ _ _ => by rw [(natural_dec _).2]; omega) (fun _ _ h => by cases h) (by simpa using hx)
    simpa using this
  refine ⟨2 ^ 64 + i, 2 ^ 64 + j, _, _, by omega, (natural_dec _).1, (natural_dec _).2, (natural_dec _).1, (natural_dec _).2, fun k s hk => ?_⟩
  refine ⟨[(s, .float f)], caveat_text hk (hn i hf), caveat_text hk (hn j hg), ?_⟩
  rw [enables_one]
  simp [Json.eqv, F64.eqv]

/-- C123 (partial), what holds: integers of 64 bits are told apart, whatever is read from the texts: one enables the other exactly if the integers are
the same. -/
theorem C123_integers_partial (D : Deps) (k : Bytes) (s : String) (hk : StringText k s) (t t' : Bytes) (i i' : Int) (ht : IntegerText t i)
    (ht' : IntegerText t' i') (c c' : Caveat) (hc : ElementText D (caveatText k t) (.obj c)) (hc' : ElementText D (caveatText k t') (.obj c')) :
    c.enables c' = true ↔ i = i' := by
  have h := read_caveat hk (integer_value ht) hc
  have h' := read_caveat hk (integer_value ht') hc'
  cases h
  cases h'
  rw [enables_one]
  simp [Json.eqv]

/-- C123: conversely one number may be taken for two: written with a fraction or an exponent, it neither enables nor is enabled by an integer of
64 bits, also where it is the same. -/
theorem C123_spellings (D : Deps) (k : Bytes) (s : String) (hk : StringText k s) (t t' : Bytes) (i : Int) (f : F64) (ht : IntegerText t i)
    (ht' : NumberText D t' (.float f)) (c c' : Caveat) (hc : ElementText D (caveatText k t) (.obj c)) (hc' : ElementText D (caveatText k t') (.obj c')) :
    c.enables c' = false ∧ c'.enables c = false := by
  have h := read_caveat hk (integer_value ht) hc
  have h' := read_caveat hk ht' hc'
  cases h
  cases h'
  rw [enables_one, enables_one]
  exact ⟨rfl, rfl⟩

/-- Beside C123: the number one as `1` and as `1.0` (hypotheses of `C123_spellings`), and a key. -/
example (D : Deps) (f : F64) (hf : D.f64Parse (strBytes "1.0") = some f) :
    IntegerText (strBytes "1") 1 ∧ NumberText D (strBytes "1.0") (.float f) ∧ ∃ k, StringText k "max" := by
  refine ⟨?_, ?_, ?_⟩
  · have : IntegerText (strBytes "1") (digitsValue (strBytes "1")) := .nat ((natural_dec 1).1) (by decide +kernel)
    rw [show ((digitsValue (strBytes "1") : Nat) : Int) = 1 by decide +kernel] at this
    exact this
  · exact NumberText.double (sg := []) (ip := [49]) (fr := [46, 48]) (ex := []) (.inl rfl) ((natural_dec 1).1)
      (.inr ⟨[48], rfl, by simp, by simp⟩) (.inl rfl) (fun h => by cases h) (fun h => by cases h) hf
  · obtain ⟨t, _, ht⟩ := Json.pStr_sound (b := strBytes "max\"") (s := "max") (r := []) (by decide +kernel)
    exact ⟨_, ht⟩

end Verif
