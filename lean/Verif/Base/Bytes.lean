/-!
# Bytes and strings

Rust's `String` is a byte vector that is valid UTF-8; Lean's `String` is a byte array with a proof
of UTF-8 validity. We keep API level strings as Lean `String`s and do byte level work on
`Bytes = List UInt8`.
-/

namespace Verif

/-- Rust `Vec<u8>` / `&[u8]`. -/
abbrev Bytes := List UInt8

/-- Rust `str::as_bytes`. -/
def strBytes (s : String) : Bytes := s.toByteArray.data.toList

/-- Rust `String::from_utf8` / `std::str::from_utf8` (`none` is the error case). -/
def bytesStr? (b : Bytes) : Option String := String.fromUTF8? ⟨b.toArray⟩

theorem strBytes_inj {s t : String} (h : strBytes s = strBytes t) : s = t := by
  apply String.toByteArray_inj.1
  unfold strBytes at h
  have h' : s.toByteArray.data = t.toByteArray.data := Array.toList_inj.1 h
  cases hs : s.toByteArray; cases ht : t.toByteArray
  rw [hs, ht] at h'
  exact congrArg _ h'

@[simp] theorem strBytes_inj_iff {s t : String} : strBytes s = strBytes t ↔ s = t :=
  ⟨strBytes_inj, fun h => h ▸ rfl⟩

theorem bytesStr?_strBytes (s : String) : bytesStr? (strBytes s) = some s := by
  unfold bytesStr? strBytes
  have : (⟨s.toByteArray.data.toList.toArray⟩ : ByteArray) = s.toByteArray := by
    simp
  rw [this]
  unfold String.fromUTF8?
  rw [dif_pos s.isValidUTF8]
  rfl

theorem strBytes_of_bytesStr? {b : Bytes} {s : String} (h : bytesStr? b = some s) :
    strBytes s = b := by
  unfold bytesStr? String.fromUTF8? at h
  split at h
  · cases h; rfl
  · cases h

theorem bytesStr?_eq_some {b : Bytes} {s : String} : bytesStr? b = some s ↔ strBytes s = b :=
  ⟨strBytes_of_bytesStr?, fun h => h ▸ bytesStr?_strBytes s⟩

@[simp] theorem strBytes_append (s t : String) : strBytes (s ++ t) = strBytes s ++ strBytes t := by
  simp [strBytes, String.toByteArray_append]

/-- A decidable property of bytes can be checked on all 256 of them. -/
theorem forall_uint8 {P : UInt8 → Prop} (h : ∀ n : Fin 256, P (UInt8.ofNat n.val)) (x : UInt8) : P x := by
  have := h ⟨x.toNat, x.toNat_lt⟩
  simpa using this

/-- All bytes are below 128. -/
def IsAscii (b : Bytes) : Prop := ∀ x ∈ b, x.toNat < 128

/-- The string with the given ASCII bytes (used for the output of encoders whose alphabet is ASCII). -/
def asciiStr (b : Bytes) : String := String.ofList (b.map fun x => Char.ofNat x.toNat)

theorem utf8EncodeChar_ascii (x : UInt8) (h : x.toNat < 128) :
    String.utf8EncodeChar (Char.ofNat x.toNat) = [x] := by
  revert h
  exact forall_uint8 (P := fun y => y.toNat < 128 → String.utf8EncodeChar (Char.ofNat y.toNat) = [y])
    (by decide +kernel) x

theorem strBytes_ofList (l : List Char) :
    strBytes (String.ofList l) = l.flatMap String.utf8EncodeChar := by
  simp [strBytes, String.toByteArray_ofList, List.utf8Encode]

theorem strBytes_asciiStr {b : Bytes} (h : IsAscii b) : strBytes (asciiStr b) = b := by
  unfold asciiStr
  rw [strBytes_ofList]
  induction b with
  | nil => rfl
  | cons x xs ih =>
    have hx := utf8EncodeChar_ascii x (h x (by simp))
    simp only [List.map_cons, List.flatMap_cons, hx]
    rw [ih (fun y hy => h y (by simp [hy]))]
    rfl

theorem utf8EncodeChar_head (c : Char) (x : UInt8) (t : Bytes) (h : String.utf8EncodeChar c = x :: t) (hx : x.toNat < 128) : t = [] := by
  unfold String.utf8EncodeChar at h
  simp only at h
  split at h
  · simp at h; exact h.2
  · exfalso
    split at h <;> (try split at h) <;>
    · injection h with h1 h2
      subst h1
      revert hx
      simp only [UInt8.toNat_ofNat']; omega

/-- What follows an ASCII prefix of a string is a string. -/
theorem strBytes_drop_ascii {p r : Bytes} {s : String} (hp : IsAscii p) (h : strBytes s = p ++ r) : ∃ t, r = strBytes t := by
  obtain ⟨l, rfl⟩ : ∃ l, s = String.ofList l := ⟨s.toList, by simp⟩
  rw [strBytes_ofList] at h
  induction p generalizing l with
  | nil => exact ⟨String.ofList l, by rw [strBytes_ofList]; exact h.symm⟩
  | cons x p ih =>
    cases l with
    | nil => simp at h
    | cons c l =>
      rw [List.flatMap_cons] at h
      cases hc : String.utf8EncodeChar c with
      | nil => exact absurd hc (by simp)
      | cons y t =>
        rw [hc] at h
        injection h with h1 h2
        subst h1
        have := utf8EncodeChar_head c y t hc (hp y (by simp))
        subst this
        exact ih (fun z hz => hp z (by simp [hz])) l h2

@[simp] theorem strBytes_empty : strBytes "" = [] := rfl

end Verif
