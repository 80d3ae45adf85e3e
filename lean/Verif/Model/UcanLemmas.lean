import Verif.Model.PayloadLemmas
import Verif.Model.Ucan
import Verif.Spec.Token

/-! # Lemmas about token parsing -/

namespace Verif
open Spec

theorem splitByte_ne_nil (c : UInt8) (b : Bytes) : splitByte c b ≠ [] := by
  cases b with
  | nil => simp [splitByte]
  | cons x xs =>
    simp only [splitByte]
    split
    · simp
    · split <;> simp

theorem splitByte_of_not_mem {c : UInt8} {a : Bytes} (h : c ∉ a) : splitByte c a = [a] := by
  induction a with
  | nil => rfl
  | cons x xs ih =>
    simp only [List.mem_cons, not_or] at h
    simp only [splitByte]
    rw [if_neg (fun e => h.1 e.symm), ih h.2]

theorem splitByte_append {c : UInt8} {a : Bytes} (h : c ∉ a) (r : Bytes) : splitByte c (a ++ c :: r) = a :: splitByte c r := by
  induction a with
  | nil => simp [splitByte]
  | cons x xs ih =>
    simp only [List.mem_cons, not_or] at h
    simp only [List.cons_append, splitByte]
    rw [if_neg (fun e => h.1 e.symm), ih h.2]

/-- Every text is its first segment, alone or followed by a dot and the rest. -/
theorem splitByte_cases (c : UInt8) (b : Bytes) :
    (c ∉ b ∧ splitByte c b = [b]) ∨ ∃ a r, c ∉ a ∧ b = a ++ c :: r ∧ splitByte c b = a :: splitByte c r := by
  by_cases h : c ∈ b
  · right
    have : ∃ a r, b = a ++ c :: r ∧ c ∉ a := by
      induction b with
      | nil => cases h
      | cons x xs ih =>
        by_cases hx : x = c
        · exact ⟨[], xs, by simp [hx], by simp⟩
        · have hm : c ∈ xs := by
            rcases List.mem_cons.1 h with e | e
            · exact absurd e.symm hx
            · exact e
          obtain ⟨a, r, rfl, hn⟩ := ih hm
          exact ⟨x :: a, r, rfl, by simp [hn, Ne.symm hx]⟩
    obtain ⟨a, r, rfl, hn⟩ := this
    exact ⟨a, r, hn, rfl, splitByte_append hn r⟩
  · exact Or.inl ⟨h, splitByte_of_not_mem h⟩

namespace Ucan

theorem splitByte_segments {t a b c tail : Bytes} (h : Segments t a b c tail) :
    ∃ rest, splitByte 46 t = a :: b :: c :: rest := by
  obtain ⟨rfl, ha, hb, hc, ht⟩ := h
  simp only [List.append_assoc, List.cons_append]
  rw [splitByte_append ha, splitByte_append hb]
  rcases ht with rfl | ⟨r, rfl⟩
  · simp only [List.append_nil]
    rw [splitByte_of_not_mem hc]
    exact ⟨[], rfl⟩
  · rw [splitByte_append hc]
    exact ⟨_, rfl⟩

theorem segments_of_splitByte {t a b c : Bytes} {rest : List Bytes} (h : splitByte 46 t = a :: b :: c :: rest) :
    ∃ tail, Segments t a b c tail := by
  rcases splitByte_cases 46 t with ⟨_, h1⟩ | ⟨a', r, ha, rfl, h1⟩
  · rw [h1] at h; cases h
  · rw [h1] at h
    simp only [List.cons.injEq] at h
    obtain ⟨rfl, h⟩ := h
    rcases splitByte_cases 46 r with ⟨_, h2⟩ | ⟨b', r2, hb, rfl, h2⟩
    · rw [h2] at h; cases h
    · rw [h2] at h
      simp only [List.cons.injEq] at h
      obtain ⟨rfl, h⟩ := h
      rcases splitByte_cases 46 r2 with ⟨hc, h3⟩ | ⟨c', r3, hc, rfl, h3⟩
      · rw [h3] at h
        simp only [List.cons.injEq] at h
        obtain ⟨rfl, _⟩ := h
        exact ⟨[], by simp, ha, hb, hc, Or.inl rfl⟩
      · rw [h3] at h
        simp only [List.cons.injEq] at h
        obtain ⟨rfl, _⟩ := h
        exact ⟨46 :: r3, by simp, ha, hb, hc, Or.inr ⟨r3, rfl⟩⟩

theorem decodePart_ok {α : Type} {f : Bytes → Option α} {part : Bytes} {a : α} :
    decodePart f part = .ok a ↔ ∃ b, part = Base64.encode b ∧ f b = some a := by
  unfold decodePart
  constructor
  · intro h
    split at h
    · cases h
    · rename_i b hb
      exact ⟨b, (Base64.encode_of_decode hb).symm, orErr_eq_ok.1 h⟩
  · rintro ⟨b, rfl, h⟩
    rw [Base64.decode_encode]
    exact orErr_eq_ok.2 h

/-- Parsing succeeds exactly on tokens, with their content. -/
theorem ofBytes_ok_iff (D : Deps) (t : Bytes) (u : Ucan) :
    ofBytes D t = .ok u ↔ IsToken D t u.header u.payload u.signedData u.signature := by
  constructor
  · intro h
    unfold ofBytes at h
    simp only at h
    split at h
    · cases h
    · rename_i p0 rest hs
      split at h
      · cases h
      · rename_i header hh
        split at h
        · cases h
        · rename_i p1 rest1 
          split at h
          · cases h
          · rename_i payload hp
            split at h
            · cases h
            · rename_i p2 rest2
              split at h
              · cases h
              · rename_i sig hsig
                injection h with h
                subst h
                obtain ⟨hb, rfl, hh'⟩ := decodePart_ok.1 hh
                obtain ⟨pb, rfl, hp'⟩ := decodePart_ok.1 hp
                have hc := Base64.encode_of_decode hsig
                subst hc
                obtain ⟨tail, ht⟩ := segments_of_splitByte hs
                refine ⟨hb, pb, tail, ht, hh', hp', ?_⟩
                simp only [new, hs, signedText]
  · rintro ⟨hb, pb, tail, hs, hh, hp, hd⟩
    obtain ⟨rest, hr⟩ := splitByte_segments hs
    unfold ofBytes
    simp only [hr, decodePart_ok.2 ⟨hb, rfl, hh⟩, decodePart_ok.2 ⟨pb, rfl, hp⟩, Base64.decode_encode, signedText, ← hd]
    rfl

theorem encodeBytes_ascii (D : Deps) (u : Ucan) : IsAscii (encodeBytes D u) := by
  intro x hx
  simp only [encodeBytes, signingInput, List.mem_append, List.mem_cons] at hx
  rcases hx with (hx | rfl | hx) | rfl | hx
  · exact Base64.encode_ascii _ x hx
  · decide
  · exact Base64.encode_ascii _ x hx
  · decide
  · exact Base64.encode_ascii _ x hx

theorem strBytes_encode (D : Deps) (u : Ucan) : strBytes (encode D u) = encodeBytes D u :=
  strBytes_asciiStr (encodeBytes_ascii D u)

theorem segments_encodeBytes (D : Deps) (u : Ucan) : Segments (encodeBytes D u) (Base64.encode (Codec.headerBytes D u.header))
    (Base64.encode (Codec.payloadBytes D u.payload)) (Base64.encode u.signature) [] :=
  ⟨by simp [encodeBytes, signingInput], Base64.encode_no_dot _, Base64.encode_no_dot _, Base64.encode_no_dot _, Or.inl rfl⟩

/-- Parsing the encoding of a UCAN with an encodable payload. -/
theorem fromStr_encode (D : Deps) (u : Ucan) (h : Codec.Encodable D u.payload) :
    fromStr D (encode D u) = .ok { u with signedData := signingInput D u.header u.payload } := by
  unfold fromStr
  rw [strBytes_encode, ofBytes_ok_iff]
  exact ⟨_, _, [], segments_encodeBytes D u, Codec.headerOfBytes_headerBytes D _, Codec.payloadOfBytes_payloadBytes D _ h, rfl⟩

end Ucan
end Verif
