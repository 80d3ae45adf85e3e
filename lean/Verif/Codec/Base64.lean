import Verif.Base.Bytes

/-!
# base64url without padding

`base64::engine::general_purpose::URL_SAFE_NO_PAD`, used in `ucan/src/ucan.rs` 93-100, 238-242,
`ucan/src/serde.rs` (`jwt_base64_encode`) and `ucan/src/builder.rs` 53-59. The decoder of that engine
accepts no padding, rejects symbols outside the alphabet, a dangling single symbol, and non-zero
trailing bits.
-/

namespace Verif.Base64

/-- The URL-safe alphabet `A-Za-z0-9-_`. -/
def sextetChar (n : Nat) : UInt8 :=
  if n < 26 then UInt8.ofNat (65 + n)
  else if n < 52 then UInt8.ofNat (97 + (n - 26))
  else if n < 62 then UInt8.ofNat (48 + (n - 52))
  else if n = 62 then 45 else 95

/-- Symbol value, `none` for symbols outside the alphabet. -/
def charSextet (c : UInt8) : Option Nat :=
  let n := c.toNat
  if 65 ≤ n ∧ n < 91 then some (n - 65)
  else if 97 ≤ n ∧ n < 123 then some (n - 97 + 26)
  else if 48 ≤ n ∧ n < 58 then some (n - 48 + 52)
  else if n = 45 then some 62
  else if n = 95 then some 63
  else none

/-- `URL_SAFE_NO_PAD.encode`. -/
def encode : Bytes → Bytes
  | [] => []
  | [a] => [sextetChar (a.toNat / 4), sextetChar (a.toNat % 4 * 16)]
  | [a, b] =>
    [sextetChar (a.toNat / 4), sextetChar (a.toNat % 4 * 16 + b.toNat / 16),
      sextetChar (b.toNat % 16 * 4)]
  | a :: b :: c :: t =>
    sextetChar (a.toNat / 4) :: sextetChar (a.toNat % 4 * 16 + b.toNat / 16) ::
      sextetChar (b.toNat % 16 * 4 + c.toNat / 64) :: sextetChar (c.toNat % 64) :: encode t

/-- `URL_SAFE_NO_PAD.decode`; `none` stands for its error. -/
def decode : Bytes → Option Bytes
  | [] => some []
  | [_] => none
  | [c0, c1] =>
    match charSextet c0, charSextet c1 with
    | some v0, some v1 => if v1 % 16 = 0 then some [UInt8.ofNat (v0 * 4 + v1 / 16)] else none
    | _, _ => none
  | [c0, c1, c2] =>
    match charSextet c0, charSextet c1, charSextet c2 with
    | some v0, some v1, some v2 =>
      if v2 % 4 = 0 then some [UInt8.ofNat (v0 * 4 + v1 / 16), UInt8.ofNat (v1 % 16 * 16 + v2 / 4)]
      else none
    | _, _, _ => none
  | c0 :: c1 :: c2 :: c3 :: t =>
    match charSextet c0, charSextet c1, charSextet c2, charSextet c3, decode t with
    | some v0, some v1, some v2, some v3, some r =>
      some (UInt8.ofNat (v0 * 4 + v1 / 16) :: UInt8.ofNat (v1 % 16 * 16 + v2 / 4) ::
        UInt8.ofNat (v2 % 4 * 64 + v3) :: r)
    | _, _, _, _, _ => none

theorem charSextet_sextetChar {n : Nat} (h : n < 64) : charSextet (sextetChar n) = some n := by
  have : ∀ m : Fin 64, charSextet (sextetChar m.val) = some m.val := by decide +kernel
  exact this ⟨n, h⟩

theorem charSextet_some {c : UInt8} {n : Nat} (h : charSextet c = some n) :
    n < 64 ∧ sextetChar n = c := by
  have : ∀ c : UInt8, (match charSextet c with
      | some n => decide (n < 64) && (sextetChar n == c) | none => true) = true :=
    forall_uint8 (P := fun c => (match charSextet c with
      | some n => decide (n < 64) && (sextetChar n == c) | none => true) = true) (by decide +kernel)
  have := this c
  rw [h] at this
  simpa using this

theorem sextetChar_ascii {n : Nat} : (sextetChar n).toNat < 128 := by
  unfold sextetChar
  split
  · simp; omega
  · split
    · simp; omega
    · split
      · simp; omega
      · split <;> decide

theorem ofNat_eq {a : UInt8} {n : Nat} (h : n = a.toNat) : UInt8.ofNat n = a := by
  subst h; simp

theorem decode_encode : ∀ b : Bytes, decode (encode b) = some b
  | [] => rfl
  | [a] => by
    have ha := a.toNat_lt
    simp only [encode, decode]
    rw [charSextet_sextetChar (by omega), charSextet_sextetChar (by omega)]
    simp only []
    rw [if_pos (by omega)]
    simp only [Option.some.injEq, List.cons.injEq, and_true]
    exact ofNat_eq (by omega)
  | [a, b] => by
    have ha := a.toNat_lt
    have hb := b.toNat_lt
    simp only [encode, decode]
    rw [charSextet_sextetChar (by omega), charSextet_sextetChar (by omega), charSextet_sextetChar (by omega)]
    simp only []
    rw [if_pos (by omega)]
    simp only [Option.some.injEq, List.cons.injEq, and_true]
    exact ⟨ofNat_eq (by omega), ofNat_eq (by omega)⟩
  | a :: b :: c :: t => by
    have ha := a.toNat_lt
    have hb := b.toNat_lt
    have hc := c.toNat_lt
    simp only [encode, decode]
    rw [charSextet_sextetChar (by omega), charSextet_sextetChar (by omega), charSextet_sextetChar (by omega),
      charSextet_sextetChar (by omega), decode_encode t]
    simp only [Option.some.injEq, List.cons.injEq, and_true]
    exact ⟨ofNat_eq (by omega), ofNat_eq (by omega), ofNat_eq (by omega)⟩

theorem encode_of_decode : ∀ {s b : Bytes}, decode s = some b → encode b = s
  | [], b, h => by simp only [decode] at h; cases h; rfl
  | [_], b, h => by simp [decode] at h
  | [c0, c1], b, h => by
    simp only [decode] at h
    split at h
    · rename_i v0 v1 h0 h1
      obtain ⟨l0, e0⟩ := charSextet_some h0
      obtain ⟨l1, e1⟩ := charSextet_some h1
      split at h
      · cases h
        simp only [encode, List.cons.injEq, and_true]
        rw [← e0, ← e1]
        simp only [UInt8.toNat_ofNat']
        constructor <;> congr 1 <;> omega
      · cases h
    · cases h
  | [c0, c1, c2], b, h => by
    simp only [decode] at h
    split at h
    · rename_i v0 v1 v2 h0 h1 h2
      obtain ⟨l0, e0⟩ := charSextet_some h0
      obtain ⟨l1, e1⟩ := charSextet_some h1
      obtain ⟨l2, e2⟩ := charSextet_some h2
      split at h
      · cases h
        simp only [encode, List.cons.injEq, and_true]
        rw [← e0, ← e1, ← e2]
        simp only [UInt8.toNat_ofNat']
        refine ⟨?_, ?_, ?_⟩ <;> congr 1 <;> omega
      · cases h
    · cases h
  | c0 :: c1 :: c2 :: c3 :: t, b, h => by
    simp only [decode] at h
    split at h
    · rename_i v0 v1 v2 v3 r h0 h1 h2 h3 hr
      obtain ⟨l0, e0⟩ := charSextet_some h0
      obtain ⟨l1, e1⟩ := charSextet_some h1
      obtain ⟨l2, e2⟩ := charSextet_some h2
      obtain ⟨l3, e3⟩ := charSextet_some h3
      cases h
      simp only [encode, List.cons.injEq, encode_of_decode hr, and_true]
      rw [← e0, ← e1, ← e2, ← e3]
      simp only [UInt8.toNat_ofNat']
      refine ⟨?_, ?_, ?_, ?_⟩ <;> congr 1 <;> omega
    · cases h

/-- Encoder output only uses alphabet symbols. -/
theorem encode_alphabet : ∀ (b : Bytes), ∀ x ∈ encode b, ∃ n, n < 64 ∧ x = sextetChar n
  | [], x, h => by simp [encode] at h
  | [a], x, h => by
    have ha := a.toNat_lt
    simp only [encode, List.mem_cons, List.not_mem_nil, or_false] at h
    rcases h with h | h <;> exact ⟨_, by omega, h⟩
  | [a, b], x, h => by
    have ha := a.toNat_lt
    have hb := b.toNat_lt
    simp only [encode, List.mem_cons, List.not_mem_nil, or_false] at h
    rcases h with h | h | h <;> exact ⟨_, by omega, h⟩
  | a :: b :: c :: t, x, h => by
    have ha := a.toNat_lt
    have hb := b.toNat_lt
    have hc := c.toNat_lt
    simp only [encode, List.mem_cons] at h
    rcases h with h | h | h | h | h
    · exact ⟨_, by omega, h⟩
    · exact ⟨_, by omega, h⟩
    · exact ⟨_, by omega, h⟩
    · exact ⟨_, by omega, h⟩
    · exact encode_alphabet t x h

theorem encode_ascii (b : Bytes) : IsAscii (encode b) := by
  intro x hx
  obtain ⟨n, _, rfl⟩ := encode_alphabet b x hx
  exact sextetChar_ascii

/-- No symbol is the dot that separates token segments. -/
theorem encode_no_dot (b : Bytes) : (46 : UInt8) ∉ encode b := by
  intro h
  obtain ⟨n, hn, he⟩ := encode_alphabet b _ h
  have : ∀ m : Fin 64, sextetChar m.val ≠ 46 := by decide +kernel
  exact this ⟨n, hn⟩ he.symm

/-- `URL_SAFE_NO_PAD.encode` as a `String`. -/
def encodeStr (b : Bytes) : String := asciiStr (encode b)

theorem strBytes_encodeStr (b : Bytes) : strBytes (encodeStr b) = encode b :=
  strBytes_asciiStr (encode_ascii b)

end Verif.Base64
