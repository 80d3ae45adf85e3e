import Verif.Base.Bytes

/-!
# Unsigned varints

The `unsigned_varint` crate: `encode::u64`/`encode::usize` and `decode::u64`/`decode::usize`
(`ucan/src/ipld/signature.rs` 124-159, and inside the `cid` crate). The decoder reads at most ten
bytes, rejects a final zero byte after the first (`NotMinimal`), and shifts into a `u64`, so bits
beyond the 64th are silently lost.
-/

namespace Verif.Varint

/-- LEB128 encoding with fuel. -/
def encodeAux : Nat → Nat → Bytes
  | 0, n => [UInt8.ofNat n]
  | f + 1, n => if n < 128 then [UInt8.ofNat n] else UInt8.ofNat (n % 128 + 128) :: encodeAux f (n / 128)

/-- `unsigned_varint::encode::u64`: at most ten bytes. -/
def encode (n : UInt64) : Bytes := encodeAux 9 n.toNat

/-- The decoding loop, `i` bytes having been consumed with value `acc`. -/
def decodeAux : Nat → Nat → Bytes → Option (Nat × Bytes)
  | _, _, [] => none
  | i, acc, b :: bs =>
    let acc' := (acc + (b.toNat % 128) * 2 ^ (7 * i)) % 2 ^ 64
    if b.toNat < 128 then
      if b.toNat = 0 ∧ 0 < i then none else some (acc', bs)
    else if i = 9 then none
    else decodeAux (i + 1) acc' bs

/-- `unsigned_varint::decode::u64`: value and remaining bytes; `none` stands for its errors. -/
def decode (b : Bytes) : Option (UInt64 × Bytes) :=
  (decodeAux 0 0 b).map fun r => (UInt64.ofNat r.1, r.2)

theorem encodeAux_ne_nil (f n : Nat) : encodeAux f n ≠ [] := by
  cases f with
  | zero => simp [encodeAux]
  | succ f => simp only [encodeAux]; split <;> simp

/-- The head byte of the encoding of a positive number is not zero. -/
theorem decodeAux_encodeAux : ∀ (f i n acc : Nat) (rest : Bytes),
    f + i = 9 → n < 2 ^ (64 - 7 * i) → acc < 2 ^ (7 * i) → (0 < i → 0 < n) →
    decodeAux i acc (encodeAux f n ++ rest) = some (acc + n * 2 ^ (7 * i), rest) := by
  intro f
  induction f with
  | zero =>
    intro i n acc rest hi hn hacc hpos
    have : i = 9 := by omega
    subst this
    have hn : n < 2 := by simpa using hn
    have h1 : n = 1 := by have := hpos (by omega); omega
    subst h1
    simp only [encodeAux, List.cons_append, List.nil_append, decodeAux]
    have : acc < 2 ^ 63 := by simpa using hacc
    simp
    omega
  | succ f ih =>
    intro i n acc rest hi hn hacc hpos
    have hi8 : i ≤ 8 := by omega
    have hp : 2 ^ (64 - 7 * i) * 2 ^ (7 * i) = 2 ^ 64 := by
      rw [← Nat.pow_add]; congr 1; omega
    have hpi : 0 < 2 ^ (7 * i) := Nat.pow_pos (by omega)
    have hsum : acc + n * 2 ^ (7 * i) < 2 ^ 64 := by
      have h1 : (n + 1) * 2 ^ (7 * i) ≤ 2 ^ (64 - 7 * i) * 2 ^ (7 * i) := Nat.mul_le_mul_right _ hn
      rw [hp, Nat.add_mul] at h1
      omega
    simp only [encodeAux]
    split
    · rename_i hlt
      simp only [List.cons_append, List.nil_append, decodeAux]
      have e1 : (UInt8.ofNat n).toNat = n := by simp; omega
      rw [e1, if_pos hlt]
      rw [if_neg (by intro h; have := hpos h.2; omega)]
      rw [Nat.mod_eq_of_lt hlt, Nat.mod_eq_of_lt hsum]
    · rename_i hge
      simp only [List.cons_append, decodeAux]
      have e1 : (UInt8.ofNat (n % 128 + 128)).toNat = n % 128 + 128 := by simp; omega
      rw [e1, if_neg (by omega), if_neg (by omega)]
      have e2 : (n % 128 + 128) % 128 = n % 128 := by omega
      rw [e2]
      have hstep : acc + n % 128 * 2 ^ (7 * i) < 2 ^ (7 * (i + 1)) := by
        have : 2 ^ (7 * (i + 1)) = 128 * 2 ^ (7 * i) := by
          rw [Nat.mul_add, Nat.pow_add]; omega
        rw [this]
        have h1 : (n % 128 + 1) * 2 ^ (7 * i) ≤ 128 * 2 ^ (7 * i) :=
          Nat.mul_le_mul_right _ (by have := Nat.mod_lt n (show 128 > 0 by omega); omega)
        rw [Nat.add_mul] at h1
        omega
      have hle : acc + n % 128 * 2 ^ (7 * i) < 2 ^ 64 := by
        have : n % 128 * 2 ^ (7 * i) ≤ n * 2 ^ (7 * i) := Nat.mul_le_mul_right _ (Nat.mod_le _ _)
        omega
      rw [Nat.mod_eq_of_lt hle]
      rw [ih (i + 1) (n / 128) _ rest (by omega) ?_ hstep (by intro _; omega)]
      · have : 2 ^ (7 * (i + 1)) = 128 * 2 ^ (7 * i) := by
          rw [Nat.mul_add, Nat.pow_add]; omega
        rw [this]
        congr 2
        have hdm := Nat.div_add_mod n 128
        have : n * 2 ^ (7 * i) = (128 * (n / 128) + n % 128) * 2 ^ (7 * i) := by rw [hdm]
        rw [this, Nat.add_mul]
        have : n / 128 * (128 * 2 ^ (7 * i)) = 128 * (n / 128) * 2 ^ (7 * i) := by
          rw [← Nat.mul_assoc, Nat.mul_comm (n / 128) 128]
        omega
      · have : 2 ^ (64 - 7 * i) = 128 * 2 ^ (64 - 7 * (i + 1)) := by
          rw [show 64 - 7 * i = 7 + (64 - 7 * (i + 1)) by omega, Nat.pow_add]
        rw [this] at hn
        exact Nat.div_lt_of_lt_mul hn

theorem decode_encode (n : UInt64) (rest : Bytes) : decode (encode n ++ rest) = some (n, rest) := by
  unfold decode encode
  have := decodeAux_encodeAux 9 0 n.toNat 0 rest rfl (by simpa using n.toNat_lt) (by simp) (by simp)
  simp [this]

theorem encode_small {n : Nat} (h : n < 128) : encodeAux 9 n = [UInt8.ofNat n] := by
  simp [encodeAux, h]

example : encode 300 = [172, 2] := by decide
example : decode [172, 2, 9] = some (300, [9]) := by decide

end Verif.Varint
