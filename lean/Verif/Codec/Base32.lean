import Verif.Base.Bytes

/-!
# base32 lower case without padding

The multibase `b` used by the `cid` crate for the text of version 1 CIDs. The decoder rejects symbols
outside the alphabet, impossible lengths and non-zero trailing bits.
-/

namespace Verif.Base32

/-- The alphabet `a-z2-7`. -/
def quintChar (n : Nat) : UInt8 := if n < 26 then UInt8.ofNat (97 + n) else UInt8.ofNat (50 + (n - 26))

def charQuint (c : UInt8) : Option Nat :=
  let n := c.toNat
  if 97 ≤ n ∧ n < 123 then some (n - 97)
  else if 50 ≤ n ∧ n < 56 then some (n - 50 + 26)
  else none

def encode : Bytes → Bytes
  | [] => []
  | [a] => [quintChar (a.toNat / 8), quintChar (a.toNat % 8 * 4)]
  | [a, b] =>
    [quintChar (a.toNat / 8), quintChar (a.toNat % 8 * 4 + b.toNat / 64), quintChar (b.toNat / 2 % 32),
      quintChar (b.toNat % 2 * 16)]
  | [a, b, c] =>
    [quintChar (a.toNat / 8), quintChar (a.toNat % 8 * 4 + b.toNat / 64), quintChar (b.toNat / 2 % 32),
      quintChar (b.toNat % 2 * 16 + c.toNat / 16), quintChar (c.toNat % 16 * 2)]
  | [a, b, c, d] =>
    [quintChar (a.toNat / 8), quintChar (a.toNat % 8 * 4 + b.toNat / 64), quintChar (b.toNat / 2 % 32),
      quintChar (b.toNat % 2 * 16 + c.toNat / 16), quintChar (c.toNat % 16 * 2 + d.toNat / 128),
      quintChar (d.toNat / 4 % 32), quintChar (d.toNat % 4 * 8)]
  | a :: b :: c :: d :: e :: t =>
    quintChar (a.toNat / 8) :: quintChar (a.toNat % 8 * 4 + b.toNat / 64) :: quintChar (b.toNat / 2 % 32) ::
      quintChar (b.toNat % 2 * 16 + c.toNat / 16) :: quintChar (c.toNat % 16 * 2 + d.toNat / 128) ::
      quintChar (d.toNat / 4 % 32) :: quintChar (d.toNat % 4 * 8 + e.toNat / 32) ::
      quintChar (e.toNat % 32) :: encode t

/-- Values of all symbols. -/
def quints : Bytes → Option (List Nat)
  | [] => some []
  | c :: cs =>
    match charQuint c, quints cs with
    | some q, some qs => some (q :: qs)
    | _, _ => none

/-- Bytes of a list of 5-bit values. -/
def unpack : List Nat → Option Bytes
  | [] => some []
  | [q0, q1] => if q1 % 4 = 0 then some [UInt8.ofNat (q0 * 8 + q1 / 4)] else none
  | [q0, q1, q2, q3] =>
    if q3 % 16 = 0 then some [UInt8.ofNat (q0 * 8 + q1 / 4), UInt8.ofNat (q1 % 4 * 64 + q2 * 2 + q3 / 16)] else none
  | [q0, q1, q2, q3, q4] =>
    if q4 % 2 = 0 then some [UInt8.ofNat (q0 * 8 + q1 / 4), UInt8.ofNat (q1 % 4 * 64 + q2 * 2 + q3 / 16),
      UInt8.ofNat (q3 % 16 * 16 + q4 / 2)] else none
  | [q0, q1, q2, q3, q4, q5, q6] =>
    if q6 % 8 = 0 then some [UInt8.ofNat (q0 * 8 + q1 / 4), UInt8.ofNat (q1 % 4 * 64 + q2 * 2 + q3 / 16),
      UInt8.ofNat (q3 % 16 * 16 + q4 / 2), UInt8.ofNat (q4 % 2 * 128 + q5 * 4 + q6 / 8)] else none
  | q0 :: q1 :: q2 :: q3 :: q4 :: q5 :: q6 :: q7 :: t =>
    match unpack t with
    | none => none
    | some r =>
      some (UInt8.ofNat (q0 * 8 + q1 / 4) :: UInt8.ofNat (q1 % 4 * 64 + q2 * 2 + q3 / 16) ::
        UInt8.ofNat (q3 % 16 * 16 + q4 / 2) :: UInt8.ofNat (q4 % 2 * 128 + q5 * 4 + q6 / 8) ::
        UInt8.ofNat (q6 % 8 * 32 + q7) :: r)
  | _ => none

def decode (s : Bytes) : Option Bytes :=
  match quints s with
  | none => none
  | some qs => unpack qs

theorem charQuint_quintChar {n : Nat} (h : n < 32) : charQuint (quintChar n) = some n := by
  have : ∀ m : Fin 32, charQuint (quintChar m.val) = some m.val := by decide +kernel
  exact this ⟨n, h⟩

theorem charQuint_some {c : UInt8} {n : Nat} (h : charQuint c = some n) : n < 32 ∧ quintChar n = c := by
  have : ∀ c : UInt8, (match charQuint c with
      | some n => decide (n < 32) && (quintChar n == c) | none => true) = true :=
    forall_uint8 (P := fun c => (match charQuint c with
      | some n => decide (n < 32) && (quintChar n == c) | none => true) = true) (by decide +kernel)
  have := this c
  rw [h] at this
  simpa using this

theorem quintChar_facts {n : Nat} (h : n < 32) : (quintChar n).toNat < 128 ∧ quintChar n ≠ 47 := by
  have : ∀ m : Fin 32, (quintChar m.val).toNat < 128 ∧ quintChar m.val ≠ 47 := by decide +kernel
  exact this ⟨n, h⟩

theorem ofNat_eq {a : UInt8} {n : Nat} (h : n = a.toNat) : UInt8.ofNat n = a := by
  subst h; simp

/-- Packing a byte list into 5-bit values (the encoder before the alphabet). -/
def pack : Bytes → List Nat
  | [] => []
  | [a] => [a.toNat / 8, a.toNat % 8 * 4]
  | [a, b] => [a.toNat / 8, a.toNat % 8 * 4 + b.toNat / 64, b.toNat / 2 % 32, b.toNat % 2 * 16]
  | [a, b, c] =>
    [a.toNat / 8, a.toNat % 8 * 4 + b.toNat / 64, b.toNat / 2 % 32, b.toNat % 2 * 16 + c.toNat / 16, c.toNat % 16 * 2]
  | [a, b, c, d] =>
    [a.toNat / 8, a.toNat % 8 * 4 + b.toNat / 64, b.toNat / 2 % 32, b.toNat % 2 * 16 + c.toNat / 16,
      c.toNat % 16 * 2 + d.toNat / 128, d.toNat / 4 % 32, d.toNat % 4 * 8]
  | a :: b :: c :: d :: e :: t =>
    a.toNat / 8 :: (a.toNat % 8 * 4 + b.toNat / 64) :: (b.toNat / 2 % 32) :: (b.toNat % 2 * 16 + c.toNat / 16) ::
      (c.toNat % 16 * 2 + d.toNat / 128) :: (d.toNat / 4 % 32) :: (d.toNat % 4 * 8 + e.toNat / 32) ::
      (e.toNat % 32) :: pack t

theorem encode_eq_pack : ∀ b : Bytes, encode b = (pack b).map quintChar
  | [] => rfl
  | [_] => rfl
  | [_, _] => rfl
  | [_, _, _] => rfl
  | [_, _, _, _] => rfl
  | a :: b :: c :: d :: e :: t => by simp only [encode, pack, List.map_cons, encode_eq_pack t]

theorem pack_lt : ∀ b : Bytes, ∀ q ∈ pack b, q < 32
  | [], q, h => by simp [pack] at h
  | [a], q, h => by
    have := a.toNat_lt
    simp only [pack, List.mem_cons, List.not_mem_nil, or_false] at h
    omega
  | [a, b], q, h => by
    have := a.toNat_lt; have := b.toNat_lt
    simp only [pack, List.mem_cons, List.not_mem_nil, or_false] at h
    omega
  | [a, b, c], q, h => by
    have := a.toNat_lt; have := b.toNat_lt; have := c.toNat_lt
    simp only [pack, List.mem_cons, List.not_mem_nil, or_false] at h
    omega
  | [a, b, c, d], q, h => by
    have := a.toNat_lt; have := b.toNat_lt; have := c.toNat_lt; have := d.toNat_lt
    simp only [pack, List.mem_cons, List.not_mem_nil, or_false] at h
    omega
  | a :: b :: c :: d :: e :: t, q, h => by
    have := a.toNat_lt; have := b.toNat_lt; have := c.toNat_lt; have := d.toNat_lt; have := e.toNat_lt
    simp only [pack, List.mem_cons] at h
    rcases h with h | h | h | h | h | h | h | h | h
    · omega
    · omega
    · omega
    · omega
    · omega
    · omega
    · omega
    · omega
    · exact pack_lt t q h

theorem quints_map {qs : List Nat} (h : ∀ q ∈ qs, q < 32) : quints (qs.map quintChar) = some qs := by
  induction qs with
  | nil => rfl
  | cons q qs ih =>
    simp only [List.map_cons, quints, charQuint_quintChar (h q (by simp)), ih (fun x hx => h x (by simp [hx]))]

theorem quints_some : ∀ {cs : Bytes} {qs : List Nat}, quints cs = some qs →
    (∀ q ∈ qs, q < 32) ∧ qs.map quintChar = cs
  | [], qs, h => by simp only [quints] at h; cases h; simp
  | c :: cs, qs, h => by
    simp only [quints] at h
    split at h
    · rename_i d ds' h1 h2
      cases h
      obtain ⟨l, e⟩ := charQuint_some h1
      obtain ⟨l', e'⟩ := quints_some h2
      simp [e, e', l]; exact l'
    · cases h

theorem unpack_pack : ∀ b : Bytes, unpack (pack b) = some b
  | [] => rfl
  | [a] => by
    have := a.toNat_lt
    simp only [pack, unpack]
    rw [if_pos (by omega)]
    simp only [Option.some.injEq, List.cons.injEq, and_true]
    exact ofNat_eq (by omega)
  | [a, b] => by
    have := a.toNat_lt; have := b.toNat_lt
    simp only [pack, unpack]
    rw [if_pos (by omega)]
    simp only [Option.some.injEq, List.cons.injEq, and_true]
    exact ⟨ofNat_eq (by omega), ofNat_eq (by omega)⟩
  | [a, b, c] => by
    have := a.toNat_lt; have := b.toNat_lt; have := c.toNat_lt
    simp only [pack, unpack]
    rw [if_pos (by omega)]
    simp only [Option.some.injEq, List.cons.injEq, and_true]
    exact ⟨ofNat_eq (by omega), ofNat_eq (by omega), ofNat_eq (by omega)⟩
  | [a, b, c, d] => by
    have := a.toNat_lt; have := b.toNat_lt; have := c.toNat_lt; have := d.toNat_lt
    simp only [pack, unpack]
    rw [if_pos (by omega)]
    simp only [Option.some.injEq, List.cons.injEq, and_true]
    exact ⟨ofNat_eq (by omega), ofNat_eq (by omega), ofNat_eq (by omega), ofNat_eq (by omega)⟩
  | a :: b :: c :: d :: e :: t => by
    have := a.toNat_lt; have := b.toNat_lt; have := c.toNat_lt; have := d.toNat_lt; have := e.toNat_lt
    simp only [pack, unpack, unpack_pack t]
    simp only [Option.some.injEq, List.cons.injEq, and_true]
    exact ⟨ofNat_eq (by omega), ofNat_eq (by omega), ofNat_eq (by omega), ofNat_eq (by omega), ofNat_eq (by omega)⟩

theorem decode_encode (b : Bytes) : decode (encode b) = some b := by
  unfold decode
  rw [encode_eq_pack, quints_map (pack_lt b)]
  exact unpack_pack b

theorem encode_alphabet (b : Bytes) : ∀ x ∈ encode b, x.toNat < 128 ∧ x ≠ 47 := by
  intro x hx
  rw [encode_eq_pack] at hx
  obtain ⟨q, hq, rfl⟩ := List.mem_map.1 hx
  exact quintChar_facts (pack_lt b q hq)

theorem pack_unpack : ∀ {qs : List Nat} {b : Bytes}, (∀ q ∈ qs, q < 32) → unpack qs = some b → pack b = qs
  | [], b, _, h => by simp only [unpack] at h; cases h; rfl
  | [_], b, _, h => by simp [unpack] at h
  | [q0, q1], b, hl, h => by
    have h0 := hl q0 (by simp); have h1 := hl q1 (by simp)
    simp only [unpack] at h
    split at h
    · cases h
      simp only [pack, UInt8.toNat_ofNat', List.cons.injEq, and_true]
      omega
    · cases h
  | [_, _, _], b, _, h => by simp [unpack] at h
  | [q0, q1, q2, q3], b, hl, h => by
    have h0 := hl q0 (by simp); have h1 := hl q1 (by simp); have h2 := hl q2 (by simp); have h3 := hl q3 (by simp)
    simp only [unpack] at h
    split at h
    · cases h
      simp only [pack, UInt8.toNat_ofNat', List.cons.injEq, and_true]
      omega
    · cases h
  | [q0, q1, q2, q3, q4], b, hl, h => by
    have h0 := hl q0 (by simp); have h1 := hl q1 (by simp); have h2 := hl q2 (by simp); have h3 := hl q3 (by simp)
    have h4 := hl q4 (by simp)
    simp only [unpack] at h
    split at h
    · cases h
      simp only [pack, UInt8.toNat_ofNat', List.cons.injEq, and_true]
      omega
    · cases h
  | [_, _, _, _, _, _], b, _, h => by simp [unpack] at h
  | [q0, q1, q2, q3, q4, q5, q6], b, hl, h => by
    have h0 := hl q0 (by simp); have h1 := hl q1 (by simp); have h2 := hl q2 (by simp); have h3 := hl q3 (by simp)
    have h4 := hl q4 (by simp); have h5 := hl q5 (by simp); have h6 := hl q6 (by simp)
    simp only [unpack] at h
    split at h
    · cases h
      simp only [pack, UInt8.toNat_ofNat', List.cons.injEq, and_true]
      omega
    · cases h
  | q0 :: q1 :: q2 :: q3 :: q4 :: q5 :: q6 :: q7 :: t, b, hl, h => by
    have h0 := hl q0 (by simp); have h1 := hl q1 (by simp); have h2 := hl q2 (by simp); have h3 := hl q3 (by simp)
    have h4 := hl q4 (by simp); have h5 := hl q5 (by simp); have h6 := hl q6 (by simp); have h7 := hl q7 (by simp)
    simp only [unpack] at h
    split at h
    · cases h
    · rename_i r hr
      cases h
      have := pack_unpack (qs := t) (fun q hq => hl q (by simp [hq])) hr
      simp only [pack, UInt8.toNat_ofNat', List.cons.injEq, this, and_true]
      omega

theorem encode_of_decode {s b : Bytes} (h : decode s = some b) : encode b = s := by
  unfold decode at h
  split at h
  · cases h
  · rename_i qs hq
    obtain ⟨hl, hm⟩ := quints_some hq
    rw [encode_eq_pack, pack_unpack hl h, hm]

end Verif.Base32
