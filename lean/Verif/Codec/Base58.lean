import Verif.Base.Digits

/-!
# base58btc

The `bs58` crate with its default (Bitcoin) alphabet, used in `ucan/src/crypto/did.rs` 52,
`ucan/src/ipld/principle.rs` 18 and 36, and the `get_did` functions of `ucan-key-support`.
Leading zero bytes become leading `1`s; the rest is the big-endian number in base 58.
-/

namespace Verif.Base58

/-- The Bitcoin alphabet. -/
def alphabet : List UInt8 := [
  49, 50, 51, 52, 53, 54, 55, 56, 57,
  65, 66, 67, 68, 69, 70, 71, 72, 74, 75, 76, 77, 78, 80, 81, 82, 83, 84, 85, 86, 87, 88, 89, 90,
  97, 98, 99, 100, 101, 102, 103, 104, 105, 106, 107, 109, 110, 111, 112, 113, 114, 115, 116, 117,
  118, 119, 120, 121, 122]

example : alphabet = strBytes "123456789ABCDEFGHJKLMNPQRSTUVWXYZabcdefghijkmnopqrstuvwxyz" := by decide +kernel

def digitChar (n : Nat) : UInt8 := alphabet.getD n 0

def charDigit (c : UInt8) : Option Nat := alphabet.idxOf? c

theorem charDigit_digitChar {n : Nat} (h : n < 58) : charDigit (digitChar n) = some n := by
  have : ∀ m : Fin 58, charDigit (digitChar m.val) = some m.val := by decide +kernel
  exact this ⟨n, h⟩

theorem charDigit_some {c : UInt8} {n : Nat} (h : charDigit c = some n) :
    n < 58 ∧ digitChar n = c := by
  have : ∀ c : UInt8, (match charDigit c with
      | some n => decide (n < 58) && (digitChar n == c) | none => true) = true :=
    forall_uint8 (P := fun c => (match charDigit c with
      | some n => decide (n < 58) && (digitChar n == c) | none => true) = true) (by decide +kernel)
  have := this c
  rw [h] at this
  simpa using this

theorem digitChar_facts {n : Nat} (h : n < 58) :
    (digitChar n).toNat < 128 ∧ (digitChar n = 49 ↔ n = 0) ∧ digitChar n ≠ 58 ∧ digitChar n ≠ 46 := by
  have : ∀ m : Fin 58, (digitChar m.val).toNat < 128 ∧ (digitChar m.val = 49 ↔ m.val = 0) ∧
      digitChar m.val ≠ 58 ∧ digitChar m.val ≠ 46 := by decide +kernel
  exact this ⟨n, h⟩

/-- `bs58::encode(b).into_string()`, as bytes. -/
def encode (b : Bytes) : Bytes :=
  List.replicate (b.takeWhile (· == 0)).length 49 ++
    (toDigits 58 (ofDigits 256 ((b.dropWhile (· == 0)).map UInt8.toNat))).map digitChar

/-- All symbols' values, or `none` if one is outside the alphabet. -/
def charsDigits : Bytes → Option (List Nat)
  | [] => some []
  | c :: cs =>
    match charDigit c, charsDigits cs with
    | some d, some ds => some (d :: ds)
    | _, _ => none

/-- `bs58::decode(s).into_vec()`; `none` stands for its error. -/
def decode (s : Bytes) : Option Bytes :=
  match charsDigits (s.dropWhile (· == 49)) with
  | some ds => some (List.replicate (s.takeWhile (· == 49)).length 0 ++
      (toDigits 256 (ofDigits 58 ds)).map UInt8.ofNat)
  | none => none

theorem charsDigits_map {ds : List Nat} (h : ∀ d ∈ ds, d < 58) : charsDigits (ds.map digitChar) = some ds := by
  induction ds with
  | nil => rfl
  | cons d ds ih =>
    simp only [List.map_cons, charsDigits, charDigit_digitChar (h d (by simp)), ih (fun x hx => h x (by simp [hx]))]

theorem charsDigits_some : ∀ {cs : Bytes} {ds : List Nat}, charsDigits cs = some ds →
    (∀ d ∈ ds, d < 58) ∧ ds.map digitChar = cs
  | [], ds, h => by simp only [charsDigits] at h; cases h; simp
  | c :: cs, ds, h => by
    simp only [charsDigits] at h
    split at h
    · rename_i d ds' h1 h2
      cases h
      obtain ⟨l, e⟩ := charDigit_some h1
      obtain ⟨l', e'⟩ := charsDigits_some h2
      simp [e, e', l]; exact l'
    · cases h

theorem head_map {α β : Type} (f : α → β) (l : List α) : (l.map f).head? = l.head?.map f := by
  cases l <;> rfl

theorem decode_encode (b : Bytes) : decode (encode b) = some b := by
  unfold decode encode
  have hd := toDigits_lt (b := 58) (by omega) (ofDigits 256 ((b.dropWhile (· == 0)).map UInt8.toNat))
  have hh := toDigits_head (b := 58) (by omega) (ofDigits 256 ((b.dropWhile (· == 0)).map UInt8.toNat))
  generalize hD : toDigits 58 (ofDigits 256 ((b.dropWhile (· == 0)).map UInt8.toNat)) = D at hd hh
  have hsplit := takeWhile_replicate_append (49 : UInt8) (b.takeWhile (· == 0)).length (D.map digitChar) (by
    intro y hy
    rw [head_map] at hy
    cases D with
    | nil => simp at hy
    | cons d D =>
      simp at hy
      subst hy
      have h0 := hh d rfl
      have := (digitChar_facts (hd d (by simp))).2.1
      intro e; exact h0 (this.1 e))
  rw [hsplit.2, hsplit.1, charsDigits_map hd]
  simp only []
  rw [← hD, ofDigits_toDigits (by omega), toDigits_ofDigits (by omega) _ _ rfl]
  · rw [List.map_map]
    have : (UInt8.ofNat ∘ UInt8.toNat) = id := by funext x; simp
    rw [this, List.map_id]
    congr 1
    exact replicate_takeWhile_dropWhile 0 b
  · intro d hd
    obtain ⟨x, _, rfl⟩ := List.mem_map.1 hd
    exact x.toNat_lt
  · intro d hd
    rw [head_map] at hd
    cases hx : (b.dropWhile (· == 0)).head? with
    | none => simp [hx] at hd
    | some x =>
      simp [hx] at hd
      have := dropWhile_head 0 b x hx
      subst hd
      intro e
      exact this (UInt8.toNat_inj.1 (by simpa using e))

theorem encode_of_decode {s b : Bytes} (h : decode s = some b) : encode b = s := by
  unfold decode at h
  split at h
  · rename_i ds hds
    cases h
    obtain ⟨hlt, hmap⟩ := charsDigits_some hds
    have hd := toDigits_lt (b := 256) (by omega) (ofDigits 58 ds)
    have hh := toDigits_head (b := 256) (by omega) (ofDigits 58 ds)
    unfold encode
    have hsplit := takeWhile_replicate_append (0 : UInt8) (s.takeWhile (· == 49)).length
      ((toDigits 256 (ofDigits 58 ds)).map UInt8.ofNat) (by
        intro y hy
        rw [head_map] at hy
        cases hx : (toDigits 256 (ofDigits 58 ds)).head? with
        | none => simp [hx] at hy
        | some x =>
          simp [hx] at hy
          have h0 := hh x hx
          have hl := hd x (List.mem_of_mem_head? (by simp [hx]))
          subst hy
          intro e
          have := congrArg UInt8.toNat e
          simp at this
          omega)
    rw [hsplit.2, hsplit.1, List.map_map]
    have : (toDigits 256 (ofDigits 58 ds)).map (UInt8.toNat ∘ UInt8.ofNat) = toDigits 256 (ofDigits 58 ds) := by
      conv => rhs; rw [← List.map_id (toDigits 256 (ofDigits 58 ds))]
      apply List.map_congr_left
      intro d hd'
      have := hd d hd'
      simp; omega
    rw [this, ofDigits_toDigits (by omega), toDigits_ofDigits (by omega) _ _ rfl hlt, hmap]
    · exact replicate_takeWhile_dropWhile 49 s
    · intro d hd'
      have h1 : (ds.map digitChar).head? = some (digitChar d) := by rw [head_map, hd']; rfl
      rw [hmap] at h1
      have := dropWhile_head 49 s _ h1
      intro e
      subst e
      exact this (by decide)
  · cases h

theorem encode_alphabet (b : Bytes) : ∀ x ∈ encode b, x.toNat < 128 ∧ x ≠ 58 ∧ x ≠ 46 := by
  intro x hx
  unfold encode at hx
  rcases List.mem_append.1 hx with hx | hx
  · have := List.eq_of_mem_replicate hx
    subst this; decide
  · obtain ⟨d, hd, rfl⟩ := List.mem_map.1 hx
    have := digitChar_facts (toDigits_lt (by omega) _ d hd)
    exact ⟨this.1, this.2.2.1, this.2.2.2⟩

theorem encode_ascii (b : Bytes) : IsAscii (encode b) := fun x hx => (encode_alphabet b x hx).1

example : decode (strBytes "6MkszRWe") ≠ none := by decide +kernel
example : encode [0, 0, 1, 2, 3] = strBytes "11Ldp" := by decide +kernel

end Verif.Base58
