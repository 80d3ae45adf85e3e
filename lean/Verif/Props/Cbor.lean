import Verif.Codec.Cbor
import Verif.Spec.Cbor
import Verif.Props.CidText

/-! # DAG-CBOR: what is written and what is read -/

namespace Verif

open Spec

namespace Cbor

/-! ## Numbers -/

theorem be_length : ∀ k n, (be k n).length = k
  | 0, _ => rfl
  | k + 1, n => by simp [be, be_length k n]

theorem bigEndian_be : ∀ k n, bigEndian (be k n) = n % 256 ^ k
  | 0, n => by simp [be, bigEndian, Nat.mod_one]
  | k + 1, n => by
    simp only [be, bigEndian, be_length, bigEndian_be k n, UInt8.toNat_ofNat']
    rw [Nat.pow_succ 256, Nat.mod_mul (a := 256 ^ k), Nat.mul_comm, Nat.add_comm]

theorem bigEndian_lt : ∀ b : Bytes, bigEndian b < 256 ^ b.length
  | [] => by simp [bigEndian]
  | x :: r => by
    have := bigEndian_lt r
    have hx := x.toNat_lt
    simp only [bigEndian, List.length_cons, Nat.pow_succ]
    have : (x.toNat + 1) * 256 ^ r.length ≤ 256 * 256 ^ r.length := Nat.mul_le_mul_right _ (by omega)
    rw [Nat.add_mul, Nat.one_mul] at this
    rw [Nat.mul_comm (256 ^ r.length)]
    omega

theorem bigEndian_inj : ∀ {b c : Bytes}, b.length = c.length → bigEndian b = bigEndian c → b = c
  | [], [], _, _ => rfl
  | x :: b, y :: c, hl, h => by
    simp only [List.length_cons, Nat.add_right_cancel_iff] at hl
    simp only [bigEndian, hl] at h
    have h1 := bigEndian_lt b
    have h2 := bigEndian_lt c
    rw [hl] at h1
    have hp : 0 < 256 ^ c.length := Nat.pos_of_ne_zero (by simp)
    have hx : x.toNat = y.toNat := by
      have a := congrArg (· / 256 ^ c.length) h
      simp only [Nat.add_comm (_ * _), Nat.add_mul_div_right _ _ hp, Nat.div_eq_of_lt h1, Nat.div_eq_of_lt h2] at a
      omega
    have hb : bigEndian b = bigEndian c := by rw [hx] at h; omega
    rw [UInt8.toNat_inj.1 hx, bigEndian_inj hl hb]

theorem ofBe_foldl : ∀ (b : Bytes) (a : Nat), b.foldl (fun a x => a * 256 + x.toNat) a = a * 256 ^ b.length + bigEndian b
  | [], a => by simp [bigEndian]
  | x :: b, a => by
    simp only [List.foldl_cons, ofBe_foldl b, bigEndian, List.length_cons, Nat.pow_succ]
    rw [Nat.add_mul, Nat.mul_assoc, Nat.mul_comm 256]
    omega

theorem ofBe_eq (b : Bytes) : ofBe b = bigEndian b := by
  unfold ofBe
  rw [ofBe_foldl]
  simp

/-! ## Heads -/

theorem takeN_iff (n : Nat) (b p r : Bytes) : takeN n b = some (p, r) ↔ b = p ++ r ∧ p.length = n := by
  unfold takeN
  constructor
  · intro h
    split at h
    · cases h
    · rename_i hl
      simp only [Option.some.injEq, Prod.mk.injEq] at h
      obtain ⟨rfl, rfl⟩ := h
      exact ⟨(List.take_append_drop n b).symm, by rw [List.length_take]; omega⟩
  · rintro ⟨rfl, rfl⟩
    rw [if_neg (by simp)]
    simp

theorem readHead_iff (b : Bytes) (mj n : Nat) (r : Bytes) : readHead b = some (mj, n, r) ↔ ∃ h, b = h ++ r ∧ Head mj n h := by
  constructor
  · intro h
    unfold readHead at h
    split at h
    · cases h
    · rename_i x t
      split at h
      · simp only [Option.some.injEq, Prod.mk.injEq] at h
        obtain ⟨rfl, rfl, rfl⟩ := h
        exact ⟨[x], rfl, .short (by assumption) (by omega)⟩
      · split at h
        · rw [Option.map_eq_some_iff] at h
          obtain ⟨⟨p, q⟩, h, e⟩ := h
          rw [takeN_iff] at h
          simp only [Prod.mk.injEq] at e
          obtain ⟨rfl, rfl, rfl⟩ := e
          obtain ⟨rfl, hl⟩ := h
          refine ⟨x :: p, rfl, ?_⟩
          rw [ofBe_eq]
          exact .long (k := x.toNat % 32 - 24) (by omega) hl (by omega)
        · cases h
  · rintro ⟨h, rfl, hh⟩
    cases hh with
    | @short x n hn hx =>
      simp only [List.cons_append, List.nil_append, readHead]
      rw [if_pos (by omega), show x.toNat / 32 = mj by omega, show x.toNat % 32 = n by omega]
    | @long x k b hk hl hx =>
      simp only [List.cons_append, readHead]
      rw [if_neg (by omega), if_pos (by omega), show x.toNat % 32 - 24 = k by omega, (takeN_iff (2 ^ k) (b ++ r) b r).2 ⟨rfl, hl⟩,
        show x.toNat / 32 = mj by omega]
      simp [ofBe_eq]

theorem head_head (mj n : Nat) (hm : mj < 8) (hn : n < 2 ^ 64) : Head mj n (head mj n) := by
  have key : ∀ k, k < 4 → n < 256 ^ 2 ^ k → Head mj n (UInt8.ofNat (mj * 32 + (24 + k)) :: be (2 ^ k) n) := by
    intro k hk hn
    have := Head.long (major := mj) (x := UInt8.ofNat (mj * 32 + (24 + k))) hk (be_length (2 ^ k) n)
      (by rw [UInt8.toNat_ofNat']; omega)
    rwa [bigEndian_be, Nat.mod_eq_of_lt hn] at this
  unfold head
  split
  · exact .short (by assumption) (by rw [UInt8.toNat_ofNat']; omega)
  · split
    · exact key 0 (by omega) (by simpa using by assumption)
    · split
      · exact key 1 (by omega) (by omega)
      · split
        · exact key 2 (by omega) (by omega)
        · exact key 3 (by omega) (by omega)

theorem head_bound {mj n : Nat} {h : Bytes} (hh : Head mj n h) : mj < 8 ∧ n < 2 ^ 64 := by
  cases hh with
  | @short x n hn hx => have := x.toNat_lt; omega
  | @long x k b hk hl hx =>
    have := x.toNat_lt
    have hb := bigEndian_lt b
    rw [hl] at hb
    refine ⟨by omega, ?_⟩
    have : 256 ^ 2 ^ k ≤ 256 ^ 2 ^ 3 := Nat.pow_le_pow_right (by omega) (Nat.pow_le_pow_right (by omega) (by omega))
    omega

theorem head_shortest (mj n : Nat) {h : Bytes} (hh : Head mj n h) : (head mj n).length ≤ h.length := by
  cases hh with
  | @short x n hn hx => simp [head, hn]
  | @long x k b hk hl hx =>
    have hb := bigEndian_lt b
    rw [hl] at hb
    simp only [List.length_cons, hl]
    unfold head
    have h4 : k = 0 ∨ k = 1 ∨ k = 2 ∨ k = 3 := by omega
    repeat' split
    all_goals simp only [List.length_cons, List.length_nil, be_length]
    all_goals rcases h4 with rfl | rfl | rfl | rfl <;> omega

theorem head_unique {mj n : Nat} {h h' : Bytes} (hh : Head mj n h) (hh' : Head mj n h') (hl : h.length = h'.length) : h = h' := by
  cases hh with
  | @short x n hn hx =>
    generalize hm : n = m at hh'
    cases hh' with
    | @short y _ _ hy => rw [UInt8.toNat_inj.1 (hx.trans (by rw [hm]; exact hy.symm))]
    | @long y k b hk hb hy =>
      have : 0 < 2 ^ k := Nat.pos_of_ne_zero (by simp)
      simp only [List.length_cons, List.length_nil, hb] at hl
      omega
  | @long x k b hk hb hx =>
    generalize hm : bigEndian b = m at hh'
    cases hh' with
    | @short y _ _ hy =>
      have : 0 < 2 ^ k := Nat.pos_of_ne_zero (by simp)
      simp only [List.length_cons, List.length_nil, hb] at hl
      omega
    | @long y k' b' hk' hb' hy =>
      simp only [List.length_cons, Nat.add_right_cancel_iff] at hl
      have : k = k' := (Nat.pow_right_inj (a := 2) (by omega)).1 (by omega)
      rw [bigEndian_inj hl hm, UInt8.toNat_inj.1 (hx.trans (by rw [this]; exact hy.symm))]

theorem shortestHead_iff (mj n : Nat) (h : Bytes) : ShortestHead mj n h ↔ (mj < 8 ∧ n < 2 ^ 64) ∧ h = head mj n := by
  constructor
  · rintro ⟨hh, hs⟩
    have hb := head_bound hh
    have hd := head_head mj n hb.1 hb.2
    exact ⟨hb, head_unique hh hd (Nat.le_antisymm (hs _ hd) (head_shortest mj n hh))⟩
  · rintro ⟨hb, rfl⟩
    exact ⟨head_head mj n hb.1 hb.2, fun _ h => head_shortest mj n h⟩

/-! ## Reading -/

theorem readText_iff (b : Bytes) (s : String) (r : Bytes) :
    readText b = some (s, r) ↔ ∃ h, b = h ++ (strBytes s ++ r) ∧ Head 3 (strBytes s).length h := by
  constructor
  · intro h
    unfold readText at h
    split at h
    · rename_i n t ht
      obtain ⟨hd, rfl, hh⟩ := (readHead_iff _ _ _ _).1 ht
      split at h
      · cases h
      · rename_i u q hq
        obtain ⟨rfl, rfl⟩ := (takeN_iff _ _ _ _).1 hq
        rw [Option.map_eq_some_iff] at h
        obtain ⟨s', hs, e⟩ := h
        rw [bytesStr?_eq_some] at hs
        cases e
        subst hs
        exact ⟨hd, rfl, hh⟩
    · cases h
  · rintro ⟨h, rfl, hh⟩
    unfold readText
    rw [(readHead_iff _ 3 (strBytes s).length (strBytes s ++ r)).2 ⟨h, rfl, hh⟩]
    simp only []
    rw [(takeN_iff _ _ (strBytes s) r).2 ⟨rfl, rfl⟩]
    simp only [bytesStr?_strBytes, Option.map_some]

theorem readLink_iff (b : Bytes) (c : Cid) (r : Bytes) :
    readLink b = some (c, r) ↔ ∃ h t, b = h ++ (0 :: t ++ r) ∧ Head 2 (t.length + 1) h ∧ StartsWithCid t c := by
  constructor
  · intro h
    unfold readLink at h
    split at h
    · rename_i n t ht
      obtain ⟨hd, rfl, hh⟩ := (readHead_iff _ _ _ _).1 ht
      split at h
      · rename_i u q hq
        obtain ⟨rfl, rfl⟩ := (takeN_iff _ _ _ _).1 hq
        rw [Option.map_eq_some_iff] at h
        obtain ⟨c', hc, e⟩ := h
        cases e
        exact ⟨hd, u, rfl, by simpa using hh, (ofBytes_iff _ _).1 hc⟩
      · cases h
    · cases h
  · rintro ⟨h, t, rfl, hh, hc⟩
    unfold readLink
    rw [(readHead_iff _ 2 (t.length + 1) (0 :: t ++ r)).2 ⟨h, rfl, hh⟩]
    simp only []
    rw [(takeN_iff (t.length + 1) _ (0 :: t) r).2 ⟨rfl, rfl⟩]
    simp only [(ofBytes_iff _ _).2 hc, Option.map_some]

/-- Concatenation of the texts of the members of a list. -/
def Concat {α : Type} (R : Bytes → α → Prop) : Bytes → List α → Prop
  | p, [] => p = []
  | p, x :: xs => ∃ a q, p = a ++ q ∧ R a x ∧ Concat R q xs

theorem many_iff {α : Type} {f : Bytes → Option (α × Bytes)} {R : Bytes → α → Prop}
    (hf : ∀ b x r, f b = some (x, r) ↔ ∃ p, b = p ++ r ∧ R p x) : ∀ (n : Nat) (b : Bytes) (l : List α) (r : Bytes),
    many f n b = some (l, r) ↔ l.length = n ∧ ∃ p, b = p ++ r ∧ Concat R p l
  | 0, b, l, r => by
    simp only [many, Option.some.injEq, Prod.mk.injEq]
    constructor
    · rintro ⟨rfl, rfl⟩
      exact ⟨rfl, [], rfl, rfl⟩
    · rintro ⟨hl, p, rfl, hc⟩
      cases List.length_eq_zero_iff.1 hl
      cases hc
      exact ⟨rfl, rfl⟩
  | n + 1, b, l, r => by
    simp only [many]
    constructor
    · intro h
      split at h
      · cases h
      · rename_i x b' hx
        obtain ⟨p, rfl, hp⟩ := (hf _ _ _).1 hx
        rw [Option.map_eq_some_iff] at h
        obtain ⟨⟨l', r'⟩, h, e⟩ := h
        obtain ⟨hl, q, rfl, hq⟩ := (many_iff hf n _ _ _).1 h
        simp only [Prod.mk.injEq] at e
        obtain ⟨rfl, rfl⟩ := e
        exact ⟨by simp [hl], p ++ q, by simp, p, q, rfl, hp, hq⟩
    · rintro ⟨hl, p, rfl, hc⟩
      cases l with
      | nil => cases hl
      | cons x l =>
        obtain ⟨a, q, rfl, ha, hq⟩ := hc
        rw [(hf _ x (q ++ r)).2 ⟨a, by simp, ha⟩]
        simp only []
        rw [(many_iff hf n _ l r).2 ⟨by simpa using hl, q, rfl, hq⟩]
        rfl

theorem concat_items {d : Nat} : ∀ (l : List Ipld) (p : Bytes),
    Concat (fun p v => Spec.Cbor p v ∧ nesting v < d) p l ↔ CborItems p l ∧ nestingItems l < d + 1
  | [], p => by
    simp only [Concat]
    constructor
    · rintro rfl; exact ⟨.nil, by simp [nestingItems]⟩
    · rintro ⟨h, _⟩; cases h; rfl
  | x :: xs, p => by
    simp only [Concat, concat_items xs]
    constructor
    · rintro ⟨a, q, rfl, ⟨hx, hd⟩, hq, he⟩
      refine ⟨.cons hx hq, ?_⟩
      simp only [nestingItems]
      omega
    · rintro ⟨h, he⟩
      cases h with
      | cons hx hq =>
        simp only [nestingItems] at he
        exact ⟨_, _, rfl, ⟨hx, by omega⟩, hq, by omega⟩

theorem concat_entries {d : Nat} : ∀ (l : List (String × Ipld)) (p : Bytes),
    Concat (fun p e => (∃ h q, p = h ++ (strBytes e.1 ++ q) ∧ Head 3 (strBytes e.1).length h ∧ Spec.Cbor q e.2) ∧ nesting e.2 < d) p l ↔
      CborEntries p l ∧ nestingEntries l < d + 1
  | [], p => by
    simp only [Concat]
    constructor
    · rintro rfl; exact ⟨.nil, by simp [nestingEntries]⟩
    · rintro ⟨h, _⟩; cases h; rfl
  | (k, x) :: xs, p => by
    simp only [Concat, concat_entries xs]
    constructor
    · rintro ⟨a, q, rfl, ⟨⟨h, t, rfl, hh, hx⟩, hd⟩, hq, he⟩
      refine ⟨by rw [List.append_assoc, List.append_assoc]; exact .cons hh hx hq, ?_⟩
      simp only [nestingEntries]
      omega
    · rintro ⟨h, he⟩
      cases h with
      | cons hh hx hq =>
        simp only [nestingEntries] at he
        exact ⟨_, _, by rw [← List.append_assoc, ← List.append_assoc, List.append_assoc _ (strBytes k)], ⟨⟨_, _, rfl, hh, hx⟩, by omega⟩, hq, by omega⟩

theorem entry_iff {f : Bytes → Option (Ipld × Bytes)} {R : Bytes → Ipld → Prop} (hf : ∀ b x r, f b = some (x, r) ↔ ∃ p, b = p ++ r ∧ R p x)
    (b : Bytes) (e : String × Ipld) (r : Bytes) :
    entry f b = some (e, r) ↔ ∃ p, b = p ++ r ∧ ∃ h q, p = h ++ (strBytes e.1 ++ q) ∧ Head 3 (strBytes e.1).length h ∧ R q e.2 := by
  constructor
  · intro h
    unfold entry at h
    split at h
    · cases h
    · rename_i k b' hk
      obtain ⟨hd, rfl, hh⟩ := (readText_iff _ _ _).1 hk
      rw [Option.map_eq_some_iff] at h
      obtain ⟨⟨x, r'⟩, h, e⟩ := h
      obtain ⟨p, rfl, hp⟩ := (hf _ _ _).1 h
      cases e
      exact ⟨hd ++ (strBytes k ++ p), by simp, hd, p, rfl, hh, hp⟩
  · rintro ⟨_, rfl, h, q, rfl, hh, hq⟩
    unfold entry
    rw [(readText_iff _ e.1 (q ++ r)).2 ⟨h, by simp, hh⟩]
    simp only []
    rw [(hf _ e.2 r).2 ⟨q, rfl, hq⟩]
    rfl

theorem head_cons {mj n : Nat} {h : Bytes} (hh : Head mj n h) : ∃ x t, h = x :: t ∧ mj * 32 ≤ x.toNat ∧ x.toNat < mj * 32 + 32 := by
  cases hh with
  | short => exact ⟨_, [], rfl, by omega, by omega⟩
  | long => exact ⟨_, _, rfl, by omega, by omega⟩

/-- The first byte of a head decides how `item` goes on. -/
theorem item_head {mj n : Nat} {h : Bytes} (hh : Head mj n h) (hm : mj < 7) (d : Nat) (r : Bytes) :
    item (d + 1) (h ++ r) = (match mj, n with
      | 0, n => some (.int n, r)
      | 1, n => some (.int (-1 - n), r)
      | 2, n => (takeN n r).map fun p => (.bytes p.1, p.2)
      | 3, _ => (readText (h ++ r)).map fun p => (.str p.1, p.2)
      | 4, n => (many (item d) n r).map fun p => (.list p.1, p.2)
      | 5, n => (many (entry (item d)) n r).map fun p => (.map p.1, p.2)
      | 6, n => if n = 42 then (readLink r).map fun p => (.link p.1, p.2) else none
      | _, _ => none) := by
  have hr : readHead (h ++ r) = some (mj, n, r) := (readHead_iff _ _ _ _).2 ⟨h, rfl, hh⟩
  obtain ⟨x, t, rfl, h1, h2⟩ := head_cons hh
  have hx : ∀ y : UInt8, 224 ≤ y.toNat → x ≠ y := by rintro y hy rfl; omega
  rw [List.cons_append] at hr
  simp only [List.cons_append, item, hr, hx 0xf4 (by decide), hx 0xf5 (by decide), hx 0xf6 (by decide), hx 0xfb (by decide), if_false]
  match mj, n with
  | 0, _ => rfl
  | 1, _ => rfl
  | 2, _ => rfl
  | 3, _ => rfl
  | 4, _ => rfl
  | 5, _ => rfl
  | 6, _ => rfl
  | (_ + 7), _ => rfl

/-- Items without a head. -/
theorem item_simple {d : Nat} {x : UInt8} {t : Bytes} {v : Ipld} {r : Bytes} (h : item (d + 1) (x :: t) = some (v, r))
    (hn : ∀ mj n q, mj < 7 → readHead (x :: t) ≠ some (mj, n, q)) : ∃ p, x :: t = p ++ r ∧ Spec.Cbor p v ∧ nesting v < d + 1 := by
  simp only [item] at h
  split at h
  · subst x; cases h; exact ⟨[0xf4], rfl, .false, by simp [nesting]⟩
  · split at h
    · subst x; cases h; exact ⟨[0xf5], rfl, .true, by simp [nesting]⟩
    · split at h
      · subst x; cases h; exact ⟨[0xf6], rfl, .null, by simp [nesting]⟩
      · split at h
        · subst x
          split at h
          · cases h
          · rename_i b q hb
            obtain ⟨rfl, hl⟩ := (takeN_iff _ _ _ _).1 hb
            split at h
            · rename_i hf
              cases h
              rw [ofBe_eq] at hf ⊢
              have hlt := bigEndian_lt b
              rw [hl] at hlt
              have e : (UInt64.ofNat (bigEndian b)).toNat = bigEndian b := by rw [UInt64.toNat_ofNat']; omega
              refine ⟨0xfb :: b, rfl, .float hl e.symm ?_, by simp [nesting]⟩
              unfold Finite
              rw [e]
              simpa [finite] using hf
            · cases h
        · exfalso
          split at h
          all_goals first | (rename_i hr; exact hn _ _ _ (by omega) hr) | cases h

theorem item_iff : ∀ (d : Nat) (b : Bytes) (v : Ipld) (r : Bytes),
    item d b = some (v, r) ↔ ∃ p, b = p ++ r ∧ Spec.Cbor p v ∧ nesting v < d
  | 0, b, v, r => by simp [item]
  | d + 1, b, v, r => by
    have ih := item_iff d
    have hmany := many_iff (f := item d) (R := fun p v => Spec.Cbor p v ∧ nesting v < d) ih
    have hentries := many_iff (f := entry (item d))
      (R := fun p e => (∃ h q, p = h ++ (strBytes e.1 ++ q) ∧ Head 3 (strBytes e.1).length h ∧ Spec.Cbor q e.2) ∧ nesting e.2 < d) (by
        intro b e r
        rw [entry_iff ih]
        grind)
    constructor
    · intro h
      cases b with
      | nil => cases h
      | cons x t =>
        cases hr : readHead (x :: t) with
        | some q =>
          obtain ⟨mj, n, q⟩ := q
          obtain ⟨hd, e, hh⟩ := (readHead_iff _ _ _ _).1 hr
          by_cases hm : mj < 7
          · rw [e] at h ⊢
            rw [item_head hh hm] at h
            match mj, n, hm with
            | 0, n, _ =>
              cases h
              exact ⟨hd, rfl, .nat hh, by simp [nesting]⟩
            | 1, n, _ =>
              cases h
              exact ⟨hd, rfl, .neg hh, by simp [nesting]⟩
            | 2, n, _ =>
              simp only [Option.map_eq_some_iff] at h
              obtain ⟨⟨s, q'⟩, h, e'⟩ := h
              obtain ⟨rfl, rfl⟩ := (takeN_iff _ _ _ _).1 h
              cases e'
              exact ⟨hd ++ s, by simp, .bytes hh, by simp [nesting]⟩
            | 3, n, _ =>
              simp only [Option.map_eq_some_iff] at h
              obtain ⟨⟨s, q'⟩, h, e'⟩ := h
              obtain ⟨h', e'', hh'⟩ := (readText_iff _ _ _).1 h
              cases e'
              exact ⟨h' ++ strBytes s, by rw [e'']; simp, .str hh', by simp [nesting]⟩
            | 4, n, _ =>
              simp only [Option.map_eq_some_iff] at h
              obtain ⟨⟨l, q'⟩, h, e'⟩ := h
              obtain ⟨rfl, p, rfl, hp⟩ := (hmany _ _ _ _).1 h
              cases e'
              obtain ⟨hp, hd'⟩ := (concat_items _ _).1 hp
              refine ⟨hd ++ p, by simp, .list hh hp, ?_⟩
              exact hd'
            | 5, n, _ =>
              simp only [Option.map_eq_some_iff] at h
              obtain ⟨⟨l, q'⟩, h, e'⟩ := h
              obtain ⟨rfl, p, rfl, hp⟩ := (hentries _ _ _ _).1 h
              cases e'
              obtain ⟨hp, hd'⟩ := (concat_entries _ _).1 hp
              refine ⟨hd ++ p, by simp, .map hh hp, ?_⟩
              exact hd'
            | 6, n, _ =>
              simp only at h
              split at h
              · rename_i hn
                subst hn
                simp only [Option.map_eq_some_iff] at h
                obtain ⟨⟨c, q'⟩, h, e'⟩ := h
                obtain ⟨h', t', rfl, hh', hc⟩ := (readLink_iff _ _ _).1 h
                cases e'
                exact ⟨hd ++ (h' ++ 0 :: t'), by simp, .link hh hh' hc, by simp [nesting]⟩
              · cases h
          · exact item_simple h (by rintro mj' n' q' hm' hr'; rw [hr] at hr'; cases hr'; exact hm hm')
        | none => exact item_simple h (by rintro mj' n' q' hm' hr'; rw [hr] at hr'; cases hr')
    · rintro ⟨p, rfl, hp, hd⟩
      cases hp with
      | null => rfl
      | false => rfl
      | true => rfl
      | nat hh => exact item_head hh (by omega) d r
      | neg hh => exact item_head hh (by omega) d r
      | float hl hb hf =>
        simp only [List.cons_append, item]
        rw [if_neg (by decide), if_neg (by decide), if_neg (by decide), if_pos trivial, (takeN_iff 8 _ _ r).2 ⟨rfl, hl⟩]
        simp only [ofBe_eq, hb]
        rw [if_pos (by unfold finite; simpa [Finite] using hf)]
        simp
      | str hh =>
        rw [List.append_assoc, item_head hh (by omega)]
        simp only []
        rw [(readText_iff _ _ r).2 ⟨_, rfl, hh⟩]
        rfl
      | bytes hh =>
        rw [List.append_assoc, item_head hh (by omega)]
        simp only []
        rw [(takeN_iff _ _ _ r).2 ⟨rfl, rfl⟩]
        rfl
      | list hh hp =>
        rw [List.append_assoc, item_head hh (by omega)]
        simp only []
        rw [(hmany _ _ _ r).2 ⟨rfl, _, rfl, (concat_items _ _).2 ⟨hp, hd⟩⟩]
        rfl
      | map hh hp =>
        rw [List.append_assoc, item_head hh (by omega)]
        simp only []
        rw [(hentries _ _ _ r).2 ⟨rfl, _, rfl, (concat_entries _ _).2 ⟨hp, hd⟩⟩]
        rfl
      | @link c t h' b' ht hh hc =>
        rw [List.append_assoc, item_head ht (by omega)]
        simp only [if_true]
        rw [(readLink_iff _ c r).2 ⟨h', b', by simp, hh, hc⟩]
        rfl

/-! ## The order of keys -/

theorem bytesLt_append_left (p x y : Bytes) : bytesLt (p ++ x) (p ++ y) = bytesLt x y := by
  induction p with
  | nil => rfl
  | cons a p ih => simp [bytesLt, UInt8.lt_irrefl, ih]

theorem bytesLt_append : ∀ {p q : Bytes}, p.length = q.length → bytesLt p q = true → ∀ x y, bytesLt (p ++ x) (q ++ y) = true
  | [], [], _, h, _, _ => by cases h
  | a :: p, b :: q, hl, h, x, y => by
    simp only [List.length_cons, Nat.add_right_cancel_iff] at hl
    simp only [bytesLt, Bool.or_eq_true, decide_eq_true_eq, Bool.and_eq_true, beq_iff_eq, List.cons_append] at h ⊢
    rcases h with h | ⟨h, h'⟩
    · exact Or.inl h
    · exact Or.inr ⟨h, bytesLt_append hl h' x y⟩

theorem ofNat_lt {a b : Nat} (h : a < b) (hb : b < 256) : UInt8.ofNat a < UInt8.ofNat b := by
  rw [UInt8.lt_iff_toNat_lt, UInt8.toNat_ofNat', UInt8.toNat_ofNat']
  omega

theorem be_lt : ∀ (k n m : Nat), n < m → m < 256 ^ k → bytesLt (be k n) (be k m) = true
  | 0, n, m, h, hm => by simp at hm; omega
  | k + 1, n, m, h, hm => by
    simp only [be, bytesLt, Bool.or_eq_true, decide_eq_true_eq, Bool.and_eq_true, beq_iff_eq]
    have hp : 0 < 256 ^ k := Nat.pos_of_ne_zero (by simp)
    have hq : m / 256 ^ k < 256 := by rw [Nat.div_lt_iff_lt_mul hp, Nat.mul_comm, ← Nat.pow_succ]; exact hm
    have hle : n / 256 ^ k ≤ m / 256 ^ k := Nat.div_le_div_right (Nat.le_of_lt h)
    have e : ∀ j, be k j = be k (j % 256 ^ k) := by
      intro j
      apply bigEndian_inj (by simp [be_length])
      simp [bigEndian_be]
    by_cases heq : n / 256 ^ k = m / 256 ^ k
    · right
      refine ⟨by rw [heq], ?_⟩
      rw [e n, e m]
      apply be_lt k
      · have h1 := Nat.div_add_mod n (256 ^ k)
        have h2 := Nat.div_add_mod m (256 ^ k)
        rw [heq] at h1
        omega
      · exact Nat.mod_lt _ hp
    · left
      exact ofNat_lt (by omega) hq

theorem head_lt (mj n m : Nat) (hm : mj < 8) (h : n < m) (hb : m < 2 ^ 64) (x y : Bytes) : bytesLt (head mj n ++ x) (head mj m ++ y) = true := by
  have diff : ∀ {a b : Nat} (p q : Bytes), a < b → b < 256 → bytesLt (UInt8.ofNat a :: p) (UInt8.ofNat b :: q) = true := by
    intro a b p q h h'
    simp [bytesLt, ofNat_lt h h']
  have same : ∀ (c : UInt8) (k : Nat), m < 256 ^ k → bytesLt (c :: be k n ++ x) (c :: be k m ++ y) = true := by
    intro c k hk
    apply bytesLt_append
    · simp [be_length]
    · simp [bytesLt, be_lt k n m h hk]
  unfold head
  by_cases n1 : n < 24
  · rw [if_pos n1]
    repeat' split
    all_goals exact diff _ _ (by omega) (by omega)
  · rw [if_neg n1, if_neg (show ¬ m < 24 by omega)]
    by_cases n2 : n < 2 ^ 8
    · rw [if_pos n2]
      split
      · exact same _ 1 (by omega)
      · repeat' split
        all_goals exact diff _ _ (by omega) (by omega)
    · rw [if_neg n2, if_neg (show ¬ m < 2 ^ 8 by omega)]
      by_cases n3 : n < 2 ^ 16
      · rw [if_pos n3]
        split
        · exact same _ 2 (by omega)
        · repeat' split
          all_goals exact diff _ _ (by omega) (by omega)
      · rw [if_neg n3, if_neg (show ¬ m < 2 ^ 16 by omega)]
        by_cases n4 : n < 2 ^ 32
        · rw [if_pos n4]
          split
          · exact same _ 4 (by omega)
          · exact diff _ _ (by omega) (by omega)
        · rw [if_neg n4, if_neg (show ¬ m < 2 ^ 32 by omega)]
          exact same _ 8 (by omega)

/-- The order of the written keys. -/
theorem text_lt (a b : String) (ha : Fits (strBytes a).length) (hb : Fits (strBytes b).length) : bytesLt (text a) (text b) = true ↔ KeyBefore a b := by
  unfold text KeyBefore
  rcases Nat.lt_trichotomy (strBytes a).length (strBytes b).length with h | h | h
  · simp [head_lt 3 _ _ (by omega) h hb, h]
  · rw [h, bytesLt_append_left]
    simp [OrdKey.lt]
  · have := OrdKey.asymm (κ := Bytes) (head_lt 3 _ _ (by omega) h ha (strBytes b) (strBytes a))
    rw [show bytesLt (head 3 (strBytes a).length ++ strBytes a) (head 3 (strBytes b).length ++ strBytes b) = false from this]
    simp
    omega

theorem text_inj {a b : String} (ha : Fits (strBytes a).length) (hb : Fits (strBytes b).length) (h : text a = text b) : a = b := by
  have h1 := (readText_iff (text a ++ []) a []).2 ⟨head 3 (strBytes a).length, by simp [text], head_head 3 _ (by omega) ha⟩
  have h2 := (readText_iff (text b ++ []) b []).2 ⟨head 3 (strBytes b).length, by simp [text], head_head 3 _ (by omega) hb⟩
  rw [h, h2] at h1
  cases h1
  rfl

/-! ## Sorting -/

theorem insert_perm {κ ν : Type} [OrdKey κ] {m : BMap κ ν} {k : κ} {v : ν} (h : ∀ e ∈ m, e.1 ≠ k) : (BMap.insert m k v).Perm ((k, v) :: m) := by
  induction m with
  | nil => exact .refl _
  | cons p m ih =>
    obtain ⟨a, b⟩ := p
    simp only [BMap.insert]
    split
    · exact .refl _
    · split
      · exact ((ih fun e he => h e (by simp [he])).cons (a, b)).trans (.swap _ _ _)
      · rename_i h1 h2
        exact absurd (OrdKey.tri (by simpa using h1) (by simpa using h2)).symm (h (a, b) (by simp))

theorem foldl_perm {κ ν : Type} [OrdKey κ] : ∀ (l m : List (κ × ν)), (l ++ m).Pairwise (fun a b => a.1 ≠ b.1) →
    (l.foldl (fun m e => BMap.insert m e.1 e.2) m).Perm (l ++ m)
  | [], m, _ => .refl _
  | e :: l, m, h => by
    have h1 := List.pairwise_cons.1 h
    have hp : (BMap.insert m e.1 e.2).Perm (e :: m) := insert_perm fun x hx => (h1.1 x (by simp [hx])).symm
    have hp' : (l ++ BMap.insert m e.1 e.2).Perm (e :: (l ++ m)) := (hp.append_left l).trans List.perm_middle
    simp only [List.foldl_cons]
    refine (foldl_perm l _ ?_).trans hp'
    exact (hp'.pairwise_iff (fun h => h.symm)).2 h

theorem ofList_perm {κ ν : Type} [OrdKey κ] (l : List (κ × ν)) (h : l.Pairwise fun a b => a.1 ≠ b.1) : (BMap.ofList l).Perm l := by
  have := foldl_perm l [] (by simpa using h)
  simpa [BMap.ofList] using this

theorem perm_map_inv {α β : Type} {f : α → β} {l : List β} {m : List α} (h : l.Perm (m.map f)) : ∃ w : List α, w.Perm m ∧ l = w.map f := by
  generalize hq : m.map f = q at h
  induction h generalizing m with
  | nil => exact ⟨[], by simp [List.map_eq_nil_iff.1 hq], rfl⟩
  | @cons x l₁ l₂ _ ih =>
    cases m with
    | nil => cases hq
    | cons a m =>
      simp only [List.map_cons, List.cons.injEq] at hq
      obtain ⟨w, hw, e⟩ := ih hq.2
      exact ⟨a :: w, hw.cons a, by simp [e, hq.1]⟩
  | swap x y l =>
    match m, hq with
    | a :: b :: m, hq =>
      simp only [List.map_cons, List.cons.injEq] at hq
      exact ⟨b :: a :: m, .swap _ _ _, by simp [hq]⟩
  | trans h1 _ ih1 ih2 =>
    obtain ⟨w, hw, rfl⟩ := ih2 hq
    obtain ⟨w', hw', e⟩ := ih1 rfl
    exact ⟨w', hw'.trans hw, e⟩

/-! ## Writing -/

theorem encodeEntries_eq (m : List (String × Ipld)) : encodeEntries m = m.map fun e => (text e.1, encode e.2) := by
  induction m with
  | nil => rfl
  | cons p m ih => obtain ⟨k, x⟩ := p; simp [encodeEntries, ih]

theorem storableEntries_iff (m : List (String × Ipld)) : StorableEntries m ↔ ∀ e ∈ m, Fits (strBytes e.1).length ∧ Storable e.2 := by
  induction m with
  | nil => simp [StorableEntries]
  | cons p m ih => obtain ⟨k, x⟩ := p; simp [StorableEntries, ih, and_assoc]

theorem dagEntries_iff (p : Bytes) (w : List (String × Ipld)) (h : ∀ e ∈ w, ∀ q, DagCbor q e.2 ↔ Storable e.2 ∧ q = encode e.2) :
    DagCborEntries p w ↔ StorableEntries w ∧ p = flat (w.map fun e => (text e.1, encode e.2)) := by
  induction w generalizing p with
  | nil =>
    simp only [StorableEntries, List.map_nil, flat, true_and]
    constructor
    · intro h; cases h; rfl
    · rintro rfl; exact .nil
  | cons e w ih =>
    obtain ⟨k, x⟩ := e
    have ih' := fun p => ih p fun e he => h e (by simp [he])
    have hx := h (k, x) (by simp)
    simp only [StorableEntries, List.map_cons, flat]
    constructor
    · intro hp
      cases hp with
      | cons hh hq hr =>
        obtain ⟨hb, rfl⟩ := (shortestHead_iff _ _ _).1 hh
        obtain ⟨hs, rfl⟩ := (hx _).1 hq
        obtain ⟨hs', rfl⟩ := (ih' _).1 hr
        exact ⟨⟨hb.2, hs, hs'⟩, by simp [text]⟩
    · rintro ⟨⟨hf, hs, hs'⟩, rfl⟩
      have := DagCborEntries.cons (k := k) ((shortestHead_iff 3 _ _).2 ⟨⟨by omega, hf⟩, rfl⟩) ((hx _).2 ⟨hs, rfl⟩) ((ih' _).2 ⟨hs', rfl⟩)
      simpa [text] using this

/-- The entries in the order in which they are written. -/
theorem sorted_entries (m : List (String × Ipld)) (hd : m.Pairwise fun a b => a.1 ≠ b.1) (hf : ∀ e ∈ m, Fits (strBytes e.1).length) :
    ∃ w : List (String × Ipld), w.Perm m ∧ w.Pairwise (fun a b => KeyBefore a.1 b.1) ∧
      BMap.ofList (encodeEntries m) = w.map fun e => (text e.1, encode e.2) := by
  have hd' : (encodeEntries m).Pairwise fun a b => a.1 ≠ b.1 := by
    rw [encodeEntries_eq, List.pairwise_map]
    exact hd.imp_of_mem fun ha hb hne he => hne (text_inj (hf _ ha) (hf _ hb) he)
  have hp := ofList_perm _ hd'
  have hs := BMap.sorted_ofList (encodeEntries m)
  rw [encodeEntries_eq] at hp hs ⊢
  obtain ⟨w, hw, e⟩ := perm_map_inv hp
  refine ⟨w, hw, ?_, e⟩
  rw [e] at hs
  have hs' := List.pairwise_map.1 hs
  exact hs'.imp_of_mem fun ha hb h => (text_lt _ _ (hf _ (hw.mem_iff.1 ha)) (hf _ (hw.mem_iff.1 hb))).1 h

theorem keyBefore_asymm {a b : String} (h : KeyBefore a b) (h' : KeyBefore b a) : False := by
  unfold KeyBefore at h h'
  rcases h with h | ⟨h, hl⟩ <;> rcases h' with h' | ⟨h', hl'⟩
  · omega
  · omega
  · omega
  · rw [OrdKey.asymm hl] at hl'; cases hl'

theorem keyBefore_ne {a b : String} (h : KeyBefore a b) : a ≠ b := by
  rintro rfl
  exact keyBefore_asymm h h

theorem dagMap_iff (p : Bytes) (m : List (String × Ipld)) (h : ∀ e ∈ m, ∀ q, DagCbor q e.2 ↔ Storable e.2 ∧ q = encode e.2) :
    DagCbor p (.map m) ↔ Storable (.map m) ∧ p = encode (.map m) := by
  constructor
  · intro hp
    cases hp with
    | @map _ w hd q hh hw hs he =>
      obtain ⟨hb, rfl⟩ := (shortestHead_iff _ _ _).1 hh
      obtain ⟨hst, rfl⟩ := (dagEntries_iff _ _ fun e he => h e (hw.mem_iff.1 he)).1 he
      have hst' := (storableEntries_iff w).1 hst
      have hd : m.Pairwise fun a b => a.1 ≠ b.1 :=
        (hw.pairwise_iff (fun h => h.symm)).1 (hs.imp fun h => keyBefore_ne h)
      have hf : ∀ e ∈ m, Fits (strBytes e.1).length ∧ Storable e.2 := fun e he => hst' e (hw.mem_iff.2 he)
      refine ⟨⟨hb.2, hd, (storableEntries_iff m).2 hf⟩, ?_⟩
      obtain ⟨w', hw', hs', e⟩ := sorted_entries m hd fun e he => (hf e he).1
      simp only [encode, e]
      have : w = w' := (hw.trans hw'.symm).eq_of_pairwise (fun a b _ _ h1 h2 => (keyBefore_asymm h1 h2).elim) hs hs'
      rw [this]
  · rintro ⟨⟨hl, hd, hst⟩, rfl⟩
    have hf := (storableEntries_iff m).1 hst
    obtain ⟨w, hw, hs, e⟩ := sorted_entries m hd fun e he => (hf e he).1
    simp only [encode, e]
    exact .map ((shortestHead_iff _ _ _).2 ⟨⟨by omega, hl⟩, rfl⟩) hw hs
      ((dagEntries_iff _ _ fun e he => h e (hw.mem_iff.1 he)).2 ⟨(storableEntries_iff w).2 fun e he => hf e (hw.mem_iff.1 he), rfl⟩)

theorem ofBytes_valid {c : Cid} (h : c.Valid) : Cid.ofBytes c.toBytes = some c := by
  cases hv : c.v1 with
  | true => simpa using Cid.ofBytes_toBytes c hv h.1 []
  | false =>
    obtain ⟨h1, h2, h3⟩ := h.2 hv
    obtain ⟨v1, codec, hc, dg⟩ := c
    simp only at hv h1 h2 h3
    subst hv h1 h2
    simp only [Cid.toBytes, Cid.mhBytes, h3, Bool.false_eq_true, if_false]
    unfold Cid.ofBytes
    rw [Varint.decode_encode]
    simp only []
    rw [Varint.decode_encode]
    simp only []
    rw [if_pos (by decide), if_neg (by omega), List.take_of_length_le (by omega)]

theorem be_bigEndian {b : Bytes} {n : Nat} (h : bigEndian b = n) : be b.length n = b := by
  subst h
  apply bigEndian_inj (be_length _ _)
  rw [bigEndian_be, Nat.mod_eq_of_lt (bigEndian_lt b)]

theorem toBytes_fits {c : Cid} (h : c.Valid) : c.toBytes.length + 1 < 2 ^ 64 := by
  have hv : ∀ n : UInt64, (Varint.encode n).length ≤ 10 := fun n => by
    have := Varint.encodeAux_length 9 9 n.toNat (by have := n.toNat_lt; omega)
    exact this
  have h1 := hv 1
  have h2 := hv c.codec
  have h3 := hv c.hashCode
  have h4 := hv (UInt64.ofNat c.digest.length)
  have h5 := h.1
  unfold Cid.toBytes Cid.mhBytes
  split <;> simp only [List.length_append] <;> omega

mutual
theorem dag_iff : ∀ (v : Ipld) (p : Bytes), DagCbor p v ↔ Storable v ∧ p = encode v
  | .null, p => ⟨fun h => by cases h; exact ⟨trivial, rfl⟩, fun h => by rw [h.2]; exact .null⟩
  | .bool false, p => ⟨fun h => by cases h; exact ⟨trivial, rfl⟩, fun h => by rw [h.2]; exact .false⟩
  | .bool true, p => ⟨fun h => by cases h; exact ⟨trivial, rfl⟩, fun h => by rw [h.2]; exact .true⟩
  | .int i, p => by
    simp only [Storable, encode]
    constructor
    · intro h
      cases h with
      | @nat n h hh =>
        obtain ⟨hb, rfl⟩ := (shortestHead_iff _ _ _).1 hh
        exact ⟨by omega, by rw [if_pos (by omega)]; simp⟩
      | @neg n h hh =>
        obtain ⟨hb, rfl⟩ := (shortestHead_iff _ _ _).1 hh
        exact ⟨by omega, by rw [if_neg (by omega), show (-1 - (-1 - (n : Int))).toNat = n by omega]⟩
    · rintro ⟨hb, rfl⟩
      split
      · have := DagCbor.nat ((shortestHead_iff 0 i.toNat _).2 ⟨⟨by omega, by omega⟩, rfl⟩)
        rwa [show ((i.toNat : Nat) : Int) = i by omega] at this
      · have := DagCbor.neg ((shortestHead_iff 1 (-1 - i).toNat _).2 ⟨⟨by omega, by omega⟩, rfl⟩)
        rwa [show -1 - (((-1 - i).toNat : Nat) : Int) = i by omega] at this
  | .float f, p => by
    simp only [Storable, encode]
    constructor
    · intro h
      cases h with
      | float hl hb hf =>
        refine ⟨hf, ?_⟩
        have := be_bigEndian hb
        rw [hl] at this
        rw [this]
    · rintro ⟨hf, rfl⟩
      have := f.bits.toNat_lt
      exact .float (be_length _ _) (by rw [bigEndian_be, Nat.mod_eq_of_lt (by omega)]) hf
  | .str s, p => by
    simp only [Storable, encode]
    constructor
    · intro h
      cases h with
      | str hh =>
        obtain ⟨hb, rfl⟩ := (shortestHead_iff _ _ _).1 hh
        exact ⟨hb.2, rfl⟩
    · rintro ⟨hf, rfl⟩
      exact .str ((shortestHead_iff _ _ _).2 ⟨⟨by omega, hf⟩, rfl⟩)
  | .bytes s, p => by
    simp only [Storable, encode]
    constructor
    · intro h
      cases h with
      | bytes hh =>
        obtain ⟨hb, rfl⟩ := (shortestHead_iff _ _ _).1 hh
        exact ⟨hb.2, rfl⟩
    · rintro ⟨hf, rfl⟩
      exact .bytes ((shortestHead_iff _ _ _).2 ⟨⟨by omega, hf⟩, rfl⟩)
  | .list l, p => by
    simp only [Storable, encode]
    constructor
    · intro h
      cases h with
      | list hh hi =>
        obtain ⟨hb, rfl⟩ := (shortestHead_iff _ _ _).1 hh
        obtain ⟨hs, rfl⟩ := (dagItems_iff _ _).1 hi
        exact ⟨⟨hb.2, hs⟩, rfl⟩
    · rintro ⟨⟨hf, hs⟩, rfl⟩
      exact .list ((shortestHead_iff _ _ _).2 ⟨⟨by omega, hf⟩, rfl⟩) ((dagItems_iff _ _).2 ⟨hs, rfl⟩)
  | .map m, p => dagMap_iff p m (dagAll m)
  | .link c, p => by
    simp only [Storable, encode]
    constructor
    · intro h
      cases h with
      | link ht hh hv =>
        obtain ⟨_, rfl⟩ := (shortestHead_iff _ _ _).1 ht
        obtain ⟨_, rfl⟩ := (shortestHead_iff _ _ _).1 hh
        exact ⟨hv, rfl⟩
    · rintro ⟨hv, rfl⟩
      exact .link ((shortestHead_iff _ _ _).2 ⟨⟨by omega, by omega⟩, rfl⟩) ((shortestHead_iff _ _ _).2 ⟨⟨by omega, toBytes_fits hv⟩, rfl⟩) hv
theorem dagItems_iff : ∀ (l : List Ipld) (p : Bytes), DagCborItems p l ↔ StorableItems l ∧ p = encodeList l
  | [], p => ⟨fun h => by cases h; exact ⟨trivial, rfl⟩, fun h => by rw [h.2]; exact .nil⟩
  | x :: xs, p => by
    simp only [StorableItems, encodeList]
    constructor
    · intro h
      cases h with
      | cons hx hq =>
        obtain ⟨hs, rfl⟩ := (dag_iff _ _).1 hx
        obtain ⟨hs', rfl⟩ := (dagItems_iff _ _).1 hq
        exact ⟨⟨hs, hs'⟩, rfl⟩
    · rintro ⟨⟨hs, hs'⟩, rfl⟩
      exact .cons ((dag_iff _ _).2 ⟨hs, rfl⟩) ((dagItems_iff _ _).2 ⟨hs', rfl⟩)
theorem dagAll : ∀ (m : List (String × Ipld)), ∀ e ∈ m, ∀ q, DagCbor q e.2 ↔ Storable e.2 ∧ q = encode e.2
  | [], e, he, _ => by cases he
  | (k, x) :: m, e, he, q => by
    rcases List.mem_cons.1 he with rfl | he
    · exact dag_iff x q
    · exact dagAll m e he q
end

/-! ## DAG-CBOR is CBOR -/

theorem cborEntries_of_dag {p : Bytes} {w : List (String × Ipld)} (h : DagCborEntries p w)
    (hw : ∀ e ∈ w, ∀ q, DagCbor q e.2 → ∃ y, Spec.Cbor q y ∧ Reordered e.2 y ∧ nesting y = nesting e.2) :
    ∃ w', CborEntries p w' ∧ ReorderedEntries w w' ∧ nestingEntries w' = nestingEntries w := by
  induction w generalizing p with
  | nil => cases h; exact ⟨[], .nil, rfl, rfl⟩
  | cons e w ih =>
    obtain ⟨k, x⟩ := e
    cases h with
    | cons hh hx hq =>
      obtain ⟨y, hy, hr, hn⟩ := hw (k, x) (by simp) _ hx
      obtain ⟨w', h1, h2, h3⟩ := ih hq fun e he => hw e (by simp [he])
      exact ⟨(k, y) :: w', .cons hh.1 hy h1, ⟨y, w', rfl, hr, h2⟩, by simp [nestingEntries, hn, h3]⟩

theorem reorderedEntries_perm {w m : List (String × Ipld)} (h : w.Perm m) : ∀ w', ReorderedEntries w w' → ∃ m' : List (String × Ipld), w'.Perm m' ∧ ReorderedEntries m m' := by
  induction h with
  | nil => intro w' h; exact ⟨[], by rw [show w' = [] from h], rfl⟩
  | cons e _ ih =>
    obtain ⟨k, x⟩ := e
    rintro w' ⟨y, ys, rfl, hy, hys⟩
    obtain ⟨m', hp, hm⟩ := ih ys hys
    exact ⟨(k, y) :: m', hp.cons _, y, m', rfl, hy, hm⟩
  | swap a b l =>
    obtain ⟨k, x⟩ := a
    obtain ⟨k', x'⟩ := b
    rintro w' ⟨y, ys, rfl, hy, y', ys', rfl, hy', hys⟩
    exact ⟨(k, y') :: (k', y) :: ys', .swap _ _ _, y', _, rfl, hy', y, ys', rfl, hy, hys⟩
  | trans _ _ ih1 ih2 =>
    intro w' h
    obtain ⟨m1, hp1, h1⟩ := ih1 w' h
    obtain ⟨m2, hp2, h2⟩ := ih2 m1 h1
    exact ⟨m2, hp1.trans hp2, h2⟩

theorem nestingEntries_perm {w m : List (String × Ipld)} (h : w.Perm m) : nestingEntries w = nestingEntries m := by
  induction h with
  | nil => rfl
  | cons e _ ih => obtain ⟨k, x⟩ := e; simp [nestingEntries, ih]
  | swap a b l =>
    obtain ⟨k, x⟩ := a
    obtain ⟨k', x'⟩ := b
    simp only [nestingEntries]; omega
  | trans _ _ ih1 ih2 => exact ih1.trans ih2

theorem nestingEntries_length {w : List (String × Ipld)} : ∀ {w'}, ReorderedEntries w w' → w'.length = w.length := by
  induction w with
  | nil => intro w' h; rw [show w' = [] from h]
  | cons e w ih => obtain ⟨k, x⟩ := e; rintro w' ⟨y, ys, rfl, _, h⟩; simp [ih h]

theorem reorderedItems_length {w : List Ipld} : ∀ {w'}, ReorderedItems w w' → w'.length = w.length := by
  induction w with
  | nil => intro w' h; rw [show w' = [] from h]
  | cons e w ih => rintro w' ⟨y, ys, rfl, _, h⟩; simp [ih h]

mutual
theorem cbor_of_dag : ∀ (v : Ipld) (p : Bytes), DagCbor p v → ∃ w, Spec.Cbor p w ∧ Reordered v w ∧ nesting w = nesting v
  | .null, p, h => by cases h; exact ⟨.null, .null, rfl, rfl⟩
  | .bool false, p, h => by cases h; exact ⟨_, .false, rfl, rfl⟩
  | .bool true, p, h => by cases h; exact ⟨_, .true, rfl, rfl⟩
  | .int i, p, h => by
    cases h with
    | nat hh => exact ⟨_, .nat hh.1, rfl, rfl⟩
    | neg hh => exact ⟨_, .neg hh.1, rfl, rfl⟩
  | .float f, p, h => by
    cases h with
    | float h1 h2 h3 => exact ⟨_, .float h1 h2 h3, rfl, rfl⟩
  | .str s, p, h => by
    cases h with
    | str hh => exact ⟨_, .str hh.1, rfl, rfl⟩
  | .bytes s, p, h => by
    cases h with
    | bytes hh => exact ⟨_, .bytes hh.1, rfl, rfl⟩
  | .list l, p, h => by
    cases h with
    | list hh hi =>
      obtain ⟨l', h1, h2, h3⟩ := cborItems_of_dag l _ hi
      exact ⟨.list l', .list (by rw [reorderedItems_length h2]; exact hh.1) h1, ⟨l', rfl, h2⟩, by simp only [nesting, h3]⟩
  | .map m, p, h => by
    cases h with
    | @map _ w hd q hh hw hs he =>
      have hall := cbor_of_dag_all m
      obtain ⟨w', h1, h2, h3⟩ := cborEntries_of_dag he fun e hm => hall e (hw.mem_iff.1 hm)
      obtain ⟨m', h4, h5⟩ := reorderedEntries_perm hw w' h2
      refine ⟨.map w', .map ?_ h1, ⟨m', w', rfl, h4, h5⟩, ?_⟩
      · rw [nestingEntries_length h2, hw.length_eq]; exact hh.1
      · simp only [nesting, h3]; exact nestingEntries_perm hw
  | .link c, p, h => by
    cases h with
    | link ht hh hv => exact ⟨_, .link ht.1 hh.1 ((ofBytes_iff _ _).1 (by
        have := ofBytes_valid hv
        exact this)), rfl, rfl⟩
theorem cborItems_of_dag : ∀ (l : List Ipld) (p : Bytes), DagCborItems p l → ∃ l', CborItems p l' ∧ ReorderedItems l l' ∧ nestingItems l' = nestingItems l
  | [], p, h => by cases h; exact ⟨[], .nil, rfl, rfl⟩
  | x :: xs, p, h => by
    cases h with
    | cons hx hq =>
      obtain ⟨y, h1, h2, h3⟩ := cbor_of_dag x _ hx
      obtain ⟨l', h4, h5, h6⟩ := cborItems_of_dag xs _ hq
      exact ⟨y :: l', .cons h1 h4, ⟨y, l', rfl, h2, h5⟩, by simp only [nestingItems, h3, h6]⟩
theorem cbor_of_dag_all : ∀ (m : List (String × Ipld)), ∀ e ∈ m, ∀ q, DagCbor q e.2 → ∃ y, Spec.Cbor q y ∧ Reordered e.2 y ∧ nesting y = nesting e.2
  | [], e, he, _, _ => by cases he
  | (k, x) :: m, e, he, q, h => by
    rcases List.mem_cons.1 he with rfl | he
    · exact cbor_of_dag x q h
    · exact cbor_of_dag_all m e he q h
end

end Cbor

/-! ## C73: DAG-CBOR -/

/-- C73: a value is written in exactly one way: the DAG-CBOR form. -/
theorem C73_written (v : Ipld) (h : Storable v) (p : Bytes) : DagCbor p v ↔ p = Cbor.encode v := by
  rw [Cbor.dag_iff]
  exact ⟨fun h => h.2, fun e => ⟨h, e⟩⟩

/-- C73: exactly which bytes are read, and as what. -/
theorem C73_read (limit : Nat) (b : Bytes) (v : Ipld) : Cbor.decode limit b = some v ↔ Spec.Cbor b v ∧ nesting v < limit := by
  have := Cbor.item_iff limit b v []
  simp only [List.append_nil] at this
  unfold Cbor.decode
  constructor
  · intro h
    split at h
    · rename_i w hw
      cases h
      rw [hw] at this
      obtain ⟨p, rfl, h⟩ := this.1 rfl
      exact h
    · cases h
  · intro h
    rw [this.2 ⟨b, rfl, h⟩]

/-- C73: what is written is read back, up to the order of entries in maps. -/
theorem C73_value_round_trip (limit : Nat) (v : Ipld) (h : Storable v) (hn : nesting v < limit) :
    ∃ w, Cbor.decode limit (Cbor.encode v) = some w ∧ Reordered v w := by
  obtain ⟨w, h1, h2, h3⟩ := Cbor.cbor_of_dag v _ ((Cbor.dag_iff v _).2 ⟨h, rfl⟩)
  exact ⟨w, (C73_read limit _ w).2 ⟨h1, by omega⟩, h2⟩

end Verif
