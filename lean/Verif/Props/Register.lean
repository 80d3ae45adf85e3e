import Verif.Spec.Register
import Verif.Props.Did
import Verif.Props.DidKey

/-! # C121: which key types can be supported -/

namespace Verif
open Spec

namespace Register

theorem lookup_ofList {l : List (Bytes × KeyCtor)} (m : BMap Bytes KeyCtor) (k : Bytes) (hk : ∀ e ∈ l, e.1 ≠ k) :
    BMap.get? (l.foldl (fun m e => m.insert e.1 e.2) m) k = BMap.get? m k := by
  induction l generalizing m with
  | nil => rfl
  | cons e l ih =>
    rw [List.foldl_cons, ih _ (fun e he => hk e (by simp [he])), BMap.get?_insert, if_neg]
    exact fun h => hk e (by simp) h

theorem registered {a b : List (Bytes × KeyCtor)} {c : Bytes} {ctor : KeyCtor} (hb : ∀ e ∈ b, e.1 ≠ c) :
    BMap.get? (BMap.ofList (a ++ (c, ctor) :: b)) c = some ctor := by
  unfold BMap.ofList
  rw [List.foldl_append, List.foldl_cons, lookup_ofList _ _ hb, BMap.get?_insert, if_pos rfl]

theorem lookup_foldl_congr {l : List (Bytes × KeyCtor)} {m m' : BMap Bytes KeyCtor} {k : Bytes} (h : BMap.get? m k = BMap.get? m' k) :
    BMap.get? (l.foldl (fun m e => m.insert e.1 e.2) m) k = BMap.get? (l.foldl (fun m e => m.insert e.1 e.2) m') k := by
  induction l generalizing m m' with
  | nil => exact h
  | cons e l ih =>
    refine ih ?_
    rw [BMap.get?_insert, BMap.get?_insert, h]

theorem lookup_other {a b : List (Bytes × KeyCtor)} {c k : Bytes} {ctor : KeyCtor} (h : c ≠ k) :
    BMap.get? (BMap.ofList (a ++ (c, ctor) :: b)) k = BMap.get? (BMap.ofList (a ++ b)) k := by
  unfold BMap.ofList
  rw [List.foldl_append, List.foldl_append, List.foldl_cons]
  refine lookup_foldl_congr ?_
  rw [BMap.get?_insert, if_neg h]

theorem mem_of_lookup {l : List (Bytes × KeyCtor)} {k : Bytes} {ctor : KeyCtor} (h : BMap.get? (BMap.ofList l) k = some ctor) : ∃ e ∈ l, e.1 = k := by
  refine Classical.byContradiction fun hn => ?_
  have := lookup_ofList (l := l) [] k (fun e he hk => hn ⟨e, he, hk⟩)
  unfold BMap.ofList at h
  rw [h] at this
  cases this

theorem resolve_two {l l' : List (Bytes × KeyCtor)} (h : ∀ k : Bytes, k.length = 2 → BMap.get? (BMap.ofList l) k = BMap.get? (BMap.ofList l') k) (did : String) :
    DidParser.resolve (BMap.ofList l) did = DidParser.resolve (BMap.ofList l') did := by
  unfold DidParser.resolve
  cases Base58.decode ((strBytes did).drop Did.didKeyPrefix.length) with
  | none => rfl
  | some b =>
    rcases b with _ | ⟨b0, _ | ⟨b1, rest⟩⟩
    · rfl
    · rfl
    · simp only [h [b0, b1] rfl]

theorem parse_two {l l' : List (Bytes × KeyCtor)} (h : ∀ k : Bytes, k.length = 2 → BMap.get? (BMap.ofList l) k = BMap.get? (BMap.ofList l') k) (did : String) :
    (DidParser.parse ⟨BMap.ofList l, []⟩ did).1 = (DidParser.parse ⟨BMap.ofList l', []⟩ did).1 := by
  unfold DidParser.parse
  simp only [resolve_two h did]
  split
  · cases DidParser.resolve (BMap.ofList l') did <;> rfl
  · rfl

theorem leb_bytes {c : Bytes} {n : Nat} (h : Leb c n) : c ≠ [] := by cases h <;> simp

/-- Codes of other lengths. -/
theorem length_ne_two {c : Bytes} {code : Nat} (h : Leb128 c code) (hc : ¬ TwoBytes code) : c.length ≠ 2 := by
  obtain ⟨hl, hs⟩ := h
  intro h2
  cases hl with
  | last hb => simp at h2
  | @more b t v hb ht =>
    cases ht with
    | @last b' hb' =>
      have hbl := b.toNat_lt
      have : b' ≠ 0 := by
        rintro rfl
        rcases hs with hs | hs
        · simp at hs
        · exact hs rfl
      have hpos : 0 < b'.toNat := by
        refine Nat.pos_of_ne_zero fun h0 => this (UInt8.toNat_inj.1 (by simpa using h0))
      exact hc ⟨by omega, by omega⟩
    | more _ ht => simp at h2; exact leb_bytes ht h2

end Register
open Register

/-- C121 (partial): a constructor registered for a key type whose code takes two bytes, and not registered again later, gets the bytes of every such key, and
what it answers is the parser's answer, whatever was asked before. The codes of other lengths are missing: `C121_never_called`. -/
theorem C121_usable_partial (l : List (Bytes × KeyCtor)) (code : Nat) (hc : TwoBytes code) (ctor : KeyCtor) (hr : RegisteredLast l code ctor) (p : DidParser)
    (hp : Reachable (DidParser.new l).ctors p) (pub : Bytes) (did : String) (hd : DidKey code pub did) : (p.parse did).1 = ctor pub := by
  obtain ⟨a, b, c, rfl, hl, hb⟩ := hr
  obtain ⟨c', t, hl', ht, hs⟩ := hd
  have h2 := leb128_length hl hc.1 hc.2
  have h2' := leb128_length hl' hc.1 hc.2
  have : c' = c := leb_unique hl'.1 hl.1 (by rw [h2, h2']) rfl
  subst this
  rw [C38_cache_transparent _ p hp did]
  have hpre : strBytes "did:key:" ++ strBytes "z" = Did.didKeyPrefix := by decide +kernel
  rw [hpre] at hs
  unfold DidParser.parse
  have hpx : Did.didKeyPrefix.isPrefixOf (strBytes did) = true := by
    rw [hs, List.isPrefixOf_iff_prefix]
    exact List.prefix_append _ _
  have hres : DidParser.resolve (DidParser.new (a ++ (c', ctor) :: b)).ctors did = ctor pub := by
    unfold DidParser.resolve
    rw [hs, List.drop_left, ← (C69_base58_encode _ _).2 ht, C40_decode_encode]
    match c', h2 with
    | [x, y], _ =>
      simp only [List.cons_append, List.nil_append]
      have := registered (a := a) (b := b) (c := [x, y]) (ctor := ctor) hb
      unfold DidParser.new
      rw [this]
  rw [if_pos hpx]
  simp only [hres]
  cases ctor pub <;> rfl

/-- C121 is violated: a constructor for a key type whose code takes one byte, or three or more, is never called; a parser answers every DID as one without it. -/
theorem C121_never_called (a b : List (Bytes × KeyCtor)) (c : Bytes) (ctor : KeyCtor) (code : Nat) (hl : Leb128 c code) (hc : ¬ TwoBytes code) (p q : DidParser)
    (hp : Reachable (DidParser.new (a ++ (c, ctor) :: b)).ctors p) (hq : Reachable (DidParser.new (a ++ b)).ctors q) (did : String) :
    (p.parse did).1 = (q.parse did).1 := by
  rw [C38_cache_transparent _ p hp did, C38_cache_transparent _ q hq did]
  refine parse_two (fun k hk => lookup_other ?_) did
  rintro rfl
  exact length_ne_two hl hc hk

/-- C121 is violated: whatever is registered under the codes of key types, no key of a type whose code takes one byte, or three or more, is accepted. -/
theorem C121_refused (l : List (Bytes × KeyCtor)) (hl : ByCode l) (code : Nat) (hc : ¬ TwoBytes code) (p : DidParser) (hp : Reachable (DidParser.new l).ctors p)
    (pub : Bytes) (did : String) (hd : DidKey code pub did) : (p.parse did).1 = err .unknownMagic ∨ pub = [] ∧ (p.parse did).1 = panicked .sliceDid := by
  obtain ⟨c', t, hl', ht, hs⟩ := hd
  rw [C38_cache_transparent _ p hp did]
  have hpre : strBytes "did:key:" ++ strBytes "z" = Did.didKeyPrefix := by decide +kernel
  rw [hpre] at hs
  have hpx : Did.didKeyPrefix.isPrefixOf (strBytes did) = true := by
    rw [hs, List.isPrefixOf_iff_prefix]
    exact List.prefix_append _ _
  have none_of : ∀ x y : UInt8, (x.toNat < 128 ∨ 128 ≤ y.toNat) → BMap.get? (BMap.ofList l) [x, y] = none := by
    intro x y hxy
    cases hg : BMap.get? (BMap.ofList l) [x, y] with
    | none => rfl
    | some ctor =>
      obtain ⟨e, he, hk⟩ := mem_of_lookup hg
      obtain ⟨code', hl2⟩ := hl e he
      rw [hk] at hl2
      obtain ⟨h1, _⟩ := hl2
      cases h1 with
      | more hx h2 =>
        cases h2 with
        | last hy => omega
        | more _ h3 => cases h3
  have hres : DidParser.resolve (DidParser.new l).ctors did = err .unknownMagic ∨ pub = [] ∧ DidParser.resolve (DidParser.new l).ctors did = panicked .sliceDid := by
    unfold DidParser.resolve
    rw [hs, List.drop_left, ← (C69_base58_encode _ _).2 ht, C40_decode_encode]
    have hne := length_ne_two hl' hc
    have hlb := hl'.1
    cases hlb with
    | @last x hx =>
      cases pub with
      | nil => exact .inr ⟨rfl, rfl⟩
      | cons y pub =>
        left
        show (match BMap.get? (BMap.ofList l) [x, y] with | some ctor => ctor pub | none => err .unknownMagic) = _
        rw [none_of x y (.inl hx)]
    | @more x t v hx ht2 =>
      cases ht2 with
      | last hy => exact absurd rfl hne
      | @more y t v hy ht3 =>
        left
        show (match BMap.get? (BMap.ofList l) [x, y] with | some ctor => ctor (t ++ pub) | none => err .unknownMagic) = _
        rw [none_of x y (.inr hy)]
  unfold DidParser.parse
  rw [if_pos hpx]
  have hcache : BMap.get? ([] : BMap String Key) did = none := rfl
  simp only [hcache]
  rcases hres with h | ⟨h0, h⟩
  · left; rw [h]
  · right; refine ⟨h0, ?_⟩; rw [h]

/-- C121: of several constructors for one prefix only the last counts: a parser answers every DID as one without the earlier. -/
theorem C121_last (a b : List (Bytes × KeyCtor)) (c : Bytes) (ctor : KeyCtor) (hb : ∃ e ∈ b, e.1 = c) (p q : DidParser)
    (hp : Reachable (DidParser.new (a ++ (c, ctor) :: b)).ctors p) (hq : Reachable (DidParser.new (a ++ b)).ctors q) (did : String) :
    (p.parse did).1 = (q.parse did).1 := by
  rw [C38_cache_transparent _ p hp did, C38_cache_transparent _ q hq did]
  refine parse_two (fun k _ => ?_) did
  by_cases hk : c = k
  · subst hk
    obtain ⟨e, he, rfl⟩ := hb
    obtain ⟨x, y, rfl⟩ := List.append_of_mem he
    unfold BMap.ofList
    simp only [List.foldl_append, List.foldl_cons]
    refine lookup_foldl_congr ?_
    rw [BMap.get?_insert, BMap.get?_insert, if_pos rfl, if_pos rfl]
  · exact lookup_other hk

/-- A code of one byte and one of three (hypotheses of `C121_never_called`). -/
example : (Leb128 [0x12] 0x12 ∧ ¬ TwoBytes 0x12) ∧ Leb128 [0x80, 0x80, 0x01] 16384 ∧ ¬ TwoBytes 16384 := by
  refine ⟨⟨⟨.last (by decide), .inl rfl⟩, by unfold TwoBytes; omega⟩, ⟨?_, .inr (by decide)⟩, by unfold TwoBytes; omega⟩
  exact .more (v := 128) (by decide) (.more (v := 1) (by decide) (.last (b := 1) (by decide)))

/-- A key type that is usable (hypotheses of `C121_usable_partial`). -/
example (ctor : KeyCtor) : TwoBytes 0xed ∧ RegisteredLast [(Did.ed25519Magic, ctor)] 0xed ctor := by
  refine ⟨by unfold TwoBytes; omega, [], [], _, rfl, C77_codes .ed25519, fun _ h => by cases h⟩

/-- A parser made of such registrations, and a DID of a key type whose code takes one byte (hypotheses of `C121_refused`). -/
example (ctor : KeyCtor) : ByCode [(Did.ed25519Magic, ctor), ([0x12], ctor)] ∧ ∃ did, DidKey 0x12 [1, 2, 3] did := by
  refine ⟨fun e he => ?_, "did:key:zTh7i2", [0x12], strBytes "Th7i2", ⟨.last (by decide), .inl rfl⟩, (C69_base58_encode _ _).1 ?_, by decide +kernel⟩
  · simp only [List.mem_cons, List.not_mem_nil, or_false] at he
    rcases he with rfl | rfl
    · exact ⟨_, C77_codes .ed25519⟩
    · exact ⟨0x12, .last (by decide), .inl rfl⟩
  · decide +kernel

end Verif
