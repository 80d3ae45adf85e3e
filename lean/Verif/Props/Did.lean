import Verif.Model.World
import Verif.Spec.Did

/-! # Properties C38-C40: DID parsing -/

namespace Verif
open Spec

namespace DidParser

theorem isPrefixOf_iff {a b : Bytes} : a.isPrefixOf b = true ↔ ∃ t, b = a ++ t := by
  rw [List.isPrefixOf_iff_prefix]
  constructor
  · rintro ⟨t, h⟩; exact ⟨t, h.symm⟩
  · rintro ⟨t, h⟩; exact ⟨t, h.symm⟩

theorem didKeyPrefix_eq : Did.didKeyPrefix = strBytes "did:key:z" := by decide +kernel

theorem denotes_unique {ctors : BMap Bytes KeyCtor} {did : String} {k k' : Key} (h : Denotes ctors did k) (h' : Denotes ctors did k') :
    k = k' := by
  obtain ⟨b0, b1, r, c, e, hc, hk⟩ := h
  obtain ⟨b0', b1', r', c', e', hc', hk'⟩ := h'
  rw [e, List.append_cancel_left_eq] at e'
  have := congrArg Base58.decode e'
  rw [Base58.decode_encode, Base58.decode_encode] at this
  injection this with this
  injection this with e1 this
  injection this with e2 e3
  subst e1; subst e2; subst e3
  rw [hc] at hc'; cases hc'
  rw [hk] at hk'; cases hk'; rfl

theorem resolve_ok_iff {ctors : BMap Bytes KeyCtor} {did : String} {key : Key} :
    (Did.didKeyPrefix.isPrefixOf (strBytes did) = true ∧ resolve ctors did = .ok key) ↔ Denotes ctors did key := by
  constructor
  · rintro ⟨hp, h⟩
    obtain ⟨t, ht⟩ := isPrefixOf_iff.1 hp
    unfold resolve at h
    rw [ht, List.drop_left] at h
    split at h
    · cases h
    · rename_i b hb
      have he := Base58.encode_of_decode hb
      split at h
      · rename_i b0 b1 rest
        split at h
        · rename_i ctor hc
          refine ⟨b0, b1, rest, ctor, ?_, hc, h⟩
          rw [ht, he, didKeyPrefix_eq]
        · cases h
      · cases h
  · rintro ⟨b0, b1, rest, ctor, e, hc, hk⟩
    rw [← didKeyPrefix_eq] at e
    refine ⟨isPrefixOf_iff.2 ⟨_, e⟩, ?_⟩
    unfold resolve
    rw [e, List.drop_left, Base58.decode_encode]
    simp only [hc, hk]

theorem parse_ctors (p : DidParser) (did : String) : (p.parse did).2.ctors = p.ctors := by
  unfold parse
  split
  · split
    · rfl
    · split <;> rfl
  · rfl

theorem parse_coherent {p : DidParser} (hp : Coherent p) (did : String) : Coherent (p.parse did).2 := by
  unfold parse
  split
  · rename_i hpre
    split
    · exact hp
    · split
      · rename_i key hk
        refine ⟨BMap.sorted_insert hp.sorted _ _, ?_⟩
        intro d k hget
        rw [BMap.get?_insert] at hget
        split at hget
        · rename_i e
          cases hget
          first
            | subst e; exact resolve_ok_iff.1 ⟨hpre, hk⟩
            | exact e ▸ resolve_ok_iff.1 ⟨hpre, hk⟩
        · exact hp.denotes d k hget
      · exact hp
  · exact hp

theorem parse_ok_iff {p : DidParser} (hp : Coherent p) (did : String) (key : Key) :
    (p.parse did).1 = .ok key ↔ Denotes p.ctors did key := by
  constructor
  · intro h
    unfold parse at h
    split at h
    · rename_i hpre
      split at h
      · rename_i k hk
        cases h
        exact hp.denotes _ _ hk
      · split at h
        · rename_i k hk
          cases h
          exact resolve_ok_iff.1 ⟨hpre, hk⟩
        · cases h
    · cases h
  · intro h
    obtain ⟨hpre, hk⟩ := resolve_ok_iff.2 h
    unfold parse
    rw [if_pos hpre]
    split
    · rename_i k hc
      rw [denotes_unique (hp.denotes _ _ hc) h]
    · rw [hk]

theorem coherent_fresh (ctors : BMap Bytes KeyCtor) : Coherent ⟨ctors, []⟩ :=
  ⟨List.Pairwise.nil, fun _ _ h => by cases h⟩

theorem coherent_of_reachable {ctors : BMap Bytes KeyCtor} {p : DidParser} (h : Reachable ctors p) : Coherent p ∧ p.ctors = ctors := by
  induction h with
  | fresh => exact ⟨coherent_fresh ctors, rfl⟩
  | parse did _ ih => exact ⟨parse_coherent ih.1 did, by rw [parse_ctors, ih.2]⟩

/-- The answer of a coherent parser is that of a fresh one, errors included. -/
theorem parse_eq_fresh {p : DidParser} (hp : Coherent p) (did : String) : (p.parse did).1 = (parse ⟨p.ctors, []⟩ did).1 := by
  cases h : (p.parse did).1 with
  | ok key =>
    have := (parse_ok_iff hp did key).1 h
    exact ((parse_ok_iff (coherent_fresh p.ctors) did key).2 this).symm
  | error e =>
    have hn : ∀ key, ¬ Denotes p.ctors did key := by
      intro key hd
      rw [(parse_ok_iff hp did key).2 hd] at h
      cases h
    unfold parse at h ⊢
    split at h
    · rename_i hpre
      rw [if_pos hpre]
      split at h
      · cases h
      · simp only [BMap.get?]
        split at h
        · cases h
        · rename_i e' he'
          exact h.symm
    · rename_i hpre
      rw [if_neg hpre]
      exact h.symm

end DidParser

/-! ## C38 The cache is transparent -/

/-- C38: after any history of calls the answer for a DID is that of a fresh parser, errors and panics included. -/
theorem C38_cache_transparent (ctors : BMap Bytes KeyCtor) (p : DidParser) (h : Reachable ctors p) (did : String) :
    (p.parse did).1 = (DidParser.parse ⟨ctors, []⟩ did).1 := by
  obtain ⟨hc, e⟩ := DidParser.coherent_of_reachable h
  rw [DidParser.parse_eq_fresh hc did, e]

/-- Feed a list of DIDs to a parser. -/
def DidParser.feed (p : DidParser) (l : List String) : DidParser := l.foldl (fun p d => (p.parse d).2) p

/-- C38 in terms of lists of earlier calls. -/
theorem C38_history (l : List (Bytes × KeyCtor)) (dids : List String) (did : String) :
    ((DidParser.feed (DidParser.new l) dids).parse did).1 = ((DidParser.new l).parse did).1 := by
  have : ∀ (dids : List String) (p : DidParser), Reachable (BMap.ofList l) p → Reachable (BMap.ofList l) (p.feed dids) := by
    intro dids
    induction dids with
    | nil => intro p h; exact h
    | cons d ds ih => intro p h; exact ih _ (h.parse d)
  exact C38_cache_transparent _ _ (this dids _ .fresh) did

/-! ## C39 Dispatch -/

/-- C39: a key is returned exactly for the DIDs that denote it. -/
theorem C39_accepts_iff (ctors : BMap Bytes KeyCtor) (p : DidParser) (h : Reachable ctors p) (did : String) (key : Key) :
    (p.parse did).1 = .ok key ↔ Denotes ctors did key := by
  obtain ⟨hc, e⟩ := DidParser.coherent_of_reachable h
  rw [DidParser.parse_ok_iff hc, e]

/-- C39: a panic of the parser itself (constructors being panic-free) happens exactly for a base58 payload of fewer than two bytes. -/
theorem C39_panic_iff (ctors : BMap Bytes KeyCtor) (p : DidParser) (h : Reachable ctors p) (did : String)
    (hctor : ∀ m c, BMap.get? ctors m = some c → ∀ b q, c b ≠ .error (.panic q)) :
    (∃ q, (p.parse did).1 = .error (.panic q)) ↔
      ∃ b : Bytes, b.length < 2 ∧ strBytes did = strBytes "did:key:z" ++ Base58.encode b := by
  rw [C38_cache_transparent ctors p h did]
  unfold DidParser.parse
  constructor
  · rintro ⟨q, hq⟩
    split at hq
    · rename_i hpre
      obtain ⟨t, ht⟩ := DidParser.isPrefixOf_iff.1 hpre
      simp only [BMap.get?] at hq
      split at hq
      · cases hq
      · rename_i e he
        unfold DidParser.resolve at he
        rw [ht, List.drop_left] at he
        split at he
        · cases he; cases hq
        · rename_i b hb
          have hbe := Base58.encode_of_decode hb
          split at he
          · split at he
            · rename_i ctor hc
              cases hq
              exact absurd he (hctor _ _ hc _ _)
            · cases he; cases hq
          · rename_i hshort
            refine ⟨b, ?_, by rw [ht, hbe, DidParser.didKeyPrefix_eq]⟩
            match b, hshort with
            | [], _ => decide
            | [_], _ => simp
            | b0 :: b1 :: r, hs => exact absurd rfl (hs b0 b1 r)
    · cases hq
  · rintro ⟨b, hb, e⟩
    rw [← DidParser.didKeyPrefix_eq] at e
    rw [if_pos (DidParser.isPrefixOf_iff.2 ⟨_, e⟩)]
    simp only [BMap.get?, DidParser.resolve, e, List.drop_left, Base58.decode_encode]
    match b, hb with
    | [], _ => exact ⟨.sliceDid, rfl⟩
    | [_], _ => exact ⟨.sliceDid, rfl⟩

/-- C39 fails: `did:key:z` makes every parser panic instead of returning an error. -/
theorem C39_short_did_panics (ctors : BMap Bytes KeyCtor) (p : DidParser) (h : Reachable ctors p) :
    (p.parse "did:key:z").1 = panicked .sliceDid := by
  rw [C38_cache_transparent ctors p h]
  unfold DidParser.parse
  have h1 : Did.didKeyPrefix.isPrefixOf (strBytes "did:key:z") = true := by decide +kernel
  have h2 : Base58.decode ((strBytes "did:key:z").drop Did.didKeyPrefix.length) = some [] := by decide +kernel
  rw [if_pos h1]
  simp only [BMap.get?, DidParser.resolve, h2]

/-- C39, the part that holds: with payloads of at least two bytes (or no well-formed payload) and panic-free constructors the
answer is a key or an error value. Missing: the DIDs of `C39_panic_iff`. -/
theorem C39_error_or_key_partial (ctors : BMap Bytes KeyCtor) (p : DidParser) (h : Reachable ctors p) (did : String)
    (hctor : ∀ m c, BMap.get? ctors m = some c → ∀ b q, c b ≠ .error (.panic q))
    (hlen : ∀ b, strBytes did = strBytes "did:key:z" ++ Base58.encode b → 2 ≤ b.length) (q : Panic) :
    (p.parse did).1 ≠ .error (.panic q) := by
  intro hq
  obtain ⟨b, hb, e⟩ := (C39_panic_iff ctors p h did hctor).1 ⟨q, hq⟩
  have := hlen b e
  omega

/-- A key, a constructor table and a DID it understands, beside C38 and C39. -/
def exKey (rest : Bytes) : Key := ⟨"EdDSA", .ok "x", fun _ => err .noPrivateKey, fun _ s => if s = rest then .ok () else err .badSignature⟩

def exCtors : BMap Bytes KeyCtor := [(Did.ed25519Magic, fun b => .ok (exKey b))]

example : ∃ did key, Denotes exCtors did key := by
  refine ⟨asciiStr (strBytes "did:key:z" ++ Base58.encode [0xed, 1, 7]), exKey [7], 0xed, 1, [7], fun b => .ok (exKey b), ?_, rfl, rfl⟩
  rw [strBytes_asciiStr]
  intro x hx
  rcases List.mem_append.1 hx with h | h
  · revert x
    have : (strBytes "did:key:z").all (fun x => decide (x.toNat < 128)) = true := by decide +kernel
    intro x _ h
    exact of_decide_eq_true (List.all_eq_true.1 this x h)
  · exact Base58.encode_ascii _ x h

example : ∀ m c, BMap.get? exCtors m = some c → ∀ b q, c b ≠ .error (.panic q) := by
  intro m c h b q
  have : c = fun b => .ok (exKey b) := by
    unfold exCtors BMap.get? at h
    split at h
    · cases h; rfl
    · cases h
  rw [this]
  intro h
  cases h

/-! ## C40 Base58 -/

/-- C40: decoding inverts encoding. -/
theorem C40_decode_encode (b : Bytes) : Base58.decode (Base58.encode b) = some b := Base58.decode_encode b

/-- C40: every text that decodes is the encoding of its value. -/
theorem C40_encode_decode (s b : Bytes) (h : Base58.decode s = some b) : Base58.encode b = s := Base58.encode_of_decode h

/-- C40: distinct bytes, distinct texts. -/
theorem C40_injective (b b' : Bytes) (h : Base58.encode b = Base58.encode b') : b = b' := by
  have := congrArg Base58.decode h
  rw [Base58.decode_encode, Base58.decode_encode] at this
  exact Option.some.inj this

/-- C40: a DID denotes at most one key. -/
theorem C40_denotes_unique (ctors : BMap Bytes KeyCtor) (did : String) (k k' : Key) (h : Denotes ctors did k)
    (h' : Denotes ctors did k') : k = k' := DidParser.denotes_unique h h'

/-- Beside C40: leading zeros are kept. -/
example : Base58.decode (Base58.encode [0, 0, 1, 58]) = some [0, 0, 1, 58] ∧ Base58.encode [0, 0, 1, 58] = strBytes "116R" ∧
    Base58.decode (strBytes "0") = none := by
  decide +kernel

end Verif
