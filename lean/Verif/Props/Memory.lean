import Verif.Props.Number

/-! # Property C102: what validations leave behind in the parser -/

namespace Verif
open Spec Chain

/-- The parser keeps the key of the DID. -/
def Spec.Remembers (p : DidParser) (did : String) : Prop := ∃ key, BMap.get? p.cache did = some key

/-- How many keys it keeps. -/
def Spec.remembered (p : DidParser) : Nat := p.cache.length

/-- One UCAN after the other is validated with one parser. -/
def Spec.afterAll (E : Env) (nowTime : Option UInt64) : List Ucan → World → World
  | [], w => w
  | u :: us, w => afterAll E nowTime us (u.validate E nowTime w).2

namespace Memory

theorem parse_remembers {p : DidParser} (hp : Coherent p) (d x : String) :
    Remembers (p.parse d).2 x ↔ Remembers p x ∨ (x = d ∧ ∃ key, Denotes p.ctors d key) := by
  have hiff := fun key => DidParser.parse_ok_iff hp d key
  unfold DidParser.parse at hiff ⊢
  split
  · rename_i hpre
    simp only [hpre, if_true] at hiff
    cases hg : BMap.get? p.cache d with
    | some key =>
      simp only
      constructor
      · exact Or.inl
      · rintro (h | ⟨rfl, _⟩)
        · exact h
        · exact ⟨key, hg⟩
    | none =>
      simp only [hg] at hiff ⊢
      cases hr : DidParser.resolve p.ctors d with
      | ok key =>
        simp only [hr] at hiff ⊢
        have hk := (hiff key).1 rfl
        show (∃ k, BMap.get? (BMap.insert p.cache d key) x = some k) ↔ _
        rw [BMap.get?_insert]
        by_cases hx : x = d
        · subst hx
          simp only [if_true, Option.some.injEq, exists_eq', true_iff]
          exact Or.inr ⟨trivial, key, hk⟩
        · rw [if_neg fun e => hx e.symm]
          simp only [hx, false_and, or_false]
          rfl
      | error e =>
        simp only [hr] at hiff ⊢
        constructor
        · exact Or.inl
        · rintro (h | ⟨rfl, key, hk⟩)
          · exact h
          · exact absurd ((hiff key).2 hk) (by simp)
  · rename_i hpre
    simp only [hpre] at hiff
    constructor
    · exact Or.inl
    · rintro (h | ⟨rfl, key, hk⟩)
      · exact h
      · exact absurd ((hiff key).2 hk) (by simp [err])

/-- The UCAN is within its bounds at the times read. -/
def InTime (E : Env) (nowTime : Option UInt64) (w : World) (u : Ucan) : Prop :=
  Unexpired u (nowTime.getD (E.clock w.tick)) ∧ Active u (E.clock (w.tick + expiryReads u nowTime))

theorem validate_parser (E : Env) (u : Ucan) (nowTime : Option UInt64) (w : World) :
    (InTime E nowTime w u → (u.validate E nowTime w).2.parser = (w.parser.parse u.payload.iss).2) ∧
    (¬ InTime E nowTime w u → (u.validate E nowTime w).2.parser = w.parser) := by
  unfold InTime
  obtain ⟨b, hb⟩ := (C10_total E u nowTime w).1
  have hb' : u.isExpired E nowTime w = (.ok b, (u.isExpired E nowTime w).2) := by rw [← hb]
  obtain ⟨hp1, ht1, he⟩ := isExpired_false hb'
  unfold Ucan.validate
  rw [M.bind_of_ok hb', ← he]
  change _ = w.tick + expiryReads u nowTime at ht1
  cases b with
  | true => exact ⟨fun h => (nomatch h.1), fun _ => hp1⟩
  | false =>
    obtain ⟨c, hcc⟩ := (C10_total E u nowTime (u.isExpired E nowTime w).2).2
    have hc' : u.isTooEarly E (u.isExpired E nowTime w).2 = (.ok c, (u.isTooEarly E (u.isExpired E nowTime w).2).2) := by rw [← hcc]
    obtain ⟨hp2, ht2, hcl⟩ := isTooEarly_false hc'
    simp only [Bool.false_eq_true, if_false]
    rw [M.bind_of_ok hc', ← ht1, ← hcl]
    have hpp : (u.isTooEarly E (u.isExpired E nowTime w).2).2.parser = w.parser := hp2.trans hp1
    cases c with
    | true => exact ⟨fun h => (nomatch h.2), fun _ => hpp⟩
    | false =>
      refine ⟨fun _ => ?_, fun h => absurd ⟨trivial, rfl⟩ h⟩
      simp only [Bool.false_eq_true, if_false]
      rw [← hpp]
      exact (checkSignature_world (Prod.eta _).symm).2

end Memory
open Memory

/-- C102: after the validation of a UCAN, whatever its outcome, the parser keeps what it kept before, and the issuer's key if the issuer has one and the UCAN is
within its bounds; the signature plays no part. -/
theorem C102_exact (E : Env) (u : Ucan) (nowTime : Option UInt64) (w : World) (hc : Coherent w.parser) (did : String) :
    Remembers (u.validate E nowTime w).2.parser did ↔ Remembers w.parser did ∨
      (did = u.payload.iss ∧ (∃ key, Denotes w.parser.ctors did key) ∧ Unexpired u (nowTime.getD (E.clock w.tick)) ∧
        Active u (E.clock (w.tick + expiryReads u nowTime))) := by
  by_cases h : InTime E nowTime w u
  · rw [(validate_parser E u nowTime w).1 h, parse_remembers hc]
    constructor
    · rintro (h1 | ⟨rfl, h1⟩)
      · exact Or.inl h1
      · exact Or.inr ⟨rfl, h1, h⟩
    · rintro (h1 | ⟨rfl, h1, _⟩)
      · exact Or.inl h1
      · exact Or.inr ⟨rfl, h1⟩
  · rw [(validate_parser E u nowTime w).2 h]
    constructor
    · exact Or.inl
    · rintro (h1 | ⟨_, _, h1⟩)
      · exact h1
      · exact absurd h1 h

/-- C102 (partial): a UCAN that is refused because of its bounds or because its issuer has no key leaves the parser as it was. The full claim, for all
refused UCANs, is refuted by `C102_leak`. -/
theorem C102_untouched_partial (E : Env) (u : Ucan) (nowTime : Option UInt64) (w : World) (hc : Coherent w.parser)
    (h : ¬ (Unexpired u (nowTime.getD (E.clock w.tick)) ∧ Active u (E.clock (w.tick + expiryReads u nowTime))) ∨
      ∀ key, ¬ Denotes w.parser.ctors u.payload.iss key) : (u.validate E nowTime w).2.parser = w.parser := by
  by_cases ht : InTime E nowTime w u
  · rw [(validate_parser E u nowTime w).1 ht]
    have hk := h.resolve_left (fun h => h ht)
    have hno : ∀ key, (w.parser.parse u.payload.iss).1 ≠ .ok key := fun key e => hk key ((DidParser.parse_ok_iff hc _ _).1 e)
    unfold DidParser.parse at hno ⊢
    split
    · rename_i hpre
      simp only [hpre, if_true] at hno
      cases hg : BMap.get? w.parser.cache u.payload.iss with
      | some key => rfl
      | none =>
        simp only [hg] at hno ⊢
        cases hr : DidParser.resolve w.parser.ctors u.payload.iss with
        | ok key => rw [hr] at hno; exact absurd rfl (hno key)
        | error e => rfl
    · rfl
  · exact (validate_parser E u nowTime w).2 ht

namespace Memory

theorem afterAll_coherent (E : Env) (nowTime : Option UInt64) : ∀ (us : List Ucan) (w : World), Coherent w.parser →
    Coherent (afterAll E nowTime us w).parser ∧ (afterAll E nowTime us w).parser.ctors = w.parser.ctors
  | [], _, h => ⟨h, rfl⟩
  | u :: us, w, h => by
    obtain ⟨h1, h2, _⟩ := validate_world (E := E) (u := u) (nowTime := nowTime) h (Prod.eta _).symm
    obtain ⟨h3, h4⟩ := afterAll_coherent E nowTime us _ h1
    exact ⟨h3, h4.trans h2⟩

theorem keys_nodup {p : DidParser} (hp : Coherent p) : (p.cache.map (·.1)).Nodup := by
  rw [List.Nodup, List.pairwise_map]
  refine List.Pairwise.imp ?_ hp.sorted
  intro a b h
  exact OrdKey.ne_of_lt h

theorem keys_mem {p : DidParser} (hp : Coherent p) (did : String) : did ∈ p.cache.map (·.1) ↔ Remembers p did := by
  constructor
  · intro h
    obtain ⟨⟨k, v⟩, h1, rfl⟩ := List.mem_map.1 h
    exact ⟨v, BMap.get?_of_mem hp.sorted h1⟩
  · rintro ⟨key, h⟩
    exact List.mem_map.2 ⟨_, BMap.mem_of_get? h, rfl⟩

theorem afterAll_remembers (E : Env) (nowTime : Option UInt64) : ∀ (us : List Ucan) (w : World), Coherent w.parser →
    (∀ u ∈ us, u.payload.exp = none ∧ u.payload.nbf = none ∧ ∃ key, Denotes w.parser.ctors u.payload.iss key) → ∀ did,
    (Remembers (afterAll E nowTime us w).parser did ↔ Remembers w.parser did ∨ did ∈ us.map (·.payload.iss))
  | [], _, _, _, did => by simp [afterAll]
  | u :: us, w, hc, h, did => by
    obtain ⟨h1, h2, _⟩ := validate_world (E := E) (u := u) (nowTime := nowTime) hc (Prod.eta _).symm
    obtain ⟨he, hn, hk⟩ := h u (by simp)
    rw [afterAll, afterAll_remembers E nowTime us _ h1 (fun v hv => by rw [h2]; exact h v (by simp [hv])), C102_exact E u nowTime w hc, List.map_cons,
      List.mem_cons, or_assoc]
    refine or_congr_right (or_congr_left ⟨fun h => h.1, ?_⟩)
    rintro rfl
    exact ⟨rfl, hk, fun e h => (by rw [he] at h; cases h), fun e h => (by rw [hn] at h; cases h)⟩

end Memory

/-- C102: keys are never dropped, and with unbounded UCANs of different issuers who have keys, as many are kept as there are UCANs, whether their
signatures are good or not. -/
theorem C102_growth (E : Env) (nowTime : Option UInt64) (us : List Ucan) (ctors : BMap Bytes KeyCtor) (tick : Nat)
    (h : ∀ u ∈ us, u.payload.exp = none ∧ u.payload.nbf = none ∧ ∃ key, Denotes ctors u.payload.iss key) (hd : (us.map (·.payload.iss)).Nodup) :
    remembered (afterAll E nowTime us ⟨tick, ⟨ctors, []⟩⟩).parser = us.length := by
  have hc : Coherent (⟨ctors, []⟩ : DidParser) := DidParser.coherent_fresh ctors
  obtain ⟨h1, _⟩ := afterAll_coherent E nowTime us ⟨tick, ⟨ctors, []⟩⟩ hc
  have hm : ∀ did, did ∈ (afterAll E nowTime us ⟨tick, ⟨ctors, []⟩⟩).parser.cache.map (·.1) ↔ did ∈ us.map (·.payload.iss) := by
    intro did
    rw [keys_mem h1, afterAll_remembers E nowTime us _ hc h]
    refine ⟨fun h => h.resolve_left ?_, Or.inr⟩
    rintro ⟨key, h⟩
    cases h
  have e1 := Number.nodup_length _ _ (keys_nodup h1) fun x hx => (hm x).1 hx
  have e2 := Number.nodup_length _ _ hd fun x hx => (hm x).2 hx
  rw [List.length_map, List.length_map] at e1 e2
  exact Nat.le_antisymm e1 e2

namespace Ex

/-- A worthless token of the party whose public key is `n` zeros. -/
def spam (n : Nat) : Ucan :=
  ⟨⟨"EdDSA", "JWT"⟩, ⟨ucanVersion, "did:key:z" ++ asciiStr (Base58.encode (0xed :: 1 :: List.replicate n 0)), "", none, none, none, [], none, none⟩, [], [1]⟩

theorem spam_bytes (n : Nat) : strBytes (spam n).payload.iss = strBytes "did:key:z" ++ Base58.encode (0xed :: 1 :: List.replicate n 0) := by
  show strBytes ("did:key:z" ++ _) = _
  rw [strBytes_append, strBytes_asciiStr (Base58.encode_ascii _)]

theorem spam_denotes (n : Nat) : Denotes exCtors (spam n).payload.iss (exKey (List.replicate n 0)) :=
  ⟨0xed, 1, _, fun b => .ok (exKey b), spam_bytes n, rfl, rfl⟩

theorem spam_inj {m n : Nat} (h : (spam m).payload.iss = (spam n).payload.iss) : m = n := by
  have := spam_bytes m
  rw [h, spam_bytes n] at this
  have := congrArg Base58.decode (List.append_cancel_left this)
  rw [Base58.decode_encode, Base58.decode_encode] at this
  have := congrArg List.length (Option.some.inj this)
  simp only [List.length_cons, List.length_replicate] at this
  omega

theorem spam_refused (n : Nat) : ¬ Authentic exCtors (spam n) := by
  rintro ⟨key, hk, hv⟩
  have h1 := (DidParser.parse_ok_iff (DidParser.coherent_fresh exCtors) _ _).2 hk
  rw [(DidParser.parse_ok_iff (DidParser.coherent_fresh exCtors) _ _).2 (spam_denotes n)] at h1
  cases h1
  change (if [1] = List.replicate n (0 : UInt8) then Except.ok () else _) = _ at hv
  rw [if_neg] at hv
  · cases hv
  · intro e
    have : (1 : UInt8) ∈ List.replicate n (0 : UInt8) := e ▸ List.mem_singleton.2 rfl
    exact absurd (List.eq_of_mem_replicate this) (by decide)

end Ex
open Ex

/-- C102 is violated: with any number of tokens, none of which is ever accepted, anyone can make a parser keep as many keys. -/
theorem C102_leak (n : Nat) : ∃ (ctors : BMap Bytes KeyCtor) (us : List Ucan), us.length = n ∧ ∀ (E : Env) (nowTime : Option UInt64) (tick : Nat),
    (∀ u ∈ us, ∀ w : World, Coherent w.parser → w.parser.ctors = ctors → (u.validate E nowTime w).1 ≠ .ok ()) ∧
    remembered (afterAll E nowTime us ⟨tick, ⟨ctors, []⟩⟩).parser = n := by
  refine ⟨exCtors, (List.range n).map spam, by simp, fun E nowTime tick => ⟨?_, ?_⟩⟩
  · intro u hu w hc e h
    obtain ⟨k, _, rfl⟩ := List.mem_map.1 hu
    have := ((C12_validate_iff E (spam k) nowTime w hc).1 h).2.2
    rw [e] at this
    exact spam_refused k this
  · rw [C102_growth E nowTime _ exCtors tick]
    · simp
    · intro u hu
      obtain ⟨k, _, rfl⟩ := List.mem_map.1 hu
      exact ⟨rfl, rfl, _, spam_denotes k⟩
    · rw [List.map_map, List.Nodup, List.pairwise_map]
      exact List.Pairwise.imp (fun h e => h (spam_inj e)) List.nodup_range

/-- An expired token leaves nothing behind. -/
example (D : Deps) : ((root D).validate (still (fun _ => none) 50) none world).2.parser = world.parser :=
  C102_untouched_partial _ _ _ _ world_coherent (.inl fun h => absurd (h.1 10 rfl) (by decide))

/-- The key of a token with a bad signature is kept. -/
example : Remembers ((spam 3).validate (still (fun _ => none) 50) none ⟨0, ⟨exCtors, []⟩⟩).2.parser (spam 3).payload.iss :=
  (C102_exact _ _ _ _ (DidParser.coherent_fresh exCtors) _).2
    (.inr ⟨rfl, ⟨_, spam_denotes 3⟩, fun _ h => (nomatch h), fun _ h => (nomatch h)⟩)

end Verif
