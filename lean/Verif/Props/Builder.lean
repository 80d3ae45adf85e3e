import Verif.Props.Store
import Verif.Spec.Builder

/-! # Properties C51–C54: the builder -/

namespace Verif
open Spec
open Builder (Op)

/-! ## What a sequence of calls leads to -/

theorem Spec.lastCall_nil {α : Type} (f : Op → Option α) : lastCall f [] = none := rfl

theorem Spec.lastCall_append {α : Type} (f : Op → Option α) (ops : List Op) (op : Op) :
    lastCall f (ops ++ [op]) = (f op).or (lastCall f ops) := by
  unfold lastCall
  rw [List.filterMap_append]
  cases h : f op with
  | none => simp [h]
  | some a => simp [h]

theorem Builder.run_append (D : Deps) (ops : List Op) (op : Op) : run D (ops ++ [op]) = apply D (run D ops) op := by
  unfold run
  rw [List.foldl_append]
  rfl

theorem Spec.references_append (D : Deps) (ops : List Op) (op : Op) :
    references D (ops ++ [op]) = references D ops ++ ((proofCall op).toList.map fun p => reference D p.1 p.2) := by
  unfold references
  rw [List.filterMap_append, List.map_append]
  cases h : proofCall op <;> simp [h]

theorem Spec.claimed_append (ops ops' : List Op) : ∀ n, claimed n (ops ++ ops') = claimed n ops ++ claimed (n + (ops.filterMap proofCall).length) ops' := by
  induction ops with
  | nil => intro n; simp [claimed]
  | cons op ops ih =>
    intro n
    simp only [List.cons_append, claimed, ih, List.append_assoc, List.filterMap_cons]
    cases h : proofCall op with
    | none => simp
    | some p => simp [Nat.add_assoc, Nat.add_comm 1]

theorem Builder.delegatingFrom_eq (D : Deps) (b : Builder) (u : Ucan) (h : Option UInt64) (hl : b.proofs.length < 2 ^ 64) :
    b.delegatingFrom D u h = { b with
      proofs := b.proofs ++ [(u.toCid D (h.getD defaultHasher)).toStr]
      capabilities := b.capabilities ++ [delegation b.proofs.length] } := by
  unfold delegatingFrom
  have : (b.proofs ++ [(u.toCid D (h.getD defaultHasher)).toStr]).length - 1 = b.proofs.length := by simp
  simp only [this, C19_decimal D _ hl none]
  rfl

theorem Spec.reference_eq (D : Deps) (u : Ucan) (h : UInt64) : reference D u h = (u.toCid D h).toStr := by
  unfold reference Ucan.toCid
  rw [Ucan.strBytes_encode]
  rfl

/-- C51: for every setter the last call wins; capabilities and proofs accumulate in call order. -/
theorem C51_state (D : Deps) (ops : List Op) (hl : ops.length < 2 ^ 64) : Asked D ops (Builder.run D ops) := by
  suffices ∀ (n : Nat) (ops : List Op), ops.length = n → n < 2 ^ 64 → Asked D ops (Builder.run D ops) from this _ ops rfl hl
  intro n
  induction n with
  | zero =>
    intro ops h0 _
    cases List.length_eq_zero_iff.1 h0
    exact ⟨rfl, rfl, rfl, rfl, rfl, rfl, rfl, rfl, rfl⟩
  | succ n ih =>
    intro ops' hn hlt
    rcases list_reverse_cases ops' with rfl | ⟨ops, op, rfl⟩
    · cases hn
    have hn : ops.length = n := by simpa using hn
    obtain ⟨h1, h2, h3, h4, h5, h6, h7, h8, h9⟩ := ih ops hn (by omega)
    have hpl : (references D ops).length = (ops.filterMap proofCall).length := by unfold references; rw [List.length_map]
    have hpb : (references D ops).length < 2 ^ 64 := by
      rw [hpl]
      exact Nat.lt_of_le_of_lt (List.length_filterMap_le _ _) (by omega)
    have hc : claimed 0 (ops ++ [op]) = claimed 0 ops ++ claimsOf (references D ops).length op := by
      rw [claimed_append, hpl, Nat.zero_add]
      simp [claimed]
    have hf : BMap.ofList (ops.filterMap factCall ++ [op].filterMap factCall) =
        ([op].filterMap factCall).foldl (fun m e => BMap.insert m e.1 e.2) (BMap.ofList (ops.filterMap factCall)) := by
      unfold BMap.ofList
      rw [List.foldl_append]
    rw [Builder.run_append]
    have key : Asked D ops (Builder.run D ops) → Asked D (ops ++ [op]) (Builder.apply D (Builder.run D ops) op) := by
      intro _
      refine ⟨?_, ?_, ?_, ?_, ?_, ?_, ?_, ?_, ?_⟩
      · rw [lastCall_append, ← h1]
        cases op with
        | withFact k f => cases f <;> rfl
        | delegatingFrom u h => rw [Builder.apply, Builder.delegatingFrom_eq D _ u h (by rw [h8]; exact hpb)]; rfl
        | _ => rfl
      · rw [lastCall_append, ← h2]
        cases op with
        | withFact k f => cases f <;> rfl
        | delegatingFrom u h => rw [Builder.apply, Builder.delegatingFrom_eq D _ u h (by rw [h8]; exact hpb)]; rfl
        | _ => rfl
      · rw [lastCall_append, ← h3]
        cases op with
        | withFact k f => cases f <;> rfl
        | delegatingFrom u h => rw [Builder.apply, Builder.delegatingFrom_eq D _ u h (by rw [h8]; exact hpb)]; rfl
        | _ => rfl
      · rw [lastCall_append, ← h4]
        cases op with
        | withFact k f => cases f <;> rfl
        | delegatingFrom u h => rw [Builder.apply, Builder.delegatingFrom_eq D _ u h (by rw [h8]; exact hpb)]; rfl
        | _ => rfl
      · rw [lastCall_append, ← h5]
        cases op with
        | withFact k f => cases f <;> rfl
        | delegatingFrom u h => rw [Builder.apply, Builder.delegatingFrom_eq D _ u h (by rw [h8]; exact hpb)]; rfl
        | _ => rfl
      · rw [lastCall_append]
        cases op with
        | withNonce => rfl
        | withFact k f => cases f <;> exact h6
        | delegatingFrom u h => rw [Builder.apply, Builder.delegatingFrom_eq D _ u h (by rw [h8]; exact hpb)]; exact h6
        | _ => exact h6
      · rw [List.filterMap_append, hf, ← h7]
        cases op with
        | withFact k f => cases f <;> rfl
        | delegatingFrom u h => rw [Builder.apply, Builder.delegatingFrom_eq D _ u h (by rw [h8]; exact hpb)]; rfl
        | _ => rfl
      · rw [references_append]
        cases op with
        | withFact k f => cases f <;> exact h8.trans (List.append_nil _).symm
        | witnessedBy u h => rw [← h8]; simp only [proofCall, Option.toList_some, List.map_cons, List.map_nil, reference_eq]; rfl
        | delegatingFrom u h =>
          rw [Builder.apply, Builder.delegatingFrom_eq D _ u h (by rw [h8]; exact hpb), ← h8]
          simp only [proofCall, Option.toList_some, List.map_cons, List.map_nil, reference_eq]
          rfl
        | _ => exact h8.trans (List.append_nil _).symm
      · rw [hc]
        cases op with
        | withFact k f => cases f <;> exact h9.trans (List.append_nil _).symm
        | claimingCapability c => rw [← h9]; rfl
        | claimingCapabilities l => rw [← h9]; rfl
        | delegatingFrom u h => rw [Builder.apply, Builder.delegatingFrom_eq D _ u h (by rw [h8]; exact hpb), ← h9, ← h8]; rfl
        | _ => exact h9.trans (List.append_nil _).symm
    exact key ⟨h1, h2, h3, h4, h5, h6, h7, h8, h9⟩

theorem Builder.impliedExpiration_explicit {E : Env} {checked : Bool} {b : Builder} {t : UInt64} (h : b.expiration = some t) (w : World) :
    b.impliedExpiration E checked w = (.ok (some t), w) := by
  unfold impliedExpiration
  rw [h]
  rfl

theorem Builder.impliedExpiration_none {E : Env} {checked : Bool} {b : Builder} (h : b.expiration = none) (h' : b.lifetime = none) (w : World) :
    b.impliedExpiration E checked w = (.ok none, w) := by
  unfold impliedExpiration
  rw [h, h']
  rfl

theorem Builder.impliedExpiration_lifetime {E : Env} {checked : Bool} {b : Builder} {l : UInt64} (h : b.expiration = none) (h' : b.lifetime = some l) (w : World) :
    b.impliedExpiration E checked w = (if checked ∧ (E.clock w.tick).toNat + l.toNat ≥ 2 ^ 64 then panicked .addOverflow else .ok (some (E.clock w.tick + l)),
      { w with tick := w.tick + 1 }) := by
  unfold impliedExpiration
  rw [h, h']
  simp only
  have hn : E.now w = (.ok (E.clock w.tick), { w with tick := w.tick + 1 }) := rfl
  show (E.now >>= fun t => if checked ∧ t.toNat + l.toNat ≥ 2 ^ 64 then M.lift (panicked .addOverflow) else pure (some (t + l))) w = _
  rw [M.bind_of_ok hn]
  split <;> rfl

theorem Builder.build_eq {E : Env} {checked : Bool} {b : Builder} {k : Key} {a : String} (hk : b.issuer = some k) (ha : b.audience = some a) :
    b.build E checked = b.impliedExpiration E checked >>= fun exp => pure ⟨k, a, b.capabilities, exp, b.notBefore, b.facts, b.proofs, b.addNonce⟩ := by
  unfold build
  rw [hk, ha]

theorem Builder.build_ok {E : Env} {checked : Bool} {b : Builder} {w w' : World} {s : Signable} (h : b.build E checked w = (.ok s, w')) :
    ∃ k a e, b.issuer = some k ∧ b.audience = some a ∧ b.impliedExpiration E checked w = (.ok e, w') ∧
      s = ⟨k, a, b.capabilities, e, b.notBefore, b.facts, b.proofs, b.addNonce⟩ := by
  cases hk : b.issuer with
  | none => unfold build at h; rw [hk] at h; cases h
  | some k =>
    cases ha : b.audience with
    | none => unfold build at h; rw [hk, ha] at h; cases h
    | some a =>
      rw [build_eq hk ha] at h
      obtain ⟨e, w1, he, hs⟩ := M.bind_ok.1 h
      cases hs
      exact ⟨k, a, e, rfl, rfl, he, rfl⟩

/-! ## C51 Building -/

/-- C51: without an expiry to compute, `build` succeeds exactly if an issuer and an audience were given, and otherwise returns an error. -/
theorem C51_build_iff (D : Deps) (E : Env) (checked : Bool) (ops : List Op) (hl : ops.length < 2 ^ 64) (w : World)
    (ht : ∀ s, lastCall expirationCall ops = none → lastCall lifetimeCall ops = some s → (E.clock w.tick).toNat + s.toNat < 2 ^ 64) :
    (∃ s, ((Builder.run D ops).build E checked w).1 = .ok s) ↔ (lastCall issuerCall ops).isSome ∧ (lastCall audienceCall ops).isSome := by
  have hst := C51_state D ops hl
  rw [← hst.issuer, ← hst.audience]
  constructor
  · rintro ⟨s, hs⟩
    obtain ⟨k, a, _, hk, ha, _⟩ := Builder.build_ok (Prod.ext hs rfl)
    exact ⟨by rw [hk]; rfl, by rw [ha]; rfl⟩
  · rintro ⟨hk, ha⟩
    obtain ⟨k, hk⟩ := Option.isSome_iff_exists.1 hk
    obtain ⟨a, ha⟩ := Option.isSome_iff_exists.1 ha
    rw [Builder.build_eq hk ha]
    rw [← hst.expiration, ← hst.lifetime] at ht
    have : ∃ e w', (Builder.run D ops).impliedExpiration E checked w = (.ok e, w') := by
      cases he : (Builder.run D ops).expiration with
      | some t => exact ⟨_, _, Builder.impliedExpiration_explicit he w⟩
      | none =>
        cases hl : (Builder.run D ops).lifetime with
        | none => exact ⟨_, _, Builder.impliedExpiration_none he hl w⟩
        | some l =>
          have := ht l he hl
          have h := Builder.impliedExpiration_lifetime (E := E) (checked := checked) he hl w
          rw [if_neg (by omega)] at h
          exact ⟨_, _, h⟩
    obtain ⟨e, w', he⟩ := this
    exact ⟨_, congrArg Prod.fst (M.bind_of_ok he)⟩

/-- C51: a missing issuer or audience is an error value. -/
theorem C51_missing (D : Deps) (E : Env) (checked : Bool) (ops : List Op) (hl : ops.length < 2 ^ 64) (w : World)
    (h : lastCall issuerCall ops = none ∨ lastCall audienceCall ops = none) : ∃ e, ((Builder.run D ops).build E checked w).1 = .error (.err e) := by
  have hst := C51_state D ops hl
  rw [← hst.issuer, ← hst.audience] at h
  unfold Builder.build
  cases hk : (Builder.run D ops).issuer with
  | none => exact ⟨_, rfl⟩
  | some k =>
    rcases h with h | h
    · rw [hk] at h; cases h
    · rw [h]; exact ⟨_, rfl⟩

/-- C51: what a successful `build` returns. -/
theorem C51_built (D : Deps) (E : Env) (checked : Bool) (ops : List Op) (hl : ops.length < 2 ^ 64) (w w' : World) (s : Signable)
    (h : (Builder.run D ops).build E checked w = (.ok s, w')) :
    lastCall issuerCall ops = some s.issuer ∧ lastCall audienceCall ops = some s.audience ∧ s.capabilities = claimed 0 ops ∧
    s.notBefore = lastCall notBeforeCall ops ∧ s.facts = BMap.ofList (ops.filterMap factCall) ∧ s.proofs = references D ops ∧
    s.addNonce = (lastCall nonceCall ops).isSome ∧
    s.expiration = (lastCall expirationCall ops).or ((lastCall lifetimeCall ops).map fun l => E.clock w.tick + l) := by
  have hst := C51_state D ops hl
  obtain ⟨k, a, e, hk, ha, he, rfl⟩ := Builder.build_ok h
  refine ⟨by rw [← hst.issuer, hk], by rw [← hst.audience, ha], hst.capabilities, hst.notBefore, hst.facts, hst.proofs, hst.addNonce, ?_⟩
  rw [← hst.expiration, ← hst.lifetime]
  cases hx : (Builder.run D ops).expiration with
  | some t => rw [Builder.impliedExpiration_explicit hx] at he; cases he; rfl
  | none =>
    cases hy : (Builder.run D ops).lifetime with
    | none => rw [Builder.impliedExpiration_none hx hy] at he; cases he; rfl
    | some l =>
      rw [Builder.impliedExpiration_lifetime hx hy] at he
      split at he
      · cases he
      · cases he; rfl

/-- C51: an explicit expiry is used whatever lifetime was given, before or after it, and the clock is then not read. -/
theorem C51_explicit_expiry (D : Deps) (E : Env) (checked : Bool) (ops : List Op) (hl : ops.length < 2 ^ 64) (t : UInt64)
    (ht : lastCall expirationCall ops = some t) (w w' : World) (s : Signable) (h : (Builder.run D ops).build E checked w = (.ok s, w')) :
    s.expiration = some t ∧ w' = w := by
  obtain ⟨_, _, _, _, _, _, _, h8⟩ := C51_built D E checked ops hl w w' s h
  refine ⟨by rw [h8, ht]; rfl, ?_⟩
  obtain ⟨k, a, e, _, _, he, _⟩ := Builder.build_ok h
  rw [Builder.impliedExpiration_explicit ((C51_state D ops hl).expiration.trans ht)] at he
  cases he
  rfl

/-! ## C52 Lifetime arithmetic -/

/-- C52: if the sum fits, the expiry is the clock at build time plus the lifetime. -/
theorem C52_fits_partial (D : Deps) (E : Env) (checked : Bool) (ops : List Op) (hl : ops.length < 2 ^ 64) (s : UInt64)
    (he : lastCall expirationCall ops = none) (hs : lastCall lifetimeCall ops = some s) (w w' : World) (r : Signable)
    (h : (Builder.run D ops).build E checked w = (.ok r, w')) (hfit : (E.clock w.tick).toNat + s.toNat < 2 ^ 64) :
    ∃ e, r.expiration = some e ∧ e.toNat = (E.clock w.tick).toNat + s.toNat := by
  obtain ⟨_, _, _, _, _, _, _, h8⟩ := C51_built D E checked ops hl w w' r h
  rw [he, hs] at h8
  refine ⟨_, h8, ?_⟩
  rw [UInt64.toNat_add, Nat.mod_eq_of_lt hfit]

/-- C52 (violated): otherwise a build with overflow checks panics. -/
theorem C52_panics (D : Deps) (E : Env) (ops : List Op) (hl : ops.length < 2 ^ 64) (s : UInt64) (hi : (lastCall issuerCall ops).isSome)
    (ha : (lastCall audienceCall ops).isSome) (he : lastCall expirationCall ops = none) (hs : lastCall lifetimeCall ops = some s) (w : World)
    (hover : 2 ^ 64 ≤ (E.clock w.tick).toNat + s.toNat) : ((Builder.run D ops).build E true w).1 = .error (.panic .addOverflow) := by
  have hst := C51_state D ops hl
  obtain ⟨k, hk⟩ := Option.isSome_iff_exists.1 hi
  obtain ⟨a, ha⟩ := Option.isSome_iff_exists.1 ha
  rw [Builder.build_eq (hst.issuer.trans hk) (hst.audience.trans ha)]
  have h := Builder.impliedExpiration_lifetime (E := E) (checked := true) (hst.expiration.trans he) (hst.lifetime.trans hs) w
  rw [if_pos ⟨rfl, hover⟩] at h
  rw [M.bind_of_error h]

/-- C52 (violated): and a build without overflow checks makes a token that has expired before it was built. -/
theorem C52_wraps (D : Deps) (E : Env) (ops : List Op) (hl : ops.length < 2 ^ 64) (s : UInt64) (he : lastCall expirationCall ops = none)
    (hs : lastCall lifetimeCall ops = some s) (w w' : World) (r : Signable) (h : (Builder.run D ops).build E false w = (.ok r, w'))
    (hover : 2 ^ 64 ≤ (E.clock w.tick).toNat + s.toNat) : ∃ e, r.expiration = some e ∧ e < E.clock w.tick := by
  obtain ⟨_, _, _, _, _, _, _, h8⟩ := C51_built D E false ops hl w w' r h
  rw [he, hs] at h8
  refine ⟨_, h8, ?_⟩
  rw [UInt64.lt_iff_toNat_lt, UInt64.toNat_add]
  have h1 := (E.clock w.tick).toNat_lt
  have h2 := s.toNat_lt
  omega

/-- Beside C52: a lifetime of `u64::MAX` at any time after the epoch. -/
theorem C52_witness (D : Deps) (k : Key) : let E : Env := ⟨fun _ => 1, fun _ _ => .ok none⟩
    let b := Builder.run D [.issuedBy k, .forAudience "did:key:zB", .withLifetime 0xffffffffffffffff]
    (b.build E true ⟨0, ⟨[], []⟩⟩).1 = .error (.panic .addOverflow) ∧ ∃ s w', b.build E false ⟨0, ⟨[], []⟩⟩ = (.ok s, w') ∧ s.expiration = some 0 := by
  refine ⟨C52_panics D _ _ (by simp) 0xffffffffffffffff rfl rfl rfl rfl _ (by decide), _, _, rfl, rfl⟩

/-! ## C53 Delegation indices match -/

/-- C53: every `delegating_from`, wherever it occurs, adds a claim that redelegates the proof at an index, and the final proof list has the
reference to that authority at that index. -/
theorem C53_indices (D : Deps) (pre post : List Op) (u : Ucan) (h : Option UInt64) (hl : (pre ++ .delegatingFrom u h :: post).length < 2 ^ 64) :
    ∃ i c, c ∈ (Builder.run D (pre ++ .delegatingFrom u h :: post)).capabilities ∧ Redelegates D c i ∧ c.caveat = .obj [] ∧
      (Builder.run D (pre ++ .delegatingFrom u h :: post)).proofs[i]? = some (reference D u (h.getD 0x1e)) := by
  obtain ⟨_, _, _, _, _, _, _, h8, h9⟩ := C51_state D _ hl
  refine ⟨(pre.filterMap proofCall).length, delegation (pre.filterMap proofCall).length, ?_, ?_, rfl, ?_⟩
  · rw [h9, claimed_append]
    simp [claimed, claimsOf]
  · rw [← C19_index_iff]
    refine ⟨_, C19_decimal D _ ?_ _, rfl⟩
    have := List.length_filterMap_le proofCall pre
    simp only [List.length_append, List.length_cons] at hl
    omega
  · rw [h8]
    unfold references
    rw [List.filterMap_append, List.map_append, List.getElem?_append_right (by simp)]
    simp [proofCall]

/-- C53: conversely, claims that the caller did not add name a position in the proof list. -/
theorem C53_claims (D : Deps) (ops : List Op) (hl : ops.length < 2 ^ 64) (c : Capability) (hc : c ∈ (Builder.run D ops).capabilities) :
    (∃ i, c = delegation i ∧ i < (Builder.run D ops).proofs.length) ∨ (.claimingCapability c ∈ ops) ∨ ∃ l, .claimingCapabilities l ∈ ops ∧ c ∈ l := by
  obtain ⟨_, _, _, _, _, _, _, h8, h9⟩ := C51_state D _ hl
  have hlen : (Builder.run D ops).proofs.length = (ops.filterMap proofCall).length := by rw [h8]; unfold references; rw [List.length_map]
  rw [h9] at hc
  rw [hlen]
  have key : ∀ (ops : List Op) (n : Nat), c ∈ claimed n ops → (∃ i, c = delegation i ∧ i < n + (ops.filterMap proofCall).length) ∨
      (.claimingCapability c ∈ ops) ∨ ∃ l, .claimingCapabilities l ∈ ops ∧ c ∈ l := by
    intro ops
    induction ops with
    | nil => intro n h; cases h
    | cons op ops ih =>
      intro n h
      rcases List.mem_append.1 h with h | h
      · cases op with
        | claimingCapability c' => cases List.mem_singleton.1 h; exact Or.inr (Or.inl (by simp))
        | claimingCapabilities l => exact Or.inr (Or.inr ⟨l, by simp, h⟩)
        | delegatingFrom u h' =>
          cases List.mem_singleton.1 h
          exact Or.inl ⟨n, rfl, by simp [proofCall]⟩
        | _ => cases h
      · rcases ih _ h with ⟨i, e, hi⟩ | h | ⟨l, h, hc⟩
        · refine Or.inl ⟨i, e, ?_⟩
          rw [List.filterMap_cons]
          cases hp : proofCall op with
          | none => rw [hp] at hi; simpa using hi
          | some p => rw [hp] at hi; simp at hi ⊢; omega
        · exact Or.inr (Or.inl (by simp [h]))
        · exact Or.inr (Or.inr ⟨l, by simp [h], hc⟩)
  simpa using key ops 0 hc

/-- Beside C51 and C53: mixed calls, with two authorities. -/
example (D : Deps) (u v : Ucan) (k : Key) :
    let ops : List Op := [.witnessedBy u none, .withExpiration 9, .issuedBy k, .delegatingFrom v (some 0x12), .forAudience "a", .withLifetime 5, .forAudience "b"]
    references D ops = [reference D u 0x1e, reference D v 0x12] ∧ claimed 0 ops = [delegation 1] ∧ lastCall audienceCall ops = some "b" ∧
      lastCall expirationCall ops = some 9 := ⟨rfl, rfl, rfl, rfl⟩

/-! ## C54 Payload faithfulness -/

/-- C54: what a signed UCAN carries. -/
theorem C54_payload (D : Deps) (s : Signable) (rnd : Bytes) (u : Ucan) (h : s.sign D rnd = .ok u) :
    u.payload.ucv = "0.10.0-canary" ∧ s.issuer.did = .ok u.payload.iss ∧ u.payload.aud = s.audience ∧ u.payload.exp = s.expiration ∧
    u.payload.nbf = s.notBefore ∧ u.payload.cap.iter.Perm s.capabilities ∧ (∀ r a, claims r a u.payload.cap.iter = claims r a s.capabilities) ∧
    u.payload.fct = (if s.facts = [] then none else some s.facts) ∧ u.payload.prf = (if s.proofs = [] then none else some s.proofs) ∧
    u.payload.nnc = (if s.addNonce then some (Base64.encodeStr rnd) else none) ∧ u.header = ⟨s.issuer.alg, "JWT"⟩ ∧
    s.issuer.sign u.signedData = .ok u.signature := by
  obtain ⟨hp, hh, _, hsig⟩ := sign_ok h
  obtain ⟨h1, h2, h3, h4, h5, h6, h7, h8, h9⟩ := ucanPayload_ok hp
  refine ⟨h3, h1, h4, h5, h6, C16_permutation h2, fun r a => C16_stable h2 r a, ?_, ?_, h7, hh, hsig⟩
  · rw [h8]
    cases s.facts <;> rfl
  · rw [h9]
    cases s.proofs <;> rfl

theorem Capabilities.addAll_error {m : Capabilities} {l : List Capability} {e : Fail} (h : addAll m l = .error e) : ∃ e', e = .err e' := by
  induction l generalizing m with
  | nil => cases h
  | cons c l ih =>
    unfold addAll at h
    split at h
    · exact ih h
    · rename_i e1 h1
      cases h
      unfold add at h1
      split at h1
      · simp only at h1
        split at h1 <;> cases h1
      · cases h1
        exact ⟨_, rfl⟩

theorem Capabilities.ofVec_error {l : List Capability} {e : Fail} (h : ofVec l = .error e) : ∃ e', e = .err e' := by
  unfold ofVec at h
  split at h
  · unfold ofMap at h
    split at h
    · cases h
    · cases h
      exact ⟨_, rfl⟩
  · rename_i h1
    cases h
    exact addAll_error h1

/-- C54 (violated): signing panics exactly if the key's DID cannot be computed, or it can and some caveat is not an object. -/
theorem C54_panics (D : Deps) (s : Signable) (rnd : Bytes) (hk : ∀ p, s.issuer.did ≠ .error (.panic p))
    (hs : ∀ b p, s.issuer.sign b ≠ .error (.panic p)) (p : Panic) : s.sign D rnd = .error (.panic p) ↔
      p = .expectPayload ∧ ((∃ e, s.issuer.did = .error (.err e)) ∨ (∃ d, s.issuer.did = .ok d) ∧ ∃ c ∈ s.capabilities, ¬ IsObj c.caveat) := by
  unfold Signable.sign Signable.ucanPayload
  cases hd : s.issuer.did with
  | error e =>
    cases e with
    | err e =>
      constructor
      · intro h; cases h; exact ⟨rfl, Or.inl ⟨e, rfl⟩⟩
      · rintro ⟨rfl, _⟩; rfl
    | panic q => exact absurd hd (hk q)
    | diverge =>
      constructor
      · intro h; cases h
      · rintro ⟨_, ⟨e, h⟩ | ⟨⟨d, h⟩, _⟩⟩ <;> cases h
  | ok d =>
    simp only
    have hacc := C16_accepts s.capabilities
    cases hc : Capabilities.ofVec s.capabilities with
    | ok m =>
      simp only
      constructor
      · intro h
        split at h
        · rename_i e he
          cases h
          exact absurd he (hs _ _)
        · cases h
      · rintro ⟨_, ⟨e, h⟩ | ⟨_, c, hm, hn⟩⟩
        · cases h
        · exact absurd (hacc.1 ⟨m, hc⟩ c hm) hn
    | error e =>
      have hbad : ∃ c ∈ s.capabilities, ¬ IsObj c.caveat := by
        apply Classical.byContradiction
        intro hn
        obtain ⟨m, hm⟩ := hacc.2 (fun c hc => Classical.byContradiction fun h => hn ⟨c, hc, h⟩)
        rw [hc] at hm
        cases hm
      obtain ⟨e', rfl⟩ := Capabilities.ofVec_error hc
      constructor
      · intro h; cases h; exact ⟨rfl, Or.inr ⟨⟨d, rfl⟩, hbad⟩⟩
      · rintro ⟨rfl, _⟩; rfl

/-- Beside C54: a key in working order, a claim whose caveat is `null`. -/
theorem C54_witness (D : Deps) (sign : Bytes → Res Bytes) (verify : Bytes → Bytes → Res Unit) (rnd : Bytes) :
    (Signable.mk ⟨"EdDSA", .ok "did:key:zA", sign, verify⟩ "did:key:zB" [⟨"mailto:a@b", "msg/send", .null⟩] none none [] [] false).sign D rnd =
      .error (.panic .expectPayload) := rfl

/-- Beside C54: and with the empty caveat it signs. -/
example (D : Deps) (verify : Bytes → Bytes → Res Unit) (rnd : Bytes) :
    ∃ u, (Signable.mk ⟨"EdDSA", .ok "did:key:zA", fun b => .ok b, verify⟩ "did:key:zB" [⟨"mailto:a@b", "msg/send", .obj []⟩] none none [] [] true).sign D rnd = .ok u :=
  ⟨_, rfl⟩

end Verif
