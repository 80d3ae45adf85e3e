import Verif.Spec.Disclosure
import Verif.Props.TokenId
import Verif.Props.EndToEnd

/-! # C128: what a token tells about the calls that issued it -/

namespace Verif
open Spec
open Builder (Op)
open Capabilities (ofVec_ok)

namespace Disclosure

theorem get?_foldl (l : List (String × Json)) (m : BMap String Json) (k : String) :
    BMap.get? (l.foldl (fun m e => BMap.insert m e.1 e.2) m) k = ((l.filterMap fun e => if e.1 = k then some e.2 else none).getLast?).or (BMap.get? m k) := by
  induction l generalizing m with
  | nil => simp
  | cons e l ih =>
    rw [List.foldl_cons, ih, BMap.get?_insert, List.filterMap_cons]
    by_cases h : e.1 = k
    · simp only [h, if_true]
      rw [List.getLast?_cons]
      cases (l.filterMap fun e => if e.1 = k then some e.2 else none).getLast? <;> rfl
    · simp only [h, if_false]

theorem get?_facts (ops : List Op) (k : String) : BMap.get? (BMap.ofList (ops.filterMap factCall)) k = lastFact k ops := by
  unfold BMap.ofList lastFact lastCall
  rw [get?_foldl, List.filterMap_filterMap]
  have : BMap.get? ([] : BMap String Json) k = none := rfl
  rw [this, Option.or_none]
  congr 2
  funext op
  cases factCall op with
  | none => rfl
  | some e => rfl

theorem facts_iff (ops ops' : List Op) : BMap.ofList (ops.filterMap factCall) = BMap.ofList (ops'.filterMap factCall) ↔ ∀ k, lastFact k ops = lastFact k ops' := by
  constructor
  · intro h k
    rw [← get?_facts, ← get?_facts, h]
  · intro h
    refine BMap.ext (BMap.sorted_ofList _) (BMap.sorted_ofList _) fun k => ?_
    rw [get?_facts, get?_facts, h]

theorem caps_iff {l l' : List Capability} {m m' : Capabilities} (h : Capabilities.ofVec l = .ok m) (h' : Capabilities.ofVec l' = .ok m') :
    m = m' ↔ ∀ r a, claims r a l = claims r a l' := by
  constructor
  · rintro rfl r a
    rw [← C16_stable h, ← C16_stable h']
  · intro e
    obtain ⟨a1, _, a3, a4⟩ := ofVec_ok h
    obtain ⟨b1, _, b3, b4⟩ := ofVec_ok h'
    refine caps_ext a1 b1 a4 b4 fun r a => ?_
    rw [a3, b3, e]

theorem opt_iff {α : Type} {l l' : List α} : (if l.isEmpty then none else some l) = (if l'.isEmpty then none else some l') ↔ l = l' := by
  cases l <;> cases l' <;> simp

theorem payload_iff {s s' : Signable} {rnd rnd' : Bytes} {p p' : Payload} (h : s.ucanPayload rnd = .ok p) (h' : s'.ucanPayload rnd' = .ok p') :
    p = p' ↔ s.issuer.did = s'.issuer.did ∧ s.audience = s'.audience ∧ s.expiration = s'.expiration ∧ s.notBefore = s'.notBefore ∧ s.facts = s'.facts ∧
      s.proofs = s'.proofs ∧ (∀ r a, claims r a s.capabilities = claims r a s'.capabilities) ∧ s.addNonce = s'.addNonce ∧ (s.addNonce = true → rnd = rnd') := by
  obtain ⟨a1, a2, a3, a4, a5, a6, a7, a8, a9⟩ := ucanPayload_ok h
  obtain ⟨b1, b2, b3, b4, b5, b6, b7, b8, b9⟩ := ucanPayload_ok h'
  have hnonce : s.nonce rnd = s'.nonce rnd' ↔ s.addNonce = s'.addNonce ∧ (s.addNonce = true → rnd = rnd') := by
    unfold Signable.nonce
    cases s.addNonce <;> cases s'.addNonce <;> simp
    constructor
    · intro e
      have := congrArg strBytes e
      rw [Base64.strBytes_encodeStr, Base64.strBytes_encodeStr] at this
      exact base64_injective this
    · rintro rfl; rfl
  rw [← hnonce, ← caps_iff a2 b2, ← opt_iff (l := s.proofs), ← opt_iff (l := s.facts), a1, b1, ← a4, ← b4, ← a5, ← b5, ← a6, ← b6, ← a7, ← b7, ← a8, ← b8, ← a9, ← b9]
  cases p
  cases p'
  simp only at a3 b3
  subst a3
  subst b3
  simp only [Payload.mk.injEq, Except.ok.injEq, true_and]
  constructor
  · rintro ⟨h1, h2, h3, h4, h5, h6, h7, h8⟩
    exact ⟨h1, h2, h3, h4, h7, h8, h6, h5⟩
  · rintro ⟨h1, h2, h3, h4, h5, h6, h7, h8⟩
    exact ⟨h1, h2, h3, h4, h8, h7, h5, h6⟩

end Disclosure

open Disclosure

/-- C128: two programs issue tokens with the same signed text exactly if they say the same. -/
theorem C128_exact (D : Deps) (E E' : Env) (checked checked' : Bool) (ops ops' : List Op) (hl : ops.length < 2 ^ 64) (hl' : ops'.length < 2 ^ 64) (w w' v v' : World)
    (s s' : Signable) (hb : (Builder.run D ops).build E checked w = (.ok s, v)) (hb' : (Builder.run D ops').build E' checked' w' = (.ok s', v')) (rnd rnd' : Bytes) (u u' : Ucan)
    (hs : s.sign D rnd = .ok u) (hs' : s'.sign D rnd' = .ok u') (hok : SignableOk D s) (hok' : SignableOk D s') :
    u.signedData = u'.signedData ↔ SayTheSame D ops ops' (E.clock w.tick) (E'.clock w'.tick) rnd rnd' := by
  obtain ⟨b1, b2, b3, b4, b5, b6, b7, b8⟩ := C51_built D E checked ops hl w v s hb
  obtain ⟨c1, c2, c3, c4, c5, c6, c7, c8⟩ := C51_built D E' checked' ops' hl' w' v' s' hb'
  obtain ⟨p1, p2, p3, _⟩ := sign_ok hs
  obtain ⟨q1, q2, q3, _⟩ := sign_ok hs'
  have hdata : u.signedData = u'.signedData ↔ u.header = u'.header ∧ u.payload = u'.payload := by
    rw [p3, q3]
    constructor
    · intro e
      have := (C84_same_text D u { u' with signature := u.signature } (encodable_of_signable hok p1) (encodable_of_signable hok' q1)).1 (by
        apply strBytes_inj
        rw [Ucan.strBytes_encode, Ucan.strBytes_encode, Ucan.encodeBytes, Ucan.encodeBytes, e])
      exact ⟨this.1, this.2.1⟩
    · rintro ⟨e1, e2⟩
      rw [e1, e2]
  have hnonce : ∀ x y : Option Unit, x.isSome = y.isSome ↔ x = y := by
    intro x y
    cases x <;> cases y <;> simp
  rw [hdata, payload_iff p1 q1, p2, q2, Header.mk.injEq, and_iff_left rfl]
  constructor
  · rintro ⟨h1, h2, h3, h4, h5, h6, h7, h8, h9, h10⟩
    refine ⟨by rw [b1, c1]; exact congrArg some (Prod.ext h2 h1), by rw [b2, c2, h3], b8.symm.trans (h4.trans c8), b4.symm.trans (h5.trans c4), ?_,
      b6.symm.trans (h7.trans c6), fun r a => by rw [← b3, ← c3, h8], ?_, fun hn => h10 ?_⟩
    · rw [← facts_iff, ← b5, ← c5, h6]
    · rw [← hnonce, ← b7, ← c7, h9]
    · rw [b7]
      cases hx : lastCall nonceCall ops with
      | none => exact absurd hx hn
      | some _ => rfl
  · rintro ⟨h1, h2, h3, h4, h5, h6, h7, h8, h9⟩
    rw [b1, c1] at h1
    have h1 := Prod.mk.inj (Option.some.inj h1)
    rw [b2, c2] at h2
    refine ⟨h1.2, h1.1, Option.some.inj h2, b8.trans (h3.trans c8.symm), b4.trans (h4.trans c4.symm), ?_, b6.trans (h6.trans c6.symm), fun r a => by rw [b3, c3, h7], ?_,
      fun hn => h9 ?_⟩
    · rw [b5, c5, facts_iff]
      exact h5
    · rw [b7, c7, h8]
    · rw [b7] at hn
      intro hx
      rw [hx] at hn
      cases hn

/-- C128: so two programs with the same key issue the same token exactly if they say the same. -/
theorem C128_same_key (D : Deps) (E E' : Env) (checked checked' : Bool) (ops ops' : List Op) (hl : ops.length < 2 ^ 64) (hl' : ops'.length < 2 ^ 64) (w w' v v' : World)
    (s s' : Signable) (hb : (Builder.run D ops).build E checked w = (.ok s, v)) (hb' : (Builder.run D ops').build E' checked' w' = (.ok s', v')) (rnd rnd' : Bytes) (u u' : Ucan)
    (hs : s.sign D rnd = .ok u) (hs' : s'.sign D rnd' = .ok u') (hok : SignableOk D s) (hok' : SignableOk D s')
    (hk : lastCall issuerCall ops = lastCall issuerCall ops') : u.encode D = u'.encode D ↔ SayTheSame D ops ops' (E.clock w.tick) (E'.clock w'.tick) rnd rnd' := by
  rw [← C128_exact D E E' checked checked' ops ops' hl hl' w w' v v' s s' hb hb' rnd rnd' u u' hs hs' hok hok']
  obtain ⟨p1, _, p3, p4⟩ := sign_ok hs
  obtain ⟨q1, _, q3, q4⟩ := sign_ok hs'
  have hkey : s.issuer = s'.issuer := by
    have h1 := (C51_built D E checked ops hl w v s hb).1
    have h2 := (C51_built D E' checked' ops' hl' w' v' s' hb').1
    rw [hk, h2] at h1
    exact (Option.some.inj h1).symm
  constructor
  · intro e
    obtain ⟨e1, e2, _⟩ := (C84_same_text D u u' (encodable_of_signable hok p1) (encodable_of_signable hok' q1)).1 e
    rw [p3, q3, e1, e2]
  · intro e
    have hsig : u.signature = u'.signature := by
      rw [hkey, e, q4] at p4
      exact (Except.ok.inj p4).symm
    apply strBytes_inj
    rw [Ucan.strBytes_encode, Ucan.strBytes_encode, Ucan.encodeBytes, Ucan.encodeBytes, ← p3, ← q3, e, hsig]

/-- C128: a token tells nothing about the tokens it cites but their references: whatever a program does is the same if other tokens with the same references are cited. -/
theorem C128_cited (D : Deps) (ops ops' : List Op) (h : AllSameButCited D ops ops') : Builder.run D ops = Builder.run D ops' := by
  have step : ∀ (b : Builder) (o o' : Op), SameButCited D o o' → b.apply D o = b.apply D o' := by
    intro b o o' h
    cases h with
    | same => rfl
    | witnessed u u' h h' e =>
      have e : (u.toCid D (h.getD Builder.defaultHasher)).toStr = (u'.toCid D (h'.getD Builder.defaultHasher)).toStr := by
        rw [reference_eq, reference_eq] at e; exact e
      show b.witnessedBy D u h = b.witnessedBy D u' h'
      unfold Builder.witnessedBy
      rw [e]
    | delegated u u' h h' e =>
      have e : (u.toCid D (h.getD Builder.defaultHasher)).toStr = (u'.toCid D (h'.getD Builder.defaultHasher)).toStr := by
        rw [reference_eq, reference_eq] at e; exact e
      show b.delegatingFrom D u h = b.delegatingFrom D u' h'
      unfold Builder.delegatingFrom
      rw [e]
  unfold Builder.run
  generalize Builder.default = b
  induction h generalizing b with
  | nil => rfl
  | cons ho _ ih => rw [List.foldl_cons, List.foldl_cons, step b _ _ ho, ih]

/-- C128: a token cited `n` times is listed `n` times; nothing is left out. -/
theorem C128_repeated (D : Deps) (ops : List Op) (hl : ops.length < 2 ^ 64) (r : String) :
    (Builder.run D ops).proofs.count r = ops.countP fun op => match proofCall op with
      | some p => reference D p.1 p.2 == r
      | none => false := by
  rw [(C51_state D ops hl).proofs]
  unfold references
  rw [List.count_eq_countP, List.countP_map, List.countP_filterMap]
  congr 1
  funext op
  cases proofCall op <;> rfl

namespace Ex

def plainly : List Op := [.issuedBy (toyKey 1), .forAudience "did:key:z3", .withExpiration 20, .withFact "f" (some .null),
  .claimingCapability ⟨"mailto:a@b", "msg/send", .obj []⟩, .claimingCapability ⟨"mailto:c@d", "msg/send", .obj []⟩]
/-- A program that says things twice and in another order, with a lifetime instead of an expiry. -/
def otherwise : List Op := [.withLifetime 15, .forAudience "did:key:z4", .withFact "f" (some (.str "x")), .claimingCapability ⟨"mailto:c@d", "msg/send", .obj []⟩,
  .withFact "f" (some .null), .issuedBy (toyKey 1), .claimingCapabilities [⟨"mailto:a@b", "msg/send", .obj []⟩], .forAudience "did:key:z3"]

/-- Beside C128: run at time 0 and at time 5, both issue the same token. -/
example (D : Deps) (rnd rnd' : Bytes) : ∃ s s' v v' u u', (Builder.run D plainly).build ⟨fun _ => 0, fun _ _ => .ok none⟩ true ⟨0, ⟨[], []⟩⟩ = (.ok s, v) ∧
    (Builder.run D otherwise).build ⟨fun _ => 5, fun _ _ => .ok none⟩ true ⟨0, ⟨[], []⟩⟩ = (.ok s', v') ∧ s.sign D rnd = .ok u ∧ s'.sign D rnd' = .ok u' ∧
    u.encode D = u'.encode D := by
  refine ⟨_, _, _, _, _, _, rfl, rfl, rfl, rfl, ?_⟩
  have hfact : ∀ (s : Signable), s.facts = [("f", .null)] → (∀ c ∈ s.capabilities, c.caveat = .obj []) → SignableOk D s := by
    intro s hf hc
    refine ⟨fun c h => ?_, ?_⟩
    · rw [hc c h]
      exact ⟨good_empty D, by decide⟩
    · rw [hf]
      refine ⟨⟨⟨trivial, trivial⟩, ⟨by simp [BMap.Sorted], ?_, trivial, trivial⟩, ⟨trivial, trivial⟩⟩, by decide⟩
      rintro (⟨s, hs⟩ | ⟨s, hs⟩) <;> simp at hs
  have two : ∀ x y : String, ∀ c ∈ [(⟨x, "msg/send", .obj []⟩ : Capability), ⟨y, "msg/send", .obj []⟩], c.caveat = .obj [] := by
    intro x y c hc
    rcases List.mem_cons.1 hc with rfl | hc
    · rfl
    · cases List.mem_singleton.1 hc; rfl
  refine (C128_same_key D ⟨fun _ => 0, fun _ _ => .ok none⟩ ⟨fun _ => 5, fun _ _ => .ok none⟩ true true plainly otherwise (by decide) (by decide) ⟨0, ⟨[], []⟩⟩ ⟨0, ⟨[], []⟩⟩
    _ _ _ _ rfl rfl rnd rnd' _ _ rfl rfl ?_ ?_ rfl).2 ⟨rfl, rfl, rfl, rfl, ?_, rfl, ?_, rfl, fun h => absurd rfl h⟩
  · exact hfact _ rfl (two _ _)
  · exact hfact _ rfl (two _ _)
  · intro k
    by_cases hk : "f" = k
    · subst hk; rfl
    · simp [lastFact, lastCall, plainly, otherwise, factCall, hk]
  · intro r a
    show claims r a [⟨"mailto:a@b", "msg/send", .obj []⟩, ⟨"mailto:c@d", "msg/send", .obj []⟩] = claims r a [⟨"mailto:c@d", "msg/send", .obj []⟩, ⟨"mailto:a@b", "msg/send", .obj []⟩]
    unfold claims
    by_cases h1 : "mailto:a@b" = r
    · subst h1
      by_cases h2 : "msg/send" = a <;> simp [h2]
    · by_cases h2 : "mailto:c@d" = r <;> by_cases h3 : "msg/send" = a <;> simp [h1, h2, h3]

/-- Beside C128: a token cited twice is listed twice. -/
example (D : Deps) (u : Ucan) : (Builder.run D [.witnessedBy u none, .witnessedBy u (some 0x1e)]).proofs.count (reference D u 0x1e) = 2 := by
  rw [C128_repeated D _ (by simp)]
  simp [proofCall]

end Ex

end Verif
