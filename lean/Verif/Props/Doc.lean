import Verif.Model.Doc
import Verif.Props.EndToEnd

/-! # Property C88: the programs in the crate's documentation -/

namespace Verif
open Spec Chain Reduce EndToEnd

variable {S A : Type}

namespace Doc

theorem build_eq (E : Env) (checked : Bool) (k : Key) (aud : String) (w : World) :
    (((Builder.default.issuedBy k).forAudience aud).withLifetime 60).build E checked w =
      if checked = true ∧ (E.clock w.tick).toNat + 60 ≥ 2 ^ 64 then (panicked .addOverflow, { w with tick := w.tick + 1 })
      else (.ok ⟨k, aud, [], some (E.clock w.tick + 60), none, [], [], false⟩, { w with tick := w.tick + 1 }) := by
  rw [Builder.build_eq (k := k) (a := aud) rfl rfl]
  have hi := Builder.impliedExpiration_lifetime (E := E) (checked := checked) (b := ((Builder.default.issuedBy k).forAudience aud).withLifetime 60) (l := 60) rfl rfl w
  by_cases h : checked = true ∧ (E.clock w.tick).toNat + 60 ≥ 2 ^ 64
  · rw [if_pos h]
    rw [if_pos (show checked = true ∧ (E.clock w.tick).toNat + (60 : UInt64).toNat ≥ 2 ^ 64 from h)] at hi
    rw [M.bind_of_error hi]
  · rw [if_neg h]
    rw [if_neg (show ¬ (checked = true ∧ (E.clock w.tick).toNat + (60 : UInt64).toNat ≥ 2 ^ 64) from h)] at hi
    rw [M.bind_of_ok hi]
    rfl

/-- What the documented program asks to be signed. -/
def _root_.Verif.Spec.docPayload (did aud : String) (t : UInt64) : Payload := ⟨ucanVersion, did, aud, some (t + 60), none, none, [], none, none⟩

theorem sign_eq (D : Deps) (k : Key) (aud : String) (t : UInt64) (rnd : Bytes) (did : String) (hd : k.did = .ok did) :
    (⟨k, aud, [], some (t + 60), none, [], [], false⟩ : Signable).sign D rnd =
      match k.sign (Ucan.signingInput D ⟨k.alg, "JWT"⟩ (docPayload did aud t)) with
      | .error e => .error e
      | .ok s => .ok ⟨⟨k.alg, "JWT"⟩, docPayload did aud t, Ucan.signingInput D ⟨k.alg, "JWT"⟩ (docPayload did aud t), s⟩ := by
  have hp : (⟨k, aud, [], some (t + 60), none, [], [], false⟩ : Signable).ucanPayload rnd = .ok (docPayload did aud t) := by
    unfold Signable.ucanPayload
    rw [hd]
    rfl
  unfold Signable.sign
  rw [hp]
  rfl

end Doc

/-- C88: the documented `generate_token` fails exactly if the key has no DID, does not sign, or the clock is at its very end; otherwise the token is the text of a
UCAN that names the key's DID as its issuer and the given audience, expires sixty seconds after the reading of the clock, and grants nothing. -/
theorem C88_generate (D : Deps) (E : Env) (checked : Bool) (rnd : Bytes) (k : Key) (aud : String) (w : World)
    (ht : (E.clock w.tick).toNat + 60 < 2 ^ 64) (tok : String) :
    (∃ w', Doc.generateToken D E checked rnd k aud w = (.ok tok, w')) ↔
      ∃ did s, k.did = .ok did ∧ k.sign (Ucan.signingInput D ⟨k.alg, "JWT"⟩ (docPayload did aud (E.clock w.tick))) = .ok s ∧
        tok = Ucan.encode D ⟨⟨k.alg, "JWT"⟩, docPayload did aud (E.clock w.tick),
          Ucan.signingInput D ⟨k.alg, "JWT"⟩ (docPayload did aud (E.clock w.tick)), s⟩ := by
  have hb := Doc.build_eq E checked k aud w
  rw [if_neg (by omega)] at hb
  unfold Doc.generateToken
  rw [M.bind_of_ok hb]
  cases hd : k.did with
  | error e =>
    have : ∃ e', (⟨k, aud, [], some (E.clock w.tick + 60), none, [], [], false⟩ : Signable).sign D rnd = .error e' := by
      unfold Signable.sign Signable.ucanPayload
      simp only [hd]
      cases e <;> exact ⟨_, rfl⟩
    obtain ⟨e', he⟩ := this
    rw [he]
    constructor
    · rintro ⟨w', h⟩; cases h
    · rintro ⟨_, _, h, _⟩; cases h
  | ok did =>
    rw [Doc.sign_eq D k aud _ rnd did hd]
    cases hs : k.sign (Ucan.signingInput D ⟨k.alg, "JWT"⟩ (docPayload did aud (E.clock w.tick))) with
    | error e =>
      constructor
      · rintro ⟨w', h⟩; cases h
      · rintro ⟨_, _, h, h', _⟩; cases h; rw [hs] at h'; cases h'
    | ok s =>
      constructor
      · rintro ⟨w', h⟩
        exact ⟨did, s, rfl, hs, by cases h; rfl⟩
      · rintro ⟨_, _, h, h', rfl⟩
        cases h
        rw [hs] at h'
        cases h'
        exact ⟨_, rfl⟩

/-- C88: such a token reads back as what was asked for. -/
theorem C88_reads_back (D : Deps) (E : Env) (checked : Bool) (rnd : Bytes) (k : Key) (aud : String) (w w' : World)
    (ht : (E.clock w.tick).toNat + 60 < 2 ^ 64) (tok : String) (h : Doc.generateToken D E checked rnd k aud w = (.ok tok, w')) :
    ∃ u did, Ucan.fromStr D tok = .ok u ∧ k.did = .ok did ∧ u.payload = docPayload did aud (E.clock w.tick) ∧ k.sign u.signedData = .ok u.signature := by
  obtain ⟨did, s, hd, hs, rfl⟩ := (C88_generate D E checked rnd k aud w ht tok).1 ⟨w', h⟩
  refine ⟨_, did, C01_round_trip_general D _ ?_ rfl, hd, rfl, hs⟩
  refine ⟨by simp [docPayload, BMap.Sorted], by simp [docPayload], by simp [docPayload], by simp [docPayload], ?_⟩
  have := Codec.depth_payload (n := 10) (docPayload did aud (E.clock w.tick)) (by simp [docPayload]) (by omega) (by simp [docPayload])
  exact Nat.lt_of_le_of_lt this (by decide)

/-- C88: for the sixty seconds after that, any reader with a key type for the issuer accepts the token, whatever the store and the semantics, and
finds that it grants nothing. -/
theorem C88_accepted (D : Deps) (E : Env) (checked : Bool) (rnd : Bytes) (k : Key) (aud : String) (w w' : World)
    (ht : (E.clock w.tick).toNat + 60 < 2 ^ 64) (tok : String) (h : Doc.generateToken D E checked rnd k aud w = (.ok tok, w'))
    (types : List (Bytes × KeyCtor)) (key : Key) (hk : ∀ did, k.did = .ok did → Denotes (DidParser.new types).ctors did key) (ha : Accepts key k)
    (E' : Env) (tick : Nat) (hc : (E'.clock tick).toNat ≤ (E.clock w.tick).toNat + 60) (sem : Semantics S A) (fuel : Nat) :
    Doc.getCapabilities D E' types sem (fuel + 1) tok tick = .ok [] := by
  obtain ⟨u, did, hu, hd, hp, hs⟩ := C88_reads_back D E checked rnd k aud w w' ht tok h
  have hv : (u.validate E' none ⟨tick, DidParser.new types⟩).1 = .ok () := by
    refine (C12_validate_iff E' u none _ (DidParser.coherent_fresh _)).2 ⟨?_, ?_, key, ?_, ha _ _ hs⟩
    · intro e he
      rw [hp] at he
      cases he
      rw [UInt64.le_iff_toNat_le, UInt64.toNat_add]
      show (E'.clock tick).toNat ≤ ((E.clock w.tick).toNat + 60) % 2 ^ 64
      omega
    · intro n hn
      rw [hp] at hn
      cases hn
    · rw [hp]
      exact hk did hd
  have hv' : u.validate E' none ⟨tick, DidParser.new types⟩ = (.ok (), (u.validate E' none ⟨tick, DidParser.new types⟩).2) := by rw [← hv]
  have hch : ofToken D E' none (fuel + 1) tok ⟨tick, DidParser.new types⟩ = (.ok (.mk u [] []), (u.validate E' none ⟨tick, DidParser.new types⟩).2) := by
    rw [ofToken, M.bind_of_ok (a := u) (w1 := ⟨tick, DidParser.new types⟩) (by rw [M.lift_apply, hu])]
    unfold fromUcanWith
    rw [M.bind_of_ok hv']
    simp only [Ucan.proofs, hp, docPayload, Option.getD_none, proofsLoop]
    rw [M.bind_of_ok (M.pure_apply _ _)]
    have : redelegations D 0 u = .ok [] := by
      unfold redelegations
      simp only [Ucan.capabilities, hp, docPayload]
      rfl
    show ((M.lift (redelegations D 0 u)) >>= _) _ = _
    rw [this]
    rfl
  unfold Doc.getCapabilities
  rw [hch]
  show reduce D sem (.mk u [] []) = .ok []
  rw [reduce, reduceAll]
  unfold combine
  simp only [ancestral, redelegated, selfInfos, Ucan.capabilities, hp, docPayload]
  rfl

/-- C88: later, nobody accepts it. -/
theorem C88_expires (D : Deps) (E : Env) (checked : Bool) (rnd : Bytes) (k : Key) (aud : String) (w w' : World)
    (ht : (E.clock w.tick).toNat + 60 < 2 ^ 64) (tok : String) (h : Doc.generateToken D E checked rnd k aud w = (.ok tok, w'))
    (types : List (Bytes × KeyCtor)) (E' : Env) (tick : Nat) (hc : (E.clock w.tick).toNat + 60 < (E'.clock tick).toNat) (sem : Semantics S A) (fuel : Nat) :
    Doc.getCapabilities D E' types sem (fuel + 1) tok tick = err .expired := by
  obtain ⟨u, did, hu, hd, hp, hs⟩ := C88_reads_back D E checked rnd k aud w w' ht tok h
  have hx : u.isExpired E' none ⟨tick, DidParser.new types⟩ = (.ok true, ⟨tick + 1, DidParser.new types⟩) := by
    unfold Ucan.isExpired
    simp only [hp, docPayload]
    have hn : E'.now ⟨tick, DidParser.new types⟩ = (.ok (E'.clock tick), ⟨tick + 1, DidParser.new types⟩) := rfl
    rw [M.bind_of_ok hn, M.pure_apply]
    have : decide (E.clock w.tick + 60 < E'.clock tick) = true := by
      rw [decide_eq_true_iff, UInt64.lt_iff_toNat_lt, UInt64.toNat_add]
      show ((E.clock w.tick).toNat + 60) % 2 ^ 64 < _
      omega
    rw [this]
  have hv : u.validate E' none ⟨tick, DidParser.new types⟩ = (err .expired, ⟨tick + 1, DidParser.new types⟩) := by
    unfold Ucan.validate
    rw [M.bind_of_ok hx]
    rfl
  unfold Doc.getCapabilities
  rw [ofToken, M.bind_of_ok (a := u) (w1 := ⟨tick, DidParser.new types⟩) (by rw [M.lift_apply, hu])]
  unfold fromUcanWith
  rw [M.bind_of_error hv]

/-- C88: with the list of key types as documented, no token is ever accepted. -/
theorem C88_no_key_types (D : Deps) (E : Env) (sem : Semantics S A) (fuel : Nat) (token : String) (tick : Nat) (out : List (Info S A)) :
    Doc.getCapabilities D E Doc.supportedKeyTypes sem fuel token tick ≠ .ok out := by
  intro h
  unfold Doc.getCapabilities at h
  split at h
  · cases h
  · rename_i c w' hc
    cases fuel with
    | zero => cases hc
    | succ fuel =>
    rw [ofToken] at hc
    obtain ⟨u, w1, hu, hc⟩ := M.bind_ok.1 hc
    cases hu.symm.trans (M.lift_apply _ _) |> congrArg Prod.snd
    unfold fromUcanWith at hc
    obtain ⟨_, w2, hv, _⟩ := M.bind_ok.1 hc
    have hs : (u.validate E none ⟨tick, DidParser.new Doc.supportedKeyTypes⟩).1 = .ok () := by rw [hv]
    obtain ⟨_, _, key, ⟨_, _, _, _, _, hg, _⟩, _⟩ := (C12_validate_iff E u none _ (DidParser.coherent_fresh _)).1 hs
    cases hg

namespace Ex

/-- Beside C88: a toy key at time 7, read by a service at time 67, and refused at 68. -/
theorem documented (D : Deps) : ∃ tok, (∃ w', Doc.generateToken D ⟨fun _ => 7, fun _ _ => .ok none⟩ true [] (toyKey 1) "did:key:z3" ⟨0, ⟨[], []⟩⟩ = (.ok tok, w')) ∧
    Doc.getCapabilities D ⟨fun _ => 67, fun _ _ => .ok none⟩ toyCtors mailSem 5 tok 3 = .ok [] ∧
    Doc.getCapabilities D ⟨fun _ => 68, fun _ _ => .ok none⟩ toyCtors mailSem 5 tok 3 = err .expired := by
  obtain ⟨did, key, hd, hk, ha⟩ := toy_denotes 1
  have hg : ∃ tok w', Doc.generateToken D ⟨fun _ => 7, fun _ _ => .ok none⟩ true [] (toyKey 1) "did:key:z3" ⟨0, ⟨[], []⟩⟩ = (.ok tok, w') :=
    have := (C88_generate D ⟨fun _ => 7, fun _ _ => .ok none⟩ true [] (toyKey 1) "did:key:z3" ⟨0, ⟨[], []⟩⟩ (by decide) _).2 ⟨did, _, hd, rfl, rfl⟩
    ⟨_, this⟩
  obtain ⟨tok, w', hg⟩ := hg
  have hnew : (DidParser.new toyCtors).ctors = toyCtors := rfl
  exact ⟨tok, ⟨w', hg⟩,
    C88_accepted D _ true [] (toyKey 1) _ _ _ (by decide) tok hg toyCtors key (fun d h => by rw [hd] at h; cases h; rw [hnew]; exact hk) ha _ 3 (by decide) mailSem 4,
    C88_expires D _ true [] (toyKey 1) _ _ _ (by decide) tok hg toyCtors _ 3 (by decide) mailSem 4⟩

end Ex

end Verif
