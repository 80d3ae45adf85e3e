import Verif.Props.DidKey
import Verif.Props.WebKey
import Verif.Spec.Verify

/-! # Property C86: signatures are checked by the cryptographic libraries -/

namespace Verif
open Spec KeySupport Chain

/-- C86: a key verifies exactly what its signature scheme verifies with its public key. -/
theorem C86_verify (sc : SigScheme) (pub : sc.Pub) (priv : Option sc.Priv) (m s : Bytes) :
    ((ed25519Key sc pub priv).verify m s = .ok () ↔ sc.verify pub m s = true) ∧ ((p256Key sc pub priv).verify m s = .ok () ↔ sc.verify pub m s = true) ∧
    ((rsaKey sc pub priv).verify m s = .ok () ↔ sc.verify pub m s = true) := by
  have h : verifyWith sc pub m s = .ok () ↔ sc.verify pub m s = true := by
    unfold verifyWith
    split
    · exact ⟨fun _ => ‹_›, fun _ => rfl⟩
    · exact ⟨fun h => (by cases h), fun h => absurd h ‹_›⟩
  exact ⟨h, h, h⟩

/-- C86: and reports everything else as an error. -/
theorem C86_refuses (sc : SigScheme) (pub : sc.Pub) (priv : Option sc.Priv) (m s : Bytes) (h : sc.verify pub m s = false) :
    (ed25519Key sc pub priv).verify m s = err .badSignature ∧ (p256Key sc pub priv).verify m s = err .badSignature ∧
    (rsaKey sc pub priv).verify m s = err .badSignature := by
  have h : verifyWith sc pub m s = err .badSignature := by
    unfold verifyWith
    rw [h]; rfl
  exact ⟨h, h, h⟩

/-- C86: a key signs exactly as its signature scheme signs with its private key; without one it does not. -/
theorem C86_sign (sc : SigScheme) (pub : sc.Pub) (priv : Option sc.Priv) (m s : Bytes) :
    ((ed25519Key sc pub priv).sign m = .ok s ↔ ∃ k, priv = some k ∧ sc.sign k m = some s) ∧
    ((p256Key sc pub priv).sign m = .ok s ↔ ∃ k, priv = some k ∧ sc.sign k m = some s) ∧
    ((rsaKey sc pub priv).sign m = .ok s ↔ ∃ k, priv = some k ∧ sc.sign k m = some s) := by
  have h : signWith sc priv m = .ok s ↔ ∃ k, priv = some k ∧ sc.sign k m = some s := by
    cases priv with
    | none => exact ⟨fun h => (by cases h), fun ⟨_, h, _⟩ => (by cases h)⟩
    | some k =>
      constructor
      · intro h; exact ⟨k, rfl, orErr_eq_ok.1 h⟩
      · rintro ⟨_, e, h⟩; cases e; exact orErr_eq_ok.2 h
  exact ⟨h, h, h⟩

/-- C86 for WebCrypto keys: the answer of the JavaScript environment decides, and a missing answer is not taken for a good one. -/
theorem C86_web (sc : SigScheme) (js : WebCrypto) (m s : Bytes) :
    ((webKey sc js).verify m s = .ok () ↔ js.subtle = .ok () ∧ js.verify m s = some true) ∧
    ((webKey sc js).sign m = .ok s ↔ js.hasPrivate = true ∧ js.subtle = .ok () ∧ js.sign m = some s) := by
  constructor
  · show webVerify js m s = _ ↔ _
    unfold webVerify
    cases js.subtle with
    | error e => simp
    | ok _ =>
      rcases js.verify m s with _ | _ | _ <;> simp [err]
  · show webSign js m = _ ↔ _
    unfold webSign
    cases js.hasPrivate with
    | false => simp [err]
    | true =>
      cases js.subtle with
      | error e => simp
      | ok _ => simp [orErr_eq_ok]

/-- C86: signing and verifying with a key of the three kinds never panics, nor does asking for its DID or constructing it from bytes. -/
theorem C86_no_panic (sc : SigScheme) (pub : sc.Pub) (priv : Option sc.Priv) (m s : Bytes) (q : Panic) (key : Key)
    (h : key = ed25519Key sc pub priv ∨ key = p256Key sc pub priv ∨ key = rsaKey sc pub priv) :
    key.verify m s ≠ .error (.panic q) ∧ key.sign m ≠ .error (.panic q) ∧ key.did ≠ .error (.panic q) ∧
    ed25519Ctor sc m ≠ .error (.panic q) ∧ p256Ctor sc m ≠ .error (.panic q) ∧ rsaCtor sc m ≠ .error (.panic q) := by
  have hv : verifyWith sc pub m s ≠ .error (.panic q) := by
    unfold verifyWith
    split <;> simp [err]
  have hs : signWith sc priv m ≠ .error (.panic q) := by
    unfold signWith
    cases priv with
    | none => simp [err]
    | some k => cases hk : sc.sign k m <;> simp [orErr, hk, err]
  have hc : ed25519Ctor sc m ≠ .error (.panic q) ∧ p256Ctor sc m ≠ .error (.panic q) ∧ rsaCtor sc m ≠ .error (.panic q) := by
    refine ⟨?_, ?_, ?_⟩
    · unfold ed25519Ctor; split <;> simp [err]
    · unfold p256Ctor; split <;> simp [err]
    · unfold rsaCtor; split <;> simp [err]
  rcases h with rfl | rfl | rfl
  · exact ⟨hv, hs, fun h => (by cases h), hc⟩
  · exact ⟨hv, hs, fun h => (by cases h), hc⟩
  · exact ⟨hv, hs, fun h => (by cases h), hc⟩

/-- C86: a WebCrypto key panics when it verifies or signs only if finding the environment's cryptography does; when asked for its DID also
if the environment does not export the public key or exports less than 24 bytes. -/
theorem C86_web_panics (sc : SigScheme) (js : WebCrypto) (m s : Bytes) (q : Panic) :
    ((webKey sc js).verify m s = .error (.panic q) ↔ js.subtle = .error (.panic q)) ∧
    ((webKey sc js).sign m = .error (.panic q) ↔ js.hasPrivate = true ∧ js.subtle = .error (.panic q)) ∧
    ((webKey sc js).did = .error (.panic q) ↔ js.subtle = .error (.panic q) ∨
      js.subtle = .ok () ∧ (js.exportSpki = none ∧ q = .expectCrypto ∨ ∃ b, js.exportSpki = some b ∧ b.length < 24 ∧ q = .sliceSpki)) := by
  refine ⟨?_, ?_, ?_⟩
  · show webVerify js m s = _ ↔ _
    unfold webVerify
    cases js.subtle with
    | error e => simp
    | ok _ => rcases js.verify m s with _ | _ | _ <;> simp [err]
  · show webSign js m = _ ↔ _
    unfold webSign
    cases js.hasPrivate with
    | false => simp [err]
    | true =>
      cases js.subtle with
      | error e => simp
      | ok _ => cases hk : js.sign m <;> simp [orErr, err]
  · show webDid sc js = _ ↔ _
    unfold webDid
    cases js.subtle with
    | error e => simp
    | ok _ =>
      cases js.exportSpki with
      | none => simp [panicked, eq_comm]
      | some b =>
        simp only [convertSpki]
        by_cases hb : b.length < 24
        · simp [hb, panicked, eq_comm]
        · simp only [hb, if_false]
          cases sc.pubOfBytes (b.drop 24) with
          | none => simp [hb, err]
          | some p => simp [hb, rsaKey]

theorem Spec.Standard.denotes {ed p256 rsa : SigScheme} {ctors : BMap Bytes KeyCtor} (h : Standard ed p256 rsa ctors) (did : String) (key : Key) :
    Denotes ctors did key ↔ (∃ b k, DidKey 0xed b did ∧ ed.pubOfBytes b = some k ∧ key = ed25519Key ed k none) ∨
      (∃ b k, DidKey 0x1200 b did ∧ p256.pubOfBytes b = some k ∧ key = p256Key p256 k none) ∨
      ∃ b k, DidKey 0x1205 b did ∧ rsa.pubOfBytes b = some k ∧ key = rsaKey rsa k none := by
  have e1 := fun b => didKey_iff .ed25519 b did
  have e2 := fun b => didKey_iff .p256 b did
  have e3 := fun b => didKey_iff .rsa b did
  constructor
  · rintro ⟨b0, b1, rest, ctor, hd, hg, hk⟩
    rcases h.only _ _ hg with hm | hm | hm
    · rw [hm, h.ed25519] at hg
      cases hg
      unfold ed25519Ctor at hk
      split at hk
      · rename_i k hb
        refine Or.inl ⟨rest, k, (e1 rest).2 (strBytes_inj ?_), hb, (Except.ok.inj hk).symm⟩
        rw [hd, strBytes_didOf]
        show _ ++ Base58.encode ([b0, b1] ++ rest) = _
        rw [hm]; rfl
      · cases hk
    · rw [hm, h.p256] at hg
      cases hg
      unfold p256Ctor at hk
      split at hk
      · rename_i k hb
        refine Or.inr (Or.inl ⟨rest, k, (e2 rest).2 (strBytes_inj ?_), hb, (Except.ok.inj hk).symm⟩)
        rw [hd, strBytes_didOf]
        show _ ++ Base58.encode ([b0, b1] ++ rest) = _
        rw [hm]; rfl
      · cases hk
    · rw [hm, h.rsa] at hg
      cases hg
      unfold rsaCtor at hk
      split at hk
      · rename_i k hb
        refine Or.inr (Or.inr ⟨rest, k, (e3 rest).2 (strBytes_inj ?_), hb, (Except.ok.inj hk).symm⟩)
        rw [hd, strBytes_didOf]
        show _ ++ Base58.encode ([b0, b1] ++ rest) = _
        rw [hm]; rfl
      · cases hk
  · rintro (⟨b, k, hd, hb, rfl⟩ | ⟨b, k, hd, hb, rfl⟩ | ⟨b, k, hd, hb, rfl⟩)
    · rw [show did = _ from (e1 b).1 hd]
      exact denotes_didOf h.ed25519 (by show ed25519Ctor ed b = _; unfold ed25519Ctor; rw [hb])
    · rw [show did = _ from (e2 b).1 hd]
      exact denotes_didOf h.p256 (by show p256Ctor p256 b = _; unfold p256Ctor; rw [hb])
    · rw [show did = _ from (e3 b).1 hd]
      exact denotes_didOf h.rsa (by show rsaCtor rsa b = _; unfold rsaCtor; rw [hb])

/-- C86: with the three key types of the library, the issuer's signature is accepted exactly if the issuer is the did:key of an Ed25519, P-256 or RSA public
key for which the respective cryptographic library accepts it. -/
theorem C86_authentic (ed p256 rsa : SigScheme) (ctors : BMap Bytes KeyCtor) (h : Standard ed p256 rsa ctors) (u : Ucan) :
    Authentic ctors u ↔ Endorsed ed p256 rsa u.payload.iss u.signedData u.signature := by
  unfold Authentic Endorsed GoodUnder
  constructor
  · rintro ⟨key, hk, hv⟩
    rcases (h.denotes _ _).1 hk with ⟨b, k, hd, hb, rfl⟩ | ⟨b, k, hd, hb, rfl⟩ | ⟨b, k, hd, hb, rfl⟩
    · exact Or.inl ⟨b, k, hd, hb, (C86_verify _ _ _ _ _).1.1 hv⟩
    · exact Or.inr (Or.inl ⟨b, k, hd, hb, (C86_verify _ _ _ _ _).2.1.1 hv⟩)
    · exact Or.inr (Or.inr ⟨b, k, hd, hb, (C86_verify _ _ _ _ _).2.2.1 hv⟩)
  · rintro (⟨b, k, hd, hb, hv⟩ | ⟨b, k, hd, hb, hv⟩ | ⟨b, k, hd, hb, hv⟩)
    · exact ⟨_, (h.denotes _ _).2 (Or.inl ⟨b, k, hd, hb, rfl⟩), (C86_verify _ _ _ _ _).1.2 hv⟩
    · exact ⟨_, (h.denotes _ _).2 (Or.inr (Or.inl ⟨b, k, hd, hb, rfl⟩)), (C86_verify _ _ _ _ _).2.1.2 hv⟩
    · exact ⟨_, (h.denotes _ _).2 (Or.inr (Or.inr ⟨b, k, hd, hb, rfl⟩)), (C86_verify _ _ _ _ _).2.2.2 hv⟩

/-- C86 for `validate`. -/
theorem C86_validate (ed p256 rsa : SigScheme) (E : Env) (u : Ucan) (nowTime : Option UInt64) (w : World) (hc : Coherent w.parser)
    (h : Standard ed p256 rsa w.parser.ctors) :
    (u.validate E nowTime w).1 = .ok () ↔ Unexpired u (nowTime.getD (E.clock w.tick)) ∧ Active u (E.clock (w.tick + expiryReads u nowTime)) ∧
      Endorsed ed p256 rsa u.payload.iss u.signedData u.signature := by
  rw [C12_validate_iff E u nowTime w hc, C86_authentic ed p256 rsa _ h]

/-- C86 for chains: every token at every depth carries such a signature. -/
theorem C86_chain (ed p256 rsa : SigScheme) {D : Deps} {E : Env} {nowTime : Option UInt64} {w w' : World} {c : Chain} (hc : Coherent w.parser)
    (h : Standard ed p256 rsa w.parser.ctors) (hb : Built D E nowTime w w' c) (d : Chain) (hd : Sub d c) :
    Endorsed ed p256 rsa d.ucan.payload.iss d.ucan.signedData d.ucan.signature :=
  (C86_authentic ed p256 rsa _ h _).1 (C21_all_valid hc hb d hd).authentic

/-- C86: so what C43 and C65 assume of the keys follows from what is assumed of the schemes. -/
theorem C86_unforgeable (ed p256 rsa : SigScheme) (ctors : BMap Bytes KeyCtor) (h : Standard ed p256 rsa ctors) (hEd hP hR : Bytes → Bytes → Prop)
    (h1 : SchemeUnforgeable ed hEd) (h2 : SchemeUnforgeable p256 hP) (h3 : SchemeUnforgeable rsa hR) : Unforgeable ctors (SignedFor hEd hP hR) := by
  intro did key hk m s hv
  rcases (h.denotes _ _).1 hk with ⟨b, k, hd, hb, rfl⟩ | ⟨b, k, hd, hb, rfl⟩ | ⟨b, k, hd, hb, rfl⟩
  · exact Or.inl ⟨b, hd, h1 b k hb m s ((C86_verify _ _ _ _ _).1.1 hv)⟩
  · exact Or.inr (Or.inl ⟨b, hd, h2 b k hb m s ((C86_verify _ _ _ _ _).2.1.1 hv)⟩)
  · exact Or.inr (Or.inr ⟨b, hd, h3 b k hb m s ((C86_verify _ _ _ _ _).2.2.1 hv)⟩)

/-- C86 and C43 together: if the schemes cannot be forged and the keys were used to sign UCANs of this library only, then every token that parses and validates
has the content of one of those, signed for the key its issuer names. -/
theorem C86_token (ed p256 rsa : SigScheme) (D : Deps) (E : Env) (nowTime : Option UInt64) (w : World) (hc : Coherent w.parser)
    (h : Standard ed p256 rsa w.parser.ctors) (hEd hP hR : Bytes → Bytes → Prop) (h1 : SchemeUnforgeable ed hEd) (h2 : SchemeUnforgeable p256 hP)
    (h3 : SchemeUnforgeable rsa hR) (Signed : Ucan → Prop) (ho : OnlyUcans (SignedFor hEd hP hR) Signed) (hs : ∀ u, Signed u → SignedHere D u) (t : String) (u : Ucan)
    (hp : Ucan.fromStr D t = .ok u) (hv : (u.validate E nowTime w).1 = .ok ()) : ∃ u', Signed u' ∧ u'.header = u.header ∧ u'.payload = u.payload :=
  C43_token D E nowTime w hc _ Signed (C86_unforgeable ed p256 rsa _ h hEd hP hR h1 h2 h3) ho hs t u hp hv

/-- C86: a public key with a second serialisation (P-256 points are read compressed and uncompressed) has a second DID. Tokens issued under it validate with the
same key, whose `get_did` however gives the first one. -/
theorem C86_alias (sc : SigScheme) (pub : sc.Pub) (b b' : Bytes) (he : Exports sc pub b) (hb : sc.pubOfBytes b' = some pub) (hne : b ≠ b')
    (p : DidParser) (hc : Coherent p) (hreg : BMap.get? p.ctors Did.p256Magic = some (p256Ctor sc)) (did' : String) (hd : DidKey 0x1200 b' did') :
    (p.parse did').1 = .ok (p256Key sc pub none) ∧ ∃ did, (p256Key sc pub none).did = .ok did ∧ did ≠ did' := by
  have e := (didKey_iff .p256 b' did').1 hd
  refine ⟨?_, didOf (Did.p256Magic ++ b), ?_, ?_⟩
  · rw [DidParser.parse_ok_iff hc, e]
    exact denotes_didOf hreg (by show p256Ctor sc b' = _; unfold p256Ctor; rw [hb])
  · show Except.ok (didOf (Did.p256Magic ++ (sc.pubBytes pub).getD [])) = _
    rw [he.writes]; rfl
  · rw [e]
    intro h
    exact hne (C41_types_differ _ _ b b' (by decide) (by decide) h).2

namespace Ex86

/-- A table with all three key types over the toy scheme. -/
def allCtors : BMap Bytes KeyCtor :=
  BMap.ofList [(Did.ed25519Magic, ed25519Ctor toyScheme), (Did.p256Magic, p256Ctor toyScheme), (Did.rsaMagic, rsaCtor toyScheme)]

theorem allCtors_standard : Standard toyScheme toyScheme toyScheme allCtors := by
  refine ⟨rfl, rfl, rfl, ?_⟩
  intro m c h
  have e : allCtors = [(Did.p256Magic, p256Ctor toyScheme), (Did.rsaMagic, rsaCtor toyScheme), (Did.ed25519Magic, ed25519Ctor toyScheme)] := rfl
  rw [e] at h
  have := BMap.mem_of_get? h
  simp only [List.mem_cons, List.not_mem_nil, or_false, Prod.mk.injEq] at this
  rcases this with ⟨h, _⟩ | ⟨h, _⟩ | ⟨h, _⟩ <;> simp [h]

/-- Beside C86: a token of the toy key 7 validates, and the same token with another signature does not. -/
example (D : Deps) : Authentic allCtors (Ucan.new ⟨"EdDSA", "JWT"⟩ foreignPayload (Ucan.signingInput D ⟨"EdDSA", "JWT"⟩ foreignPayload)
    (7 :: Ucan.signingInput D ⟨"EdDSA", "JWT"⟩ foreignPayload)) ∧
    ¬ Authentic allCtors (Ucan.new ⟨"EdDSA", "JWT"⟩ foreignPayload (Ucan.signingInput D ⟨"EdDSA", "JWT"⟩ foreignPayload) []) := by
  have hd : Denotes allCtors (didOf [0xed, 1, 7]) (ed25519Key toyScheme (7 : UInt8) none) := denotes_didOf rfl rfl
  refine ⟨⟨_, hd, toy_verifies 7 _⟩, ?_⟩
  rintro ⟨key, hk, hv⟩
  cases C40_denotes_unique _ _ _ _ hk hd
  cases hv

end Ex86
end Verif
