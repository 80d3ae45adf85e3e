import Verif.Props.Chain
import Verif.Props.Token
import Verif.Spec.Crypto

/-! # Properties C41-C43, C58 and C59: keys and signatures -/

namespace Verif
open Spec KeySupport

/-! ## C41 Key material -/

theorem KeySupport.strBytes_didOf (b : Bytes) : strBytes (didOf b) = strBytes "did:key:z" ++ Base58.encode b := by
  unfold didOf
  rw [strBytes_append, strBytes_asciiStr (Base58.encode_ascii b)]

/-- The DID of a byte string with a registered prefix denotes what the constructor makes of the rest. -/
theorem KeySupport.denotes_didOf {ctors : BMap Bytes KeyCtor} {b0 b1 : UInt8} {rest : Bytes} {ctor : KeyCtor} {key : Key}
    (hc : BMap.get? ctors [b0, b1] = some ctor) (hk : ctor rest = .ok key) : Denotes ctors (didOf (b0 :: b1 :: rest)) key :=
  ⟨b0, b1, rest, ctor, strBytes_didOf _, hc, hk⟩

/-- C41, Ed25519: a parser that knows Ed25519 makes of the key's DID a key that verifies whatever the key signs. -/
theorem C41_ed25519 (sc : SigScheme) (pub : sc.Pub) (priv : Option sc.Priv) (b : Bytes) (he : Exports sc pub b)
    (hm : ∀ k, priv = some k → Matches sc pub k) (p : DidParser) (hc : Coherent p)
    (hreg : BMap.get? p.ctors Did.ed25519Magic = some (ed25519Ctor sc)) :
    ∃ did key, (ed25519Key sc pub priv).did = .ok did ∧ (p.parse did).1 = .ok key ∧ Accepts key (ed25519Key sc pub priv) ∧ key.did = .ok did ∧
      key.alg = (ed25519Key sc pub priv).alg := by
  refine ⟨didOf (Did.ed25519Magic ++ b), ed25519Key sc pub none, ?_, ?_, ?_, ?_, rfl⟩
  · show Except.ok (didOf (Did.ed25519Magic ++ (sc.pubBytes pub).getD [])) = _
    rw [he.writes]; rfl
  · rw [DidParser.parse_ok_iff hc]
    exact denotes_didOf hreg (by show ed25519Ctor sc b = _; unfold ed25519Ctor; rw [he.reads])
  · intro m s hs
    show (if sc.verify pub m s = true then Except.ok () else _) = _
    cases priv with
    | none => cases hs
    | some k => rw [if_pos (hm k rfl m s (orErr_eq_ok.1 hs))]
  · show Except.ok (didOf (Did.ed25519Magic ++ (sc.pubBytes pub).getD [])) = _
    rw [he.writes]; rfl

/-- C41, P-256. -/
theorem C41_p256 (sc : SigScheme) (pub : sc.Pub) (priv : Option sc.Priv) (b : Bytes) (he : Exports sc pub b)
    (hm : ∀ k, priv = some k → Matches sc pub k) (p : DidParser) (hc : Coherent p)
    (hreg : BMap.get? p.ctors Did.p256Magic = some (p256Ctor sc)) :
    ∃ did key, (p256Key sc pub priv).did = .ok did ∧ (p.parse did).1 = .ok key ∧ Accepts key (p256Key sc pub priv) ∧ key.did = .ok did ∧
      key.alg = (p256Key sc pub priv).alg := by
  refine ⟨didOf (Did.p256Magic ++ b), p256Key sc pub none, ?_, ?_, ?_, ?_, rfl⟩
  · show Except.ok (didOf (Did.p256Magic ++ (sc.pubBytes pub).getD [])) = _
    rw [he.writes]; rfl
  · rw [DidParser.parse_ok_iff hc]
    exact denotes_didOf hreg (by show p256Ctor sc b = _; unfold p256Ctor; rw [he.reads])
  · intro m s hs
    show (if sc.verify pub m s = true then Except.ok () else _) = _
    cases priv with
    | none => cases hs
    | some k => rw [if_pos (hm k rfl m s (orErr_eq_ok.1 hs))]
  · show Except.ok (didOf (Did.p256Magic ++ (sc.pubBytes pub).getD [])) = _
    rw [he.writes]; rfl

/-- C41, RSA. -/
theorem C41_rsa (sc : SigScheme) (pub : sc.Pub) (priv : Option sc.Priv) (b : Bytes) (he : Exports sc pub b)
    (hm : ∀ k, priv = some k → Matches sc pub k) (p : DidParser) (hc : Coherent p)
    (hreg : BMap.get? p.ctors Did.rsaMagic = some (rsaCtor sc)) :
    ∃ did key, (rsaKey sc pub priv).did = .ok did ∧ (p.parse did).1 = .ok key ∧ Accepts key (rsaKey sc pub priv) ∧ key.did = .ok did ∧
      key.alg = (rsaKey sc pub priv).alg := by
  have hd : ∀ pr, (rsaKey sc pub pr).did = .ok (didOf (Did.rsaMagic ++ b)) := by
    intro pr
    show Except.ok (didOf (match sc.pubBytes pub with | some b => Did.rsaMagic ++ b | none => [])) = _
    rw [he.writes]
  refine ⟨didOf (Did.rsaMagic ++ b), rsaKey sc pub none, hd priv, ?_, ?_, hd none, rfl⟩
  · rw [DidParser.parse_ok_iff hc]
    exact denotes_didOf hreg (by show rsaCtor sc b = _; unfold rsaCtor; rw [he.reads])
  · intro m s hs
    show (if sc.verify pub m s = true then Except.ok () else _) = _
    cases priv with
    | none => cases hs
    | some k => rw [if_pos (hm k rfl m s (orErr_eq_ok.1 hs))]

/-- C41: a key without private part refuses to sign; the answer is an error, not a panic. -/
theorem C41_no_private_key (sc : SigScheme) (pub : sc.Pub) (m : Bytes) :
    (ed25519Key sc pub none).sign m = err .noPrivateKey ∧ (p256Key sc pub none).sign m = err .noPrivateKey ∧
    (rsaKey sc pub none).sign m = err .noPrivateKey := ⟨rfl, rfl, rfl⟩

/-- C41: so keys made by the parser cannot sign. -/
theorem C41_parsed_keys_cannot_sign (sc : SigScheme) (b : Bytes) (key : Key) (m : Bytes)
    (h : ed25519Ctor sc b = .ok key ∨ p256Ctor sc b = .ok key ∨ rsaCtor sc b = .ok key) : key.sign m = err .noPrivateKey := by
  unfold ed25519Ctor p256Ctor rsaCtor at h
  rcases h with h | h | h
  · split at h
    · injection h with h; rw [← h]; rfl
    · cases h
  · split at h
    · injection h with h; rw [← h]; rfl
    · cases h
  · split at h
    · injection h with h; rw [← h]; rfl
    · cases h

/-- C41: DIDs of keys of different types differ. -/
theorem C41_types_differ (m m' b b' : Bytes) (hm : m ∈ [Did.ed25519Magic, Did.rsaMagic, Did.bls12381g1Magic, Did.bls12381g2Magic, Did.p256Magic, Did.secp256k1Magic])
    (hm' : m' ∈ [Did.ed25519Magic, Did.rsaMagic, Did.bls12381g1Magic, Did.bls12381g2Magic, Did.p256Magic, Did.secp256k1Magic])
    (h : didOf (m ++ b) = didOf (m' ++ b')) : m = m' ∧ b = b' := by
  have h := congrArg strBytes h
  rw [strBytes_didOf, strBytes_didOf, List.append_cancel_left_eq] at h
  have h := C40_injective _ _ h
  have hlen : ∀ x ∈ [Did.ed25519Magic, Did.rsaMagic, Did.bls12381g1Magic, Did.bls12381g2Magic, Did.p256Magic, Did.secp256k1Magic], x.length = 2 := by
    decide
  exact List.append_inj h (by rw [hlen m hm, hlen m' hm'])

/-- C41: keys of the same type with different public bytes have different DIDs. -/
theorem C41_keys_differ (sc : SigScheme) (pub pub' : sc.Pub) (priv priv' : Option sc.Priv) (b b' : Bytes) (he : Exports sc pub b)
    (he' : Exports sc pub' b') (h : (ed25519Key sc pub priv).did = (ed25519Key sc pub' priv').did ∨
      (p256Key sc pub priv).did = (p256Key sc pub' priv').did ∨ (rsaKey sc pub priv).did = (rsaKey sc pub' priv').did) : pub = pub' := by
  have key : ∀ m ∈ [Did.ed25519Magic, Did.rsaMagic, Did.bls12381g1Magic, Did.bls12381g2Magic, Did.p256Magic, Did.secp256k1Magic],
      didOf (m ++ b) = didOf (m ++ b') → pub = pub' := by
    intro m hm h
    have := (C41_types_differ _ _ b b' hm hm h).2
    have h1 := he.reads
    rw [this, he'.reads] at h1
    exact (Option.some.inj h1).symm
  have hr : ∀ (p : sc.Pub) pr (b : Bytes), sc.pubBytes p = some b → (rsaKey sc p pr).did = .ok (didOf (Did.rsaMagic ++ b)) := by
    intro p pr b hb
    show Except.ok (didOf (match sc.pubBytes p with | some b => Did.rsaMagic ++ b | none => [])) = _
    rw [hb]
  rcases h with h | h | h
  · injection h with h
    rw [he.writes, he'.writes] at h
    exact key _ (by simp) h
  · injection h with h
    rw [he.writes, he'.writes] at h
    exact key _ (by simp) h
  · rw [hr _ _ _ he.writes, hr _ _ _ he'.writes] at h
    injection h with h
    exact key _ (by simp) h

/-- C41: an RSA public key that cannot be serialised is given the DID `did:key:z`, which makes every parser panic. -/
theorem C41_rsa_swallowed (sc : SigScheme) (pub : sc.Pub) (priv : Option sc.Priv) (h : sc.pubBytes pub = none) (ctors : BMap Bytes KeyCtor) (p : DidParser)
    (hp : Reachable ctors p) : (rsaKey sc pub priv).did = .ok "did:key:z" ∧ (p.parse "did:key:z").1 = panicked .sliceDid := by
  refine ⟨?_, C39_short_did_panics ctors p hp⟩
  show Except.ok (didOf (match sc.pubBytes pub with | some b => Did.rsaMagic ++ b | none => [])) = _
  rw [h]
  rfl

/-- A toy scheme beside C41 and C42: the signature is the key followed by the message. -/
def toyScheme : SigScheme where
  Pub := UInt8
  Priv := UInt8
  pubBytes p := some [p]
  pubOfBytes b := match b with
    | [p] => some p
    | _ => none
  sign k m := some (k :: m)
  verify p m s := decide (s = p :: m)

theorem toy_exports (p : UInt8) : Exports toyScheme p [p] := ⟨rfl, rfl⟩
theorem toy_matches (p : UInt8) : Matches toyScheme p p := by
  intro m s h
  cases h
  exact decide_eq_true rfl

def toyCtors : BMap Bytes KeyCtor := [(Did.p256Magic, p256Ctor toyScheme), (Did.ed25519Magic, ed25519Ctor toyScheme)]

example : ∃ did key, (ed25519Key toyScheme (7 : UInt8) (some (7 : UInt8))).did = .ok did ∧ (DidParser.parse ⟨toyCtors, []⟩ did).1 = .ok key ∧
    Accepts key (ed25519Key toyScheme (7 : UInt8) (some (7 : UInt8))) ∧ key.did = .ok did ∧ key.alg = "EdDSA" :=
  C41_ed25519 toyScheme (7 : UInt8) (some (7 : UInt8)) [7] (toy_exports 7) (fun k h => by cases h; exact toy_matches 7) _ (DidParser.coherent_fresh _) rfl

/-! ## C42 What is signed validates -/

/-- A signed UCAN is authentic for every parser that makes of the issuer's DID a key that accepts the issuer's signatures. -/
theorem sign_authentic {D : Deps} {s : Signable} {rnd : Bytes} {u : Ucan} (h : s.sign D rnd = .ok u) {ctors : BMap Bytes KeyCtor} {key : Key}
    (hk : ∀ did, s.issuer.did = .ok did → Denotes ctors did key) (ha : Accepts key s.issuer) : Authentic ctors u := by
  obtain ⟨hp, _, _, hs⟩ := sign_ok h
  exact ⟨key, hk _ (ucanPayload_ok hp).1, ha _ _ hs⟩

/-- C42: a signed UCAN is accepted exactly in its window. -/
theorem C42_signed_validates (D : Deps) (s : Signable) (rnd : Bytes) (u : Ucan) (h : s.sign D rnd = .ok u) (w : World) (hc : Coherent w.parser)
    (key : Key) (hk : ∀ did, s.issuer.did = .ok did → Denotes w.parser.ctors did key) (ha : Accepts key s.issuer)
    (E : Env) (t : UInt64) (ht : ∀ i, E.clock i = t) :
    (u.validate E none w).1 = .ok () ↔ Within s.notBefore s.expiration t.toNat := by
  have hp := ucanPayload_ok (sign_ok h).1
  rw [C12_window_partial E u none w hc t ht (Or.inl rfl)]
  unfold InLifetime
  rw [hp.2.2.2.2.1, hp.2.2.2.2.2.1]
  exact ⟨fun x => x.1, fun x => ⟨x, sign_authentic h hk ha⟩⟩

/-- C42: outside the window the answer is the corresponding error. -/
theorem C42_rejected (E : Env) (u : Ucan) (w : World) (t : UInt64) (ht : ∀ i, E.clock i = t) :
    (∀ e, u.payload.exp = some e → e < t → (u.validate E none w).1 = err .expired) ∧
    (∀ n, u.payload.nbf = some n → t < n → (∀ e, u.payload.exp = some e → t ≤ e) → (u.validate E none w).1 = err .tooEarly) := by
  refine ⟨?_, ?_⟩
  · intro e he hlt
    have hx : u.isExpired E none w = (.ok true, { w with tick := w.tick + 1 }) := by
      rw [isExpired_eq, he]
      simp [ht, hlt]
    unfold Ucan.validate
    rw [M.bind_of_ok hx]
    rfl
  · intro n hn hlt he
    obtain ⟨b, hb⟩ := (C10_total E u none w).1
    have hb' : u.isExpired E none w = (.ok b, (u.isExpired E none w).2) := by rw [← hb]
    have hbf : b = false := by
      rw [Bool.eq_false_iff]
      intro e
      subst e
      have := (isExpired_false hb').2.2
      simp only [Bool.true_eq_false, Option.getD_none, false_iff] at this
      apply this
      intro e hee
      rw [ht]
      exact he e hee
    subst hbf
    have hx : u.isTooEarly E (u.isExpired E none w).2 = (.ok true, { (u.isExpired E none w).2 with tick := (u.isExpired E none w).2.tick + 1 }) := by
      rw [isTooEarly_eq, hn]
      simp [ht, hlt]
    unfold Ucan.validate
    rw [M.bind_of_ok hb']
    simp only [Bool.false_eq_true, if_false]
    rw [M.bind_of_ok hx]
    rfl

/-- C42: the same after encoding and parsing. -/
theorem C42_parsed_validates (D : Deps) (s : Signable) (rnd : Bytes) (u : Ucan) (hs : SignableOk D s) (h : s.sign D rnd = .ok u) (w : World)
    (hc : Coherent w.parser) (key : Key) (hk : ∀ did, s.issuer.did = .ok did → Denotes w.parser.ctors did key) (ha : Accepts key s.issuer)
    (E : Env) (t : UInt64) (ht : ∀ i, E.clock i = t) :
    ∃ u', Ucan.fromStr D (u.encode D) = .ok u' ∧ ((u'.validate E none w).1 = .ok () ↔ Within s.notBefore s.expiration t.toNat) :=
  ⟨u, C01_round_trip D s rnd u hs h, C42_signed_validates D s rnd u h w hc key hk ha E t ht⟩

/-- C42 for an Ed25519 key with both halves: nothing is assumed beyond the scheme. -/
theorem C42_ed25519 (D : Deps) (sc : SigScheme) (pub : sc.Pub) (priv : sc.Priv) (b : Bytes) (he : Exports sc pub b) (hm : Matches sc pub priv)
    (s : Signable) (hi : s.issuer = ed25519Key sc pub (some priv)) (hs : SignableOk D s) (rnd : Bytes) (u : Ucan) (h : s.sign D rnd = .ok u)
    (w : World) (hc : Coherent w.parser) (hreg : BMap.get? w.parser.ctors Did.ed25519Magic = some (ed25519Ctor sc))
    (E : Env) (t : UInt64) (ht : ∀ i, E.clock i = t) :
    ∃ u', Ucan.fromStr D (u.encode D) = .ok u' ∧ ((u'.validate E none w).1 = .ok () ↔ Within s.notBefore s.expiration t.toNat) := by
  obtain ⟨did, key, hd, hp, ha, _⟩ := C41_ed25519 sc pub (some priv) b he (fun k hk => by cases hk; exact hm) w.parser hc hreg
  refine C42_parsed_validates D s rnd u hs h w hc key (fun d hd' => ?_) (by rw [hi]; exact ha) E t ht
  rw [hi, hd] at hd'
  injection hd' with hd'
  exact hd' ▸ (DidParser.parse_ok_iff hc did key).1 hp

/-- C42 for a P-256 key with both halves. -/
theorem C42_p256 (D : Deps) (sc : SigScheme) (pub : sc.Pub) (priv : sc.Priv) (b : Bytes) (he : Exports sc pub b) (hm : Matches sc pub priv)
    (s : Signable) (hi : s.issuer = p256Key sc pub (some priv)) (hs : SignableOk D s) (rnd : Bytes) (u : Ucan) (h : s.sign D rnd = .ok u)
    (w : World) (hc : Coherent w.parser) (hreg : BMap.get? w.parser.ctors Did.p256Magic = some (p256Ctor sc))
    (E : Env) (t : UInt64) (ht : ∀ i, E.clock i = t) :
    ∃ u', Ucan.fromStr D (u.encode D) = .ok u' ∧ ((u'.validate E none w).1 = .ok () ↔ Within s.notBefore s.expiration t.toNat) := by
  obtain ⟨did, key, hd, hp, ha, _⟩ := C41_p256 sc pub (some priv) b he (fun k hk => by cases hk; exact hm) w.parser hc hreg
  refine C42_parsed_validates D s rnd u hs h w hc key (fun d hd' => ?_) (by rw [hi]; exact ha) E t ht
  rw [hi, hd] at hd'
  injection hd' with hd'
  exact hd' ▸ (DidParser.parse_ok_iff hc did key).1 hp

/-- C42 for an RSA key with both halves. -/
theorem C42_rsa (D : Deps) (sc : SigScheme) (pub : sc.Pub) (priv : sc.Priv) (b : Bytes) (he : Exports sc pub b) (hm : Matches sc pub priv)
    (s : Signable) (hi : s.issuer = rsaKey sc pub (some priv)) (hs : SignableOk D s) (rnd : Bytes) (u : Ucan) (h : s.sign D rnd = .ok u)
    (w : World) (hc : Coherent w.parser) (hreg : BMap.get? w.parser.ctors Did.rsaMagic = some (rsaCtor sc))
    (E : Env) (t : UInt64) (ht : ∀ i, E.clock i = t) :
    ∃ u', Ucan.fromStr D (u.encode D) = .ok u' ∧ ((u'.validate E none w).1 = .ok () ↔ Within s.notBefore s.expiration t.toNat) := by
  obtain ⟨did, key, hd, hp, ha, _⟩ := C41_rsa sc pub (some priv) b he (fun k hk => by cases hk; exact hm) w.parser hc hreg
  refine C42_parsed_validates D s rnd u hs h w hc key (fun d hd' => ?_) (by rw [hi]; exact ha) E t ht
  rw [hi, hd] at hd'
  injection hd' with hd'
  exact hd' ▸ (DidParser.parse_ok_iff hc did key).1 hp

/-- Beside C42: a signable with the toy key. -/
def toySignable : Signable := { demoSignable with issuer := ed25519Key toyScheme (7 : UInt8) (some (7 : UInt8)) }

theorem toySignable_ok (D : Deps) : SignableOk D toySignable := ⟨(demoSignable_ok D).caveats, (demoSignable_ok D).facts⟩

theorem toy_sign (D : Deps) (rnd : Bytes) : ∃ u, toySignable.sign D rnd = .ok u := ⟨_, rfl⟩

example (D : Deps) (rnd : Bytes) : ∃ u u', toySignable.sign D rnd = .ok u ∧ Ucan.fromStr D (u.encode D) = .ok u' ∧
    ((u'.validate (stopped 7) none ⟨0, ⟨toyCtors, []⟩⟩).1 = .ok () ↔ Within toySignable.notBefore toySignable.expiration 7) := by
  obtain ⟨u, hu⟩ := toy_sign D rnd
  obtain ⟨u', h⟩ := C42_ed25519 D toyScheme (7 : UInt8) (7 : UInt8) [7] (toy_exports 7) (toy_matches 7) toySignable rfl (toySignable_ok D) rnd u hu
    ⟨0, ⟨toyCtors, []⟩⟩ (DidParser.coherent_fresh _) rfl (stopped 7) 7 (fun _ => rfl)
  exact ⟨u, u', hu, h⟩

example (D : Deps) (rnd : Bytes) : ∃ u u', ({ demoSignable with issuer := p256Key toyScheme (7 : UInt8) (some (7 : UInt8)) } : Signable).sign D rnd = .ok u ∧
    Ucan.fromStr D (u.encode D) = .ok u' ∧
    ((u'.validate (stopped 7) none ⟨0, ⟨[(Did.p256Magic, p256Ctor toyScheme)], []⟩⟩).1 = .ok () ↔
      Within demoSignable.notBefore demoSignable.expiration 7) := by
  obtain ⟨u', h⟩ := C42_p256 D toyScheme (7 : UInt8) (7 : UInt8) [7] (toy_exports 7) (toy_matches 7)
    { demoSignable with issuer := p256Key toyScheme (7 : UInt8) (some (7 : UInt8)) } rfl ⟨(demoSignable_ok D).caveats, (demoSignable_ok D).facts⟩
    rnd _ rfl ⟨0, ⟨[(Did.p256Magic, p256Ctor toyScheme)], []⟩⟩ (DidParser.coherent_fresh _) rfl (stopped 7) 7 (fun _ => rfl)
  exact ⟨_, u', rfl, h⟩

example (D : Deps) (rnd : Bytes) : ∃ u u', ({ demoSignable with issuer := rsaKey toyScheme (7 : UInt8) (some (7 : UInt8)) } : Signable).sign D rnd = .ok u ∧
    Ucan.fromStr D (u.encode D) = .ok u' ∧
    ((u'.validate (stopped 7) none ⟨0, ⟨[(Did.rsaMagic, rsaCtor toyScheme)], []⟩⟩).1 = .ok () ↔
      Within demoSignable.notBefore demoSignable.expiration 7) := by
  obtain ⟨u', h⟩ := C42_rsa D toyScheme (7 : UInt8) (7 : UInt8) [7] (toy_exports 7) (toy_matches 7)
    { demoSignable with issuer := rsaKey toyScheme (7 : UInt8) (some (7 : UInt8)) } rfl ⟨(demoSignable_ok D).caveats, (demoSignable_ok D).facts⟩
    rnd _ rfl ⟨0, ⟨[(Did.rsaMagic, rsaCtor toyScheme)], []⟩⟩ (DidParser.coherent_fresh _) rfl (stopped 7) 7 (fun _ => rfl)
  exact ⟨_, u', rfl, h⟩

/-! ## C59 Payload and signed bytes agree -/

/-- C59 for parsed UCANs. -/
theorem C59_parsed (D : Deps) (t : String) (u : Ucan) (h : Ucan.fromStr D t = .ok u) : Covered D u := by
  obtain ⟨hb, pb, tail, _, h1, h2, h3⟩ := (C03_acceptance D t u).1 h
  exact ⟨hb, pb, h1, h2, h3⟩

/-- C59 for signed UCANs. -/
theorem C59_signed (D : Deps) (s : Signable) (rnd : Bytes) (u : Ucan) (hs : SignableOk D s) (h : s.sign D rnd = .ok u) : Covered D u :=
  C59_parsed D _ u (C01_round_trip D s rnd u hs h)

theorem base64_injective {a b : Bytes} (h : Base64.encode a = Base64.encode b) : a = b := by
  have := congrArg Base64.decode h
  rw [Base64.decode_encode, Base64.decode_encode] at this
  exact Option.some.inj this

/-- C59: signed bytes cover at most one header and payload. -/
theorem C59_unique (D : Deps) (u u' : Ucan) (h : Covered D u) (h' : Covered D u') (hd : u.signedData = u'.signedData) :
    u.header = u'.header ∧ u.payload = u'.payload := by
  obtain ⟨hb, pb, h1, h2, h3⟩ := h
  obtain ⟨hb', pb', h1', h2', h3'⟩ := h'
  rw [h3, h3'] at hd
  obtain ⟨e1, e2⟩ := append_sep_inj (Base64.encode_no_dot hb) (Base64.encode_no_dot hb') hd
  have e1 := base64_injective e1
  have e2 := base64_injective e2
  subst e1; subst e2
  rw [h1] at h1'; rw [h2] at h2'
  exact ⟨Option.some.inj h1', Option.some.inj h2'⟩

/-- What validation looks at. -/
theorem validate_congr (E : Env) (u u' : Ucan) (nowTime : Option UInt64) (w : World) (h1 : u.payload.iss = u'.payload.iss)
    (h2 : u.payload.exp = u'.payload.exp) (h3 : u.payload.nbf = u'.payload.nbf) (h4 : u.signedData = u'.signedData)
    (h5 : u.signature = u'.signature) : u.validate E nowTime w = u'.validate E nowTime w := by
  have e1 : u.isExpired E nowTime = u'.isExpired E nowTime := by unfold Ucan.isExpired; rw [h2]
  have e2 : u.isTooEarly E = u'.isTooEarly E := by unfold Ucan.isTooEarly; rw [h3]
  have e3 : u.checkSignature = u'.checkSignature := by unfold Ucan.checkSignature; rw [h1, h4, h5]
  unfold Ucan.validate
  rw [e1, e2, e3]

/-- C59 is violated: with the public constructor, the claims, facts, proofs and audience of a valid UCAN can be replaced by anything; the
result validates just the same. -/
theorem C59_constructor_unchecked (D : Deps) (E : Env) (u : Ucan) (hu : Covered D u) (nowTime : Option UInt64) (w : World)
    (aud : String) (cap : Capabilities) (fct : Option Facts) (prf : Option (List String))
    (hne : aud ≠ u.payload.aud ∨ cap ≠ u.payload.cap ∨ fct ≠ u.payload.fct ∨ prf ≠ u.payload.prf) :
    (Ucan.new u.header { u.payload with aud := aud, cap := cap, fct := fct, prf := prf } u.signedData u.signature).validate E nowTime w
      = u.validate E nowTime w ∧
    ¬ Covered D (Ucan.new u.header { u.payload with aud := aud, cap := cap, fct := fct, prf := prf } u.signedData u.signature) := by
  refine ⟨validate_congr E _ _ nowTime w rfl rfl rfl rfl rfl, fun hc => ?_⟩
  have := (C59_unique D _ u hc hu rfl).2
  have h : ({ u.payload with aud := aud, cap := cap, fct := fct, prf := prf } : Payload) = u.payload := this
  rcases hne with hne | hne | hne | hne
  · exact hne (congrArg Payload.aud h)
  · exact hne (congrArg Payload.cap h)
  · exact hne (congrArg Payload.fct h)
  · exact hne (congrArg Payload.prf h)

/-- C59 (partial): what the constructor must be given for the claim to hold. The full claim is refuted by `C59_constructor_unchecked`. -/
theorem C59_covered_partial (D : Deps) (h : Header) (p : Payload) (sig : Bytes) (he : Codec.Encodable D p) :
    Covered D (Ucan.new h p (Ucan.signingInput D h p) sig) :=
  C59_parsed D _ _ (C01_round_trip_general D (Ucan.new h p (Ucan.signingInput D h p) sig) he rfl)

/-- Beside C59: the toy UCAN is covered, and it can be given other claims. -/
example (D : Deps) (rnd : Bytes) : ∃ u, toySignable.sign D rnd = .ok u ∧ Covered D u ∧ ([] : Capabilities) ≠ u.payload.cap := by
  refine ⟨_, rfl, C59_signed D toySignable rnd _ (toySignable_ok D) rfl, ?_⟩
  intro h
  have : Capabilities.ofVec toySignable.capabilities = .ok [] := congrArg Except.ok h.symm
  revert this
  decide

/-! ## C58 Header algorithm and version -/

/-- C58 is violated: validation does not look at the header nor at the version. -/
theorem C58_independent (E : Env) (u : Ucan) (h : Header) (ucv : String) (nowTime : Option UInt64) (w : World) :
    ({ u with header := h, payload := { u.payload with ucv := ucv } } : Ucan).validate E nowTime w = u.validate E nowTime w :=
  validate_congr E _ _ nowTime w rfl rfl rfl rfl rfl

/-- C58 is violated by tokens: whatever key and instant, if the issuer signs a text with another algorithm name and version, the token parses and
validates. -/
theorem C58_token_accepted (D : Deps) (E : Env) (w : World) (hc : Coherent w.parser) (h : Header) (p : Payload) (he : Codec.Encodable D p) (key : Key)
    (hk : Denotes w.parser.ctors p.iss key) (sig : Bytes) (hs : key.verify (Ucan.signingInput D h p) sig = .ok ())
    (hx : Unexpired (Ucan.new h p (Ucan.signingInput D h p) sig) (E.clock w.tick)) (hn : p.nbf = none) :
    ∃ u, Ucan.fromStr D ((Ucan.new h p (Ucan.signingInput D h p) sig).encode D) = .ok u ∧ u.header = h ∧ u.payload = p ∧
      (u.validate E none w).1 = .ok () := by
  refine ⟨_, C01_round_trip_general D (Ucan.new h p (Ucan.signingInput D h p) sig) he rfl, rfl, rfl, ?_⟩
  rw [C12_validate_iff E _ none w hc]
  refine ⟨hx, fun n h => ?_, key, hk, hs⟩
  rw [show (Ucan.new _ p _ sig).payload.nbf = p.nbf from rfl, hn] at h
  cases h

/-- A payload of a foreign version by the toy key 7, without bounds. -/
def foreignPayload : Payload := ⟨"9.9.9", didOf [0xed, 1, 7], "did:key:zb", none, none, none, [], none, none⟩

theorem foreignPayload_encodable (D : Deps) : Codec.Encodable D foreignPayload := by
  refine ⟨by simp [foreignPayload, BMap.Sorted], by simp [foreignPayload], by simp [foreignPayload], by simp [foreignPayload], ?_⟩
  have := Codec.depth_payload (n := 10) foreignPayload (by simp [foreignPayload]) (by omega) (by simp [foreignPayload])
  simp only [Json.depthLimit]
  omega

theorem toy_verifies (k : UInt8) (m : Bytes) : (ed25519Key toyScheme k none).verify m (k :: m) = .ok () := by
  show (if decide (k :: m = k :: m) = true then _ else _) = _
  rw [if_pos (decide_eq_true rfl)]

/-- C58: the full claim is refuted by a token that says `none` and `9.9.9` and validates. -/
theorem C58_violated (D : Deps) : ∃ (E : Env) (w : World) (t : String) (u : Ucan), Coherent w.parser ∧ Ucan.fromStr D t = .ok u ∧
    (u.validate E none w).1 = .ok () ∧ u.header.alg = "none" ∧ u.header.typ = "?" ∧ u.payload.ucv = "9.9.9" ∧
    ∃ key, Denotes w.parser.ctors u.payload.iss key ∧ key.alg = "EdDSA" := by
  have hd : Denotes toyCtors (didOf [0xed, 1, 7]) (ed25519Key toyScheme (7 : UInt8) none) := denotes_didOf rfl rfl
  obtain ⟨u, h1, h2, h3, h4⟩ := C58_token_accepted D (stopped 0) ⟨0, ⟨toyCtors, []⟩⟩ (DidParser.coherent_fresh _) ⟨"none", "?"⟩ foreignPayload
    (foreignPayload_encodable D) (ed25519Key toyScheme (7 : UInt8) none) hd (7 :: Ucan.signingInput D ⟨"none", "?"⟩ foreignPayload)
    (toy_verifies 7 _) (fun e h => by cases h) rfl
  exact ⟨_, _, _, u, DidParser.coherent_fresh _, h1, h4, by rw [h2], by rw [h2], by rw [h3]; rfl, _, by rw [h3]; exact hd, rfl⟩

/-- C58 (partial): tokens signed by this library name the algorithm of the key and the current version. The full claim is refuted by
`C58_violated`. -/
theorem C58_signed_partial (D : Deps) (s : Signable) (rnd : Bytes) (u : Ucan) (h : s.sign D rnd = .ok u) :
    u.header.alg = s.issuer.alg ∧ u.header.typ = "JWT" ∧ u.payload.ucv = "0.10.0-canary" := by
  obtain ⟨hp, hh, _⟩ := sign_ok h
  rw [hh]
  exact ⟨rfl, rfl, (ucanPayload_ok hp).2.2.1⟩

/-! ## C43 Accepted tokens were signed by their issuer -/

/-- C43: if signatures cannot be forged and keys sign only UCANs, an authentic UCAN whose bytes cover its content carries the header and payload
of a UCAN that its issuer signed. -/
theorem C43_authentic_signed (D : Deps) (ctors : BMap Bytes KeyCtor) (H : String → Bytes → Prop) (Signed : Ucan → Prop)
    (hf : Unforgeable ctors H) (ho : OnlyUcans H Signed) (hs : ∀ u, Signed u → Covered D u) (u : Ucan) (hu : Covered D u) (ha : Authentic ctors u) :
    ∃ u', Signed u' ∧ u'.header = u.header ∧ u'.payload = u.payload := by
  obtain ⟨key, hd, hv⟩ := ha
  obtain ⟨u', h1, _, h3⟩ := ho _ _ (hf _ key hd _ _ hv)
  obtain ⟨e1, e2⟩ := C59_unique D u' u (hs u' h1) hu h3
  exact ⟨u', h1, e1, e2⟩

/-- UCANs signed through this library, whose facts and caveats survive encoding. -/
def Spec.SignedHere (D : Deps) (u : Ucan) : Prop := ∃ s rnd, SignableOk D s ∧ s.sign D rnd = .ok u

/-- C43 for tokens: whatever parses and validates has the content of a UCAN in the log of those that were signed with its issuer's key. -/
theorem C43_token (D : Deps) (E : Env) (nowTime : Option UInt64) (w : World) (hc : Coherent w.parser) (H : String → Bytes → Prop) (Signed : Ucan → Prop)
    (hf : Unforgeable w.parser.ctors H) (ho : OnlyUcans H Signed) (hs : ∀ u, Signed u → SignedHere D u) (t : String) (u : Ucan)
    (hp : Ucan.fromStr D t = .ok u) (hv : (u.validate E nowTime w).1 = .ok ()) :
    ∃ u', Signed u' ∧ u'.header = u.header ∧ u'.payload = u.payload :=
  C43_authentic_signed D _ H Signed hf ho (fun u h => let ⟨s, rnd, h1, h2⟩ := hs u h; C59_signed D s rnd u h1 h2) u (C59_parsed D t u hp)
    ((C12_validate_iff E u nowTime w hc).1 hv).2.2

/-- C43 for chains: every proof at every depth below the root, and the root too unless it was handed over as a value, has the content of
a UCAN in the log of those that were signed with its issuer's key. -/
theorem C43_chain (D : Deps) (E : Env) (nowTime : Option UInt64) (w w' : World) (c : Chain) (hc : Coherent w.parser) (hb : Built D E nowTime w w' c)
    (H : String → Bytes → Prop) (Signed : Ucan → Prop) (hf : Unforgeable w.parser.ctors H) (ho : OnlyUcans H Signed) (hs : ∀ u, Signed u → SignedHere D u)
    (hroot : Covered D c.ucan) (d : Chain) (hd : Sub d c) : ∃ u', Signed u' ∧ u'.header = d.ucan.header ∧ u'.payload = d.ucan.payload := by
  have hcov : ∀ {d c : Chain}, Sub d c → Covered D c.ucan →
      Sound D (ValidIn E nowTime w.parser.ctors w.tick w'.tick) (ReadIn E w.tick w'.tick) c → Covered D d.ucan := by
    intro d c hd
    induction hd with
    | self => exact fun h _ => h
    | proof he _ ih =>
      intro _ hs
      obtain ⟨_, hs', s, _, _, _, _, _, _, hp⟩ := Chain.SoundAll.mem (Chain.Sound.all hs).2.1 _ he
      exact ih (C59_parsed D _ _ hp) hs'
  exact C43_authentic_signed D _ H Signed hf ho (fun u h => let ⟨s, rnd, h1, h2⟩ := hs u h; C59_signed D s rnd u h1 h2) d.ucan
    (hcov hd hroot (Chain.built_sound hc hb)) (C21_all_valid hc hb d hd).authentic

/-- Beside C43: a key that has signed one UCAN, and verifies nothing else. -/
def onceSignable : Signable := { demoSignable with issuer := ⟨"EdDSA", .ok (didOf [0xed, 1, 7]), fun _ => .ok [1], fun _ _ => err .badSignature⟩ }

def onceData (D : Deps) (rnd : Bytes) : Bytes :=
  match onceSignable.sign D rnd with
  | .ok u => u.signedData
  | .error _ => []

def onceCtors (D : Deps) (rnd : Bytes) : BMap Bytes KeyCtor :=
  [(Did.ed25519Magic, fun b => if b = [7] then .ok ⟨"EdDSA", .ok (didOf [0xed, 1, 7]), fun _ => err .noPrivateKey,
    fun m s => if m = onceData D rnd ∧ s = [1] then .ok () else err .badSignature⟩ else err .keyCtor)]

theorem onceUnforgeable (D : Deps) (rnd : Bytes) :
    Unforgeable (onceCtors D rnd) (fun did m => did = didOf [0xed, 1, 7] ∧ m = onceData D rnd) ∧
    OnlyUcans (fun did m => did = didOf [0xed, 1, 7] ∧ m = onceData D rnd) (fun u => onceSignable.sign D rnd = .ok u) ∧
    ∀ u, onceSignable.sign D rnd = .ok u → SignedHere D u := by
  refine ⟨?_, ?_, fun u h => ⟨onceSignable, rnd, ⟨(demoSignable_ok D).caveats, (demoSignable_ok D).facts⟩, h⟩⟩
  · rintro did key ⟨b0, b1, rest, ctor, e, hc, hk⟩ m s hv
    unfold onceCtors BMap.get? at hc
    split at hc
    · rename_i hm
      injection hc with hc
      subst hc
      simp only at hk
      split at hk
      · rename_i hr
        injection hk with hk
        subst hk
        simp only at hv
        split at hv
        · rename_i hmm
          refine ⟨strBytes_inj ?_, hmm.1⟩
          rw [strBytes_didOf, e, hr]
          cases hm
          rfl
        · cases hv
      · cases hk
    · cases hc
  · rintro did m ⟨rfl, rfl⟩
    exact ⟨_, rfl, rfl, rfl⟩

end Verif
