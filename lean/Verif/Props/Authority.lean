import Verif.Props.EndToEnd
import Verif.Props.ReduceExamples
import Verif.Props.Store
import Verif.Spec.Authority

/-! # Properties C65-C67: authorisation decisions, re-validation, additional proofs -/

namespace Verif
open Spec Chain Reduce

variable {S A : Type}

mutual
theorem Chain.Sound.revalid {D : Deps} {V V' : Ucan → Prop} {F : Cid → Bytes → Prop} :
    ∀ c : Chain, Sound D V F c → (∀ d, Sub d c → V' d.ucan) → Sound D V' F c
  | .mk u proofs redel, h, hV => by
    simp only [Sound] at h ⊢
    exact ⟨hV _ (.self _), SoundAll.revalid u _ proofs h.2.1 fun d hd e he => hV e (.proof hd he), h.2.2⟩
theorem Chain.SoundAll.revalid {D : Deps} {V V' : Ucan → Prop} {F : Cid → Bytes → Prop} (u : Ucan) : ∀ (ss : List String) (cs : List Chain),
    SoundAll D V F u ss cs → (∀ d ∈ cs, ∀ e, Sub e d → V' e.ucan) → SoundAll D V' F u ss cs
  | ss, [], h, _ => by simpa only [SoundAll] using h
  | ss, c :: cs, h, hV => by
    simp only [SoundAll] at h ⊢
    obtain ⟨s, ss', e, h1, h2, h3, h4⟩ := h
    exact ⟨s, ss', e, h1, h2, Sound.revalid c h3 (hV c (by simp)), SoundAll.revalid u ss' cs h4 fun d hd => hV d (by simp [hd])⟩
end

/-! ## C65 Authorisation is backed by signatures -/

namespace Authority

theorem flows_authority {D : Deps} {sem : Semantics S A} {V P : Ucan → Prop} {F : Cid → Bytes → Prop} {c : Chain} {v : View S A} {o : String}
    (h : Flows D sem c v o) : Sound D V F c → (∀ d, Sub d c → P d.ucan) → Authority D sem F P c.ucan v o := by
  induction h with
  | origin hc => exact fun _ hP => .granted (hP _ (.self _)) hc
  | @attenuated c p v v' o k hcl hk hp _ he ih =>
    intro hs hP
    have hall := (Sound.all hs).2.1
    have hmem := mem_of_getElem?' hp
    obtain ⟨hdel, hsp, _⟩ := SoundAll.mem hall _ hmem
    obtain ⟨hlen, hent⟩ := SoundAll.entry hall
    obtain ⟨hlt, _⟩ := List.getElem?_eq_some_iff.1 hp
    have hs' : (c.ucan.payload.prf.getD [])[k]? = some ((c.ucan.payload.prf.getD [])[k]'(hlen ▸ hlt)) := List.getElem?_eq_getElem _
    exact .attenuated k (hP _ (.self _)) hcl ⟨_, hs', hent k _ _ hs' hp⟩ hdel (ih hsp fun d hd => hP d (.proof hmem hd)) he
  | @redelegated c p v o k hk hp _ ih =>
    intro hs hP
    have hall := (Sound.all hs).2.1
    have hmem := mem_of_getElem?' hp
    obtain ⟨hdel, hsp, _⟩ := SoundAll.mem hall _ hmem
    obtain ⟨hlen, hent⟩ := SoundAll.entry hall
    obtain ⟨hlt, _⟩ := List.getElem?_eq_some_iff.1 hp
    have hs' : (c.ucan.payload.prf.getD [])[k]? = some ((c.ucan.payload.prf.getD [])[k]'(hlen ▸ hlt)) := List.getElem?_eq_getElem _
    exact .redelegated k (hP _ (.self _)) (((Sound.all hs).2.2.claimed k).1 hk) ⟨_, hs', hent k _ _ hs' hp⟩ hdel
      (ih hsp fun d hd => hP d (.proof hmem hd))

/-- Every token of a chain made from a token text covers its content. -/
theorem covered_sub {D : Deps} {V : Ucan → Prop} {F : Cid → Bytes → Prop} {c d : Chain} (hd : Sub d c) :
    Sound D V F c → Covered D c.ucan → Covered D d.ucan := by
  induction hd with
  | self => exact fun _ h => h
  | proof he _ ih =>
    intro hs _
    obtain ⟨_, hs', s, _, _, _, _, _, _, hp⟩ := SoundAll.mem (Sound.all hs).2.1 _ he
    exact ih hs' (C59_parsed D _ _ hp)

theorem genuine {D : Deps} {honest : String → Prop} {ctors : BMap Bytes KeyCtor} {H : String → Bytes → Prop} {Signed : Ucan → Prop}
    (hf : UnforgeableFor honest ctors H) (ho : OnlyUcansFor D honest H Signed) {u : Ucan} (hu : Covered D u) (ha : Authentic ctors u)
    (hh : honest u.payload.iss) : Genuine Signed u := by
  obtain ⟨key, hd, hv⟩ := ha
  obtain ⟨u', h1, _, h3⟩ := ho.logged _ _ hh (hf _ hh key hd _ _ hv)
  obtain ⟨s, rnd, h4, h5⟩ := ho.here u' h1
  obtain ⟨e1, e2⟩ := C59_unique D u' u (C59_signed D s rnd u' h4 h5) hu h3
  exact ⟨u', h1, e1, e2⟩

theorem covers {D : Deps} {sem : Semantics S A} (ht : EnablesTrans sem) {F : Cid → Bytes → Prop} {P : Ucan → Prop} {u : Ucan} {v : View S A} {o : String}
    (h : Authority D sem F P u v o) : ∃ q v', P q ∧ q.payload.iss = o ∧ Claimed D sem q v' ∧ CoveredBy sem v' v := by
  induction h with
  | granted hp hc => exact ⟨_, _, hp, rfl, hc, Or.inl rfl⟩
  | attenuated _ _ _ _ _ _ he ih =>
    obtain ⟨q, v0, h1, h2, h3, h4⟩ := ih
    exact ⟨q, v0, h1, h2, h3, coveredBy_trans ht _ _ _ h4 (Or.inr he)⟩
  | redelegated _ _ _ _ _ _ ih => exact ih

theorem handsOn {D : Deps} {sem : Semantics S A} {F : Cid → Bytes → Prop} {P : Ucan → Prop} {u : Ucan} {v r : View S A} {o : String}
    (h : Authority D sem F P u v o) (hr : CoveredBy sem v r) : P u ∧ HandsOn D sem r u := by
  cases h with
  | granted hp hc => exact ⟨hp, Or.inl ⟨v, hc, hr⟩⟩
  | attenuated _ hp hc => exact ⟨hp, Or.inl ⟨v, hc, hr⟩⟩
  | redelegated i hp hc => exact ⟨hp, Or.inr (by obtain ⟨c, h1, h2⟩ := hc; exact ⟨c, h1, i, h2⟩)⟩

theorem claimed_congr {D : Deps} {sem : Semantics S A} {u u' : Ucan} {v : View S A} (h : u.payload = u'.payload) (hc : Claimed D sem u v) :
    Claimed D sem u' v := by
  unfold Claimed at hc ⊢
  rw [← h]; exact hc

theorem handsOn_congr {D : Deps} {sem : Semantics S A} {u u' : Ucan} {r : View S A} (h : u.payload = u'.payload) (hc : HandsOn D sem r u) :
    HandsOn D sem r u' := by
  unfold HandsOn Claimed at hc ⊢
  rw [← h]; exact hc

end Authority

/-- C65: whatever the clock, the store and the keys of dishonest parties do, a capability reported with a sole originator got from that originator into
the presented token through tokens that were valid when read and, if their issuer is honest, have the content of a UCAN in the log of those signed with the issuer's key. -/
theorem C65_authority (D : Deps) (sem : Semantics S A) (E : Env) (nowTime : Option UInt64) (fuel : Nat) (token : String) (w w' : World)
    (hc : Coherent w.parser) (c : Chain) (h : ofToken D E nowTime fuel token w = (.ok c, w')) (honest : String → Prop) (H : String → Bytes → Prop) (Signed : Ucan → Prop)
    (hf : UnforgeableFor honest w.parser.ctors H) (ho : OnlyUcansFor D honest H Signed) (out : List (Info S A)) (hr : reduce D sem c = .ok out)
    (i : Info S A) (hi : i ∈ out) (o : String) (hsole : i.originators = [o]) :
    Ucan.fromStr D token = .ok c.ucan ∧
    Authority D sem (ReadIn E w.tick w'.tick)
      (fun u => ValidIn E nowTime w.parser.ctors w.tick w'.tick u ∧ (honest u.payload.iss → Genuine Signed u)) c.ucan i.capability o := by
  obtain ⟨hp, hs⟩ := ofToken_sound D E nowTime fuel token w c w' hc h
  refine ⟨hp, Authority.flows_authority (C32_sole_flows D sem c out hr i hi o (by rw [hsole]; simp)) hs fun d hd => ?_⟩
  have hv := (Sound.all (Sound.sub hd hs)).1
  exact ⟨hv, Authority.genuine hf ho (Authority.covered_sub hd hs (C59_parsed D _ _ hp)) hv.authentic⟩

/-- C65: so no token, store or clock leads to the acceptance of a request in the name of an honest owner who signed no UCAN that claims
something covering it. -/
theorem C65_no_grant_no_access (D : Deps) (sem : Semantics S A) (ht : EnablesTrans sem) (owner : String) (H : String → Bytes → Prop)
    (Signed : Ucan → Prop) (request : View S A) (ho : OnlyUcansFor D (· = owner) H Signed)
    (hno : ∀ u v, Signed u → u.payload.iss = owner → Claimed D sem u v → ¬ CoveredBy sem v request)
    (E : Env) (nowTime : Option UInt64) (fuel : Nat) (token : String) (w w' : World) (hc : Coherent w.parser)
    (hf : UnforgeableFor (· = owner) w.parser.ctors H) (c : Chain)
    (h : ofToken D E nowTime fuel token w = (.ok c, w')) (out : List (Info S A)) (hr : reduce D sem c = .ok out) :
    ¬ Authorises sem out owner request := by
  rintro ⟨i, hi, hsole, hcov⟩
  obtain ⟨_, ha⟩ := C65_authority D sem E nowTime fuel token w w' hc c h (· = owner) H Signed hf ho out hr i hi owner hsole
  obtain ⟨q, v, ⟨_, hq⟩, hiss, hcl, hv⟩ := Authority.covers ht ha
  obtain ⟨u, hu, _, e⟩ := hq hiss
  exact hno u v hu (e ▸ hiss) (Authority.claimed_congr e.symm hcl) (coveredBy_trans ht _ _ _ hv hcov)

/-- C65: and only members of a circle of honest parties, who hand the authority on to nobody outside, can present a token that is accepted. -/
theorem C65_circle (D : Deps) (sem : Semantics S A) (ht : EnablesTrans sem) (circle : String → Prop) (H : String → Bytes → Prop) (Signed : Ucan → Prop)
    (owner : String) (hown : circle owner) (request : View S A) (ho : OnlyUcansFor D circle H Signed)
    (hclosed : ∀ u, Signed u → circle u.payload.iss → HandsOn D sem request u → circle u.payload.aud)
    (E : Env) (nowTime : Option UInt64) (fuel : Nat) (token : String) (w w' : World) (hc : Coherent w.parser)
    (hf : UnforgeableFor circle w.parser.ctors H) (c : Chain)
    (h : ofToken D E nowTime fuel token w = (.ok c, w')) (out : List (Info S A)) (hr : reduce D sem c = .ok out)
    (hacc : Authorises sem out owner request) : circle c.ucan.payload.iss := by
  obtain ⟨i, hi, hsole, hcov⟩ := hacc
  obtain ⟨_, ha⟩ := C65_authority D sem E nowTime fuel token w w' hc c h circle H Signed hf ho out hr i hi owner hsole
  generalize hu : c.ucan = u at ha ⊢
  generalize i.capability = v at ha hcov
  clear hu hi hsole h hr
  induction ha with
  | granted _ _ => exact hown
  | attenuated k _ _ _ hdel hq he ih =>
    have hcov' := coveredBy_trans ht _ _ _ (Or.inr he) hcov
    have hiss := ih hown hcov'
    obtain ⟨⟨_, hs⟩, hh⟩ := Authority.handsOn hq hcov'
    obtain ⟨u', hu, _, e⟩ := hs hiss
    exact hdel.addressed ▸ (congrArg Payload.aud e ▸ hclosed u' hu (e ▸ hiss) (Authority.handsOn_congr e.symm hh))
  | redelegated k _ _ _ hdel hq ih =>
    have hiss := ih hown hcov
    obtain ⟨⟨_, hs⟩, hh⟩ := Authority.handsOn hq hcov
    obtain ⟨u', hu, _, e⟩ := hs hiss
    exact hdel.addressed ▸ (congrArg Payload.aud e ▸ hclosed u' hu (e ▸ hiss) (Authority.handsOn_congr e.symm hh))

/-! Beside C65: the parties 1, 2 and 3 are guarded: key 1 has signed the grant, key 2 the redelegation, key 3 nothing. All other keys accept any
message with their one-byte signature. The redelegation leads to acceptance, in the name of party 1. -/

namespace Ex

def guardKey (D : Deps) (b : Bytes) : Key :=
  ⟨"EdDSA", err .noPrivateKey, fun _ => err .noPrivateKey, fun m s =>
    if s ≠ b ∨ (b = [1] ∧ m ≠ (leaf D).signedData) ∨ (b = [2] ∧ m ≠ (root D).signedData) ∨ b = [3] then err .badSignature else .ok ()⟩

def guardCtors (D : Deps) : BMap Bytes KeyCtor := [(Did.ed25519Magic, fun b => .ok (guardKey D b))]

def guarded (x : String) : Prop := x = did 1 ∨ x = did 2 ∨ x = did 3
def guardLog (D : Deps) (x : String) (m : Bytes) : Prop := (x = did 1 ∧ m = (leaf D).signedData) ∨ (x = did 2 ∧ m = (root D).signedData)
def guardSigned (D : Deps) (u : Ucan) : Prop := u = leaf D ∨ u = root D

theorem guard_denotes (D : Deps) (k : UInt8) : Denotes (guardCtors D) (did k) (guardKey D [k]) := by
  refine ⟨0xed, 1, [k], fun b => .ok (guardKey D b), ?_, rfl, rfl⟩
  show strBytes ("did:key:z" ++ _) = _
  rw [strBytes_append, strBytes_asciiStr (Base58.encode_ascii _)]

theorem guard_unforgeable (D : Deps) : UnforgeableFor guarded (guardCtors D) (guardLog D) := by
  have step : ∀ k : UInt8, ∀ key, Denotes (guardCtors D) (did k) key → ∀ m s, key.verify m s = .ok () →
      ¬ (s ≠ [k] ∨ ([k] = [1] ∧ m ≠ (leaf D).signedData) ∨ ([k] = [2] ∧ m ≠ (root D).signedData) ∨ [k] = [3]) := by
    intro k key hk m s hv
    rw [C40_denotes_unique _ _ _ _ hk (guard_denotes D k)] at hv
    simp only [guardKey] at hv
    split at hv
    · cases hv
    · assumption
  rintro x (rfl | rfl | rfl) key hk m s hv
  · have := step 1 key hk m s hv
    refine Or.inl ⟨rfl, Classical.byContradiction fun hn => this ?_⟩
    exact Or.inr (Or.inl ⟨rfl, hn⟩)
  · have := step 2 key hk m s hv
    refine Or.inr ⟨rfl, Classical.byContradiction fun hn => this ?_⟩
    exact Or.inr (Or.inr (Or.inl ⟨rfl, hn⟩))
  · exact absurd (Or.inr (Or.inr (Or.inr rfl))) (step 3 key hk m s hv)

def exIssuer (k : UInt8) : Key := ⟨"EdDSA", .ok (did k), fun _ => .ok [k], fun _ _ => err .badSignature⟩
def leafSignable : Signable := ⟨exIssuer 1, did 2, [⟨"mailto:a@b", "msg/send", .obj []⟩], some 20, some 5, [], [], false⟩
def rootSignable : Signable :=
  ⟨exIssuer 2, did 3, [⟨"prf:" ++ asciiStr (Json.decBytes 0), "ucan/DELEGATE", .obj []⟩], some 10, some 6, [], [(cid 1).toStr], false⟩

theorem guard_only (D : Deps) : OnlyUcansFor D guarded (guardLog D) (guardSigned D) := by
  refine ⟨?_, ?_⟩
  · rintro x m _ (⟨rfl, rfl⟩ | ⟨rfl, rfl⟩)
    · exact ⟨_, Or.inl rfl, rfl, rfl⟩
    · exact ⟨_, Or.inr rfl, rfl, rfl⟩
  · rintro u (rfl | rfl)
    · exact ⟨leafSignable, [], plain_ok D _ rfl (by intro c hc; cases List.mem_singleton.1 hc; rfl), rfl⟩
    · exact ⟨rootSignable, [], plain_ok D _ rfl (by intro c hc; cases List.mem_singleton.1 hc; rfl), rfl⟩

def guardWorld (D : Deps) : World := ⟨0, ⟨guardCtors D, []⟩⟩

theorem guard_authentic (D : Deps) {d : Chain} (hd : Sub d (chain D)) : Authentic (guardCtors D) d.ucan := by
  cases hd with
  | self =>
    refine ⟨_, guard_denotes D 2, ?_⟩
    simp only [guardKey]
    rw [if_neg]
    · simp [chain, root, ucan, Chain.ucan]
  | proof he h =>
    cases List.mem_singleton.1 he
    cases h with
    | self =>
      refine ⟨_, guard_denotes D 1, ?_⟩
      simp only [guardKey]
      rw [if_neg]
      · simp [leafChain, leaf, ucan, Chain.ucan]
    | proof he _ => cases he

theorem guard_built (D : Deps) : ∃ fuel w', Chain.ofToken D (env D) none fuel ((root D).encode D) (guardWorld D) = (.ok (chain D), w') := by
  obtain ⟨fuel, h⟩ := (C24_complete D (env D) none 7 (fun _ => rfl) (fun _ _ _ => rfl) ((root D).encode D) (guardWorld D)
    (DidParser.coherent_fresh _) (chain D)).2 ⟨parses D 2 _ _ _ _ _ _, Sound.revalid _ (chain_sound D) fun d hd => by
      have hv := (Sound.all (Sound.sub hd (chain_sound D))).1
      exact ⟨guard_authentic D hd, hv.unexpired, hv.active⟩⟩
  exact ⟨fuel, _, by rw [← h]⟩

/-- Beside `C65_authority`. -/
example (D : Deps) : ∃ F P, Authority D mailSem F P (root D) (mail "a@b" 0) (did 1) := by
  obtain ⟨fuel, w', h⟩ := guard_built D
  exact ⟨_, _, (C65_authority D mailSem (env D) none fuel _ (guardWorld D) w' (DidParser.coherent_fresh _) (chain D) h guarded (guardLog D) (guardSigned D)
    (guard_unforgeable D) (guard_only D) _ (redelegated_reduce D) _ (List.mem_singleton.2 rfl) _ rfl).2⟩

/-- Beside `C65_circle`: the request is accepted and the log is closed. -/
theorem guard_accepts (D : Deps) : Authorises mailSem [⟨[did 1], some 6, some 10, mail "a@b" 0⟩] (did 1) (mail "a@b" 0) ∧
    ∀ u, guardSigned D u → guarded u.payload.iss → HandsOn D mailSem (mail "a@b" 0) u → guarded u.payload.aud := by
  refine ⟨⟨_, List.mem_singleton.2 rfl, rfl, Or.inl rfl⟩, ?_⟩
  rintro u (rfl | rfl) _ _
  · exact Or.inr (Or.inl rfl)
  · exact Or.inr (Or.inr rfl)

/-- Beside `C65_no_grant_no_access`: party 1 has not granted anything about another mailbox. -/
example (D : Deps) : ∀ u v, guardSigned D u → u.payload.iss = did 1 → Claimed D mailSem u v → ¬ CoveredBy mailSem v (mail "c@d" 0) := by
  rintro u v (rfl | rfl) hi ⟨pre, c, post, e, _, hp⟩ hcov
  · have hc : c ∈ (leaf D).payload.cap.iter := by rw [e]; simp
    have : c = ⟨"mailto:a@b", "msg/send", .obj []⟩ := by simpa [leaf, ucan, payload, caps, Capabilities.iter] using hc
    subst this
    have hv : v = mail "a@b" 0 := (Option.some.inj hp).symm
    subst hv
    rcases hcov with h | h
    · revert h; decide
    · revert h; decide
  · have : did 2 = did 1 := hi
    revert this
    decide

end Ex

/-! ## C66 Re-validation -/

/-- C66: a chain that was built for a supplied time can be built for exactly the times not after the expiry of its root. -/
theorem C66_supplied_time (D : Deps) (E : Env) (t : UInt64) (ht : ClockFixed E t) (hs : StoreFixed E) (token : String) (w : World)
    (hc : Coherent w.parser) (c : Chain) (fuel : Nat) (t0 : UInt64) (h : (ofToken D E (some t0) fuel token w).1 = .ok c) (t1 : UInt64) :
    (∃ fuel', (ofToken D E (some t1) fuel' token w).1 = .ok c) ↔ ∀ e, c.ucan.payload.exp = some e → t1 ≤ e := by
  obtain ⟨hp, hsound⟩ := (C24_complete D E (some t0) t ht hs token w hc c).1 ⟨fuel, h⟩
  rw [C24_complete D E (some t1) t ht hs token w hc c]
  constructor
  · intro h1 e he
    exact (Sound.all h1.2).1.unexpired e he
  · intro h1
    refine ⟨hp, Sound.revalid c hsound fun d hd => ?_⟩
    have hv := (Sound.all (Sound.sub hd hsound)).1
    refine ⟨hv.authentic, fun e he => ?_, hv.active⟩
    obtain ⟨f, hf, hle⟩ := ((encompasses_iff _ _).1 (Chain.sub_encompasses hd hsound)).2 e he
    exact UInt64.le_trans (h1 f hf) hle

/-- C66: a chain that was built when the clock stood at one instant can be built at exactly the instants within the lifetime of its root. -/
theorem C66_clock (D : Deps) (E E' : Env) (t t' : UInt64) (ht : ClockFixed E t) (ht' : ClockFixed E' t') (hs : StoreFixed E) (hs' : StoreFixed E')
    (hsame : ∀ c, E.read 0 c = E'.read 0 c) (token : String) (w : World) (hc : Coherent w.parser) (c : Chain) (fuel : Nat)
    (h : (ofToken D E none fuel token w).1 = .ok c) :
    (∃ fuel', (ofToken D E' none fuel' token w).1 = .ok c) ↔ InLifetime c.ucan t'.toNat := by
  obtain ⟨hp, hsound⟩ := (C24_complete D E none t ht hs token w hc c).1 ⟨fuel, h⟩
  rw [C24_complete D E' none t' ht' hs' token w hc c]
  constructor
  · intro h1
    have hv := (Sound.all h1.2).1
    exact ⟨fun n hn => Int.ofNat_le.2 (UInt64.le_iff_toNat_le.1 (hv.active n hn)),
      fun e he => Int.ofNat_le.2 (UInt64.le_iff_toNat_le.1 (hv.unexpired e he))⟩
  · intro h1
    refine ⟨hp, ?_⟩
    have hsound' : Sound D (ValidAt none w.parser.ctors t) (Holds E') c :=
      Sound.mono (fun _ h => h) (fun cid b hb => (hsame cid).symm.trans hb) c hsound
    refine Sound.revalid c hsound' fun d hd => ?_
    have hv := (Sound.all (Sound.sub hd hsound)).1
    have hl := C11_sound _ _ (Chain.sub_encompasses hd hsound) _ h1
    exact ⟨hv.authentic, fun e he => UInt64.le_iff_toNat_le.2 (Int.ofNat_le.1 (hl.2 e he)),
      fun n hn => UInt64.le_iff_toNat_le.2 (Int.ofNat_le.1 (hl.1 n hn))⟩

/-- Beside C66: the example chain was built at 7 and can be rebuilt at 9 but not at 11. -/
example (D : Deps) : InLifetime (Ex.root D) (9 : UInt64).toNat ∧ ¬ InLifetime (Ex.root D) (11 : UInt64).toNat := by
  refine ⟨⟨?_, ?_⟩, fun h => ?_⟩
  · intro n hn; cases hn; decide
  · intro n hn; cases hn; decide
  · have := h.2 10 rfl
    revert this
    decide

/-! ## C67 Additional proofs -/

theorem Chain.SoundAll.prefix {D : Deps} {F : Cid → Bytes → Prop} (hF : Functional F) {u u' : Ucan} {extra : List String} :
    ∀ (cs cs' : List Chain) (ss : List String), SoundAll D (fun _ => True) F u ss cs → SoundAll D (fun _ => True) F u' (ss ++ extra) cs' →
      ∃ more, cs' = cs ++ more
  | [], cs', _, _, _ => ⟨cs', rfl⟩
  | c :: cs, [], ss, h, h' => by
    simp only [SoundAll] at h h'
    obtain ⟨s, ss', e, _⟩ := h
    rw [e] at h'; cases h'
  | c :: cs, d :: ds, ss, h, h' => by
    simp only [SoundAll] at h h'
    obtain ⟨s, ss', e, hr, _, hs, ha⟩ := h
    obtain ⟨s1, ss1, e1, hr1, _, hs1, ha1⟩ := h'
    rw [e, List.cons_append] at e1; cases e1
    obtain ⟨more, rfl⟩ := SoundAll.prefix hF cs ds ss' ha ha1
    exact ⟨more, by rw [Sound.unique hF c d (Resolves.unique hF hr hr1) hs hs1]; rfl⟩

/-- C67: with the same store content and claims, a token that lists further proofs after those of another offers at least as much, everyone
other than its issuer who granted something still does, and what is reported for the other is covered by what is reported for it. -/
theorem C67_more_proofs (D : Deps) (sem : Semantics S A) (hl : Lawful sem) (E : Env) (hst : StoreFixed E) (nowTime nowTime' : Option UInt64) (w1 w2 w1' w2' : World)
    (hc : Coherent w1.parser) (hc' : Coherent w1'.parser) (c c' : Chain) (h : Built D E nowTime w1 w2 c) (h' : Built D E nowTime' w1' w2' c')
    (hcap : c'.ucan.payload.cap = c.ucan.payload.cap) (extra : List String) (hprf : c'.ucan.payload.prf.getD [] = c.ucan.payload.prf.getD [] ++ extra) :
    (∀ v, Offers D sem c v → Offers D sem c' v) ∧
    (∀ v o, Granted D sem c v o → Granted D sem c' v o ∨ o = c.ucan.payload.iss) ∧
    ∀ out out', reduce D sem c = .ok out → reduce D sem c' = .ok out' → ∀ i ∈ out, ∃ i' ∈ out', CoveredBy sem i'.capability i.capability := by
  have fixed : ∀ {nowTime : Option UInt64} {lo hi : Nat} {ctors : BMap Bytes KeyCtor} {c : Chain}, Sound D (ValidIn E nowTime ctors lo hi) (ReadIn E lo hi) c →
      Sound D (fun _ => True) (Holds E) c := fun h => by
    refine Sound.mono (fun _ _ => trivial) ?_ _ h
    rintro cid b ⟨i, _, _, h3⟩
    rw [hst i 0] at h3; exact h3
  have hs := Sound.all (fixed (built_sound hc h))
  have hs' := Sound.all (fixed (built_sound hc' h'))
  have hall := hs'.2.1
  rw [hprf] at hall
  obtain ⟨more, hmore⟩ := SoundAll.prefix (holds_functional E) _ _ _ hs.2.1 hall
  have hredel : c'.redel = c.redel := by
    refine BSet.ext hs'.2.2.sorted hs.2.2.sorted fun i => ?_
    rw [hs'.2.2.claimed, hs.2.2.claimed, hcap]
  have hclaim : ∀ v, Claimed D sem c.ucan v → Claimed D sem c'.ucan v := by
    intro v hv
    unfold Claimed at hv ⊢
    rw [hcap]; exact hv
  have hget : ∀ (k : Nat) (p : Chain), c.proofs[k]? = some p → c'.proofs[k]? = some p := by
    intro k p hp
    rw [hmore, List.getElem?_append_left (List.getElem?_eq_some_iff.1 hp).1]; exact hp
  have hoff : ∀ v, Offers D sem c v → Offers D sem c' v := by
    intro v hv
    cases hv with
    | claim hv => exact .claim (hclaim v hv)
    | redelegated k hk hp hv => exact .redelegated k (hredel ▸ hk) (hget _ _ hp) hv
  refine ⟨hoff, fun v o hg => ?_, fun out out' hr hr' i hi => ?_⟩
  · rw [granted_iff] at hg ⊢
    rcases hg with ⟨hcl, hin | ⟨ho, _⟩⟩ | ⟨k, p, hk, hp, hg⟩
    · obtain ⟨k, p, v', hp, hk, hg, he⟩ := hin
      exact Or.inl (Or.inl ⟨hclaim v hcl, Or.inl ⟨k, p, v', hget _ _ hp, hredel ▸ hk, hg, he⟩⟩)
    · exact Or.inr ho
    · exact Or.inl (Or.inr ⟨k, p, hredel ▸ hk, hget _ _ hp, hg⟩)
  · exact C33_offered_covered D sem hl c' out' hr' _ (hoff _ (C28_offered D sem c out hr i hi))

/-- Beside C67: the redelegation of the example, listing its proof twice. -/
def Ex.root2 (D : Deps) : Ucan :=
  ucan D 2 (did 3) (some 10) (some 6) (some [(cid 1).toStr, (cid 1).toStr]) (caps ("prf:" ++ asciiStr (Json.decBytes 0)) "ucan/DELEGATE")

def Ex.chain2 (D : Deps) : Chain := .mk (root2 D) [leafChain D, leafChain D] [0]

theorem Ex.chain2_built (D : Deps) : ∃ w', Built D (env D) none world w' (chain2 D) := by
  have hsound : Sound D (ValidAt none exCtors 7) (Holds (env D)) (chain2 D) := by
    have h := Sound.all (chain_sound D)
    have hleaf := SoundAll.mem h.2.1 (leafChain D) (List.mem_singleton.2 rfl)
    have hd : Delegates (leafChain D).ucan (root2 D) := ⟨hleaf.1.addressed, hleaf.1.begins, hleaf.1.ends⟩
    unfold chain2
    simp only [Sound, SoundAll]
    refine ⟨valid D 2 _ 10 6 _ _ 7 (by decide) (by decide), ⟨_, _, rfl, leaf_resolves D, hd, hleaf.2.1, _, [], rfl, leaf_resolves D, hd, hleaf.2.1, rfl⟩, ?_⟩
    exact ⟨h.2.2.sorted, h.2.2.claimed, fun i hi => Nat.lt_succ_of_lt (h.2.2.inRange i hi)⟩
  obtain ⟨fuel, h⟩ := (C24_complete D (env D) none 7 (fun _ => rfl) (fun _ _ _ => rfl) ((root2 D).encode D) world world_coherent (chain2 D)).2
    ⟨parses D 2 _ _ _ _ _ _, hsound⟩
  exact ⟨_, .ofToken fuel _ (by rw [← h])⟩

example (D : Deps) : (Ex.chain2 D).ucan.payload.cap = (Ex.chain D).ucan.payload.cap ∧
    (Ex.chain2 D).ucan.payload.prf.getD [] = (Ex.chain D).ucan.payload.prf.getD [] ++ [(Ex.cid 1).toStr] := ⟨rfl, rfl⟩

end Verif
