import Verif.Model.HashStore
import Verif.Props.EndToEnd
import Verif.Props.Store
import Verif.Spec.AnyStore

/-! # C91 Delegation works with any store and any hash function -/

namespace Verif
open Spec Chain Reduce EndToEnd
open Builder (Op)

variable {S A : Type}

namespace AnyStore

theorem served_unique {E : Env} {lo : Nat} {F : Cid → Bytes → Prop} (hS : ServesFrom E lo F) {c : Cid} {b b' : Bytes} (h : F c b) (h' : F c b') : b' = b := by
  have h1 := hS lo c b (Nat.le_refl _) h
  rw [hS lo c b' (Nat.le_refl _) h'] at h1
  cases h1
  rfl

theorem name_text (D : Deps) (hD : ShortDigests D) (p : Ucan) (h : UInt64) : Cid.parse D (reference D p h) = some (nameOf D p h) :=
  C56_round_trip D _ rfl (hD _ _)

theorem made_inRange {D : Deps} {ctors : BMap Bytes KeyCtor} {V : Ucan → Prop} {F : Cid → Bytes → Prop} {ops : List Op} {u : Ucan} (h : MadeIn D ctors V F ops u)
    {c : Capability} (hc : c ∈ u.payload.cap.iter) {i : Nat} (hi : Redelegates D c i) : i < (ops.filterMap proofCall).length := by
  have hm := (signed_payload h.short h.signed).2.1.mem_iff.1 hc
  have hst := C51_state D ops h.short
  rw [← hst.capabilities] at hm
  have hlen : (Builder.run D ops).proofs.length = (ops.filterMap proofCall).length := by
    rw [hst.proofs]; unfold references; rw [List.length_map]
  rcases C53_claims D ops h.short c hm with ⟨j, rfl, hj⟩ | hown
  · rw [hlen] at hj
    have hlt : j < 2 ^ 64 := by
      have := List.length_filterMap_le proofCall ops
      have := h.short
      omega
    have : Redelegates D (delegation j) j := (C19_index_iff D _ _).1 ⟨_, C19_decimal D j hlt _, rfl⟩
    cases C19_unique D _ i j hi.2 this.2
    exact hj
  · exact h.inRange c i hown hi

theorem proper_parses {D : Deps} {ctors : BMap Bytes KeyCtor} {V : Ucan → Prop} {F : Cid → Bytes → Prop} {u : Ucan} (h : ProperIn D ctors V F u) :
    Ucan.fromStr D (u.encode D) = .ok u := by
  cases h with
  | mk ops _ hm _ => exact (signed_payload hm.short hm.signed).2.2.1

theorem handed_parses {D : Deps} {sem : Semantics S A} {ctors : BMap Bytes KeyCtor} {V : Ucan → Prop} {F : Cid → Bytes → Prop} {u : Ucan} {v : View S A} {o : String}
    (h : HandedIn D sem ctors V F u v o) : Ucan.fromStr D (u.encode D) = .ok u := by
  cases h with
  | granted ops _ _ hm _ _ => exact (signed_payload hm.short hm.signed).2.2.1
  | attenuated ops _ _ _ _ _ _ hm _ _ _ _ _ => exact (signed_payload hm.short hm.signed).2.2.1
  | redelegated ops _ _ _ _ _ hm _ _ => exact (signed_payload hm.short hm.signed).2.2.1

theorem proper_sound {D : Deps} (hD : ShortDigests D) {ctors : BMap Bytes KeyCtor} {V : Ucan → Prop} {F : Cid → Bytes → Prop} {u : Ucan} (h : ProperIn D ctors V F u) :
    ∃ c, c.ucan = u ∧ Sound D (fun u => V u ∧ Authentic ctors u) F c := by
  induction h with
  | mk ops u hm hps ih =>
    have key : ∀ l : List (Ucan × UInt64), (∀ p ∈ l, p ∈ ops.filterMap proofCall) →
        ∃ cs : List Chain, cs.length = l.length ∧ SoundAll D (fun u => V u ∧ Authentic ctors u) F u (l.map fun p => reference D p.1 p.2) cs := by
      intro l
      induction l with
      | nil => intro _; exact ⟨[], rfl, by simp [SoundAll]⟩
      | cons p l ihl =>
        intro hl
        have hp := hl p (by simp)
        obtain ⟨cs, hlen, hcs⟩ := ihl fun q hq => hl q (by simp [hq])
        obtain ⟨c, he, hc⟩ := ih p hp
        refine ⟨c :: cs, by simp [hlen], ?_⟩
        rw [SoundAll]
        refine ⟨_, _, rfl, ?_, ?_, hc, hcs⟩
        · show Resolves D F (reference D p.1 p.2) c.ucan
          rw [he]
          exact ⟨_, p.1.encode D, name_text D hD p.1 p.2, rfl, hm.published p hp, proper_parses (hps p hp)⟩
        · rw [he]; exact hm.delegated p hp
    obtain ⟨cs, hlen, hcs⟩ := key _ fun _ h => h
    obtain ⟨hprf, _, _, hauth⟩ := signed_payload hm.short hm.signed
    obtain ⟨r, hr⟩ := exists_redel fun c hc i hi => made_inRange hm hc hi
    refine ⟨.mk u cs r, rfl, ?_⟩
    rw [Sound]
    refine ⟨⟨hm.timely, hauth⟩, ?_, hlen ▸ hr⟩
    rw [hprf]
    exact hcs

theorem made_proof {D : Deps} (hD : ShortDigests D) {ctors : BMap Bytes KeyCtor} {V W : Ucan → Prop} {F : Cid → Bytes → Prop}
    (hF : ∀ c b b', F c b → F c b' → b' = b) {ops : List Op} {c : Chain} (hm : MadeIn D ctors V F ops c.ucan) (hs : Sound D W F c) {k : Nat}
    {p : Ucan × UInt64} (hp : (ops.filterMap proofCall)[k]? = some p) (hr : Ucan.fromStr D (p.1.encode D) = .ok p.1) :
    ∃ d, c.proofs[k]? = some d ∧ d.ucan = p.1 ∧ Sound D W F d := by
  obtain ⟨_, hall, _⟩ := Sound.all hs
  obtain ⟨hlen, hent⟩ := SoundAll.entry hall
  have hprf := (signed_payload hm.short hm.signed).1
  rw [hprf] at hlen hent
  have hmem : p ∈ ops.filterMap proofCall := List.mem_of_getElem? hp
  have hk : (references D ops)[k]? = some (reference D p.1 p.2) := by
    unfold references
    rw [List.getElem?_map, hp]
    rfl
  have hlt : k < c.proofs.length := by
    rw [hlen]
    exact (List.getElem?_eq_some_iff.1 hk).1
  refine ⟨c.proofs[k], List.getElem?_eq_getElem hlt, ?_, (SoundAll.mem hall _ (List.getElem_mem hlt)).2.1⟩
  obtain ⟨cid, token, h1, _, h3, h4⟩ := hent k _ _ hk (List.getElem?_eq_getElem hlt)
  rw [name_text D hD] at h1
  cases h1
  rw [strBytes_inj (hF _ _ _ (hm.published p hmem) h3), hr] at h4
  exact (Except.ok.inj h4).symm

theorem handed_granted {D : Deps} (hD : ShortDigests D) {sem : Semantics S A} {ctors : BMap Bytes KeyCtor} {V W : Ucan → Prop} {F : Cid → Bytes → Prop}
    (hF : ∀ c b b', F c b → F c b' → b' = b) {u : Ucan} {v : View S A} {o : String} (h : HandedIn D sem ctors V F u v o) :
    ∀ c, c.ucan = u → Sound D W F c → Granted D sem c v o := by
  induction h with
  | granted ops u v hm hno hcl =>
    intro c he hs
    subst he
    rw [granted_iff]
    refine Or.inl ⟨hcl, Or.inr ⟨rfl, ?_⟩⟩
    rintro ⟨o, k, p, v', hp, _⟩
    have := (SoundAll.entry (Sound.all hs).2.1).1
    rw [(signed_payload hm.short hm.signed).1] at this
    unfold references at this
    rw [hno] at this
    cases List.length_eq_zero_iff.1 this ▸ hp
  | attenuated ops u v v' o k p hm hp hnr hh hen hcl ih =>
    intro c he hs
    subst he
    obtain ⟨d, hd, hdu, hds⟩ := made_proof hD hF hm hs hp (handed_parses hh)
    rw [granted_iff]
    refine Or.inl ⟨hcl, Or.inl ⟨k, d, v', hd, ?_, ih d hdu hds, hen⟩⟩
    intro hk
    obtain ⟨cl, hcl, hr⟩ := ((Sound.all hs).2.2.claimed k).1 hk
    exact hnr cl hcl hr
  | redelegated ops u p h v o hm hop hh ih =>
    intro c he hs
    subst he
    obtain ⟨pre, post, rfl⟩ := List.append_of_mem hop
    have hp : ((pre ++ .delegatingFrom p h :: post).filterMap proofCall)[(pre.filterMap proofCall).length]? = some (p, h.getD 0x1e) := by
      rw [List.filterMap_append, List.getElem?_append_right (Nat.le_refl _)]
      simp [proofCall]
    obtain ⟨d, hd, hdu, hds⟩ := made_proof hD hF hm hs hp (handed_parses hh)
    rw [granted_iff]
    refine Or.inr ⟨_, d, ?_, hd, ih d hdu hds⟩
    rw [(Sound.all hs).2.2.claimed]
    refine ⟨delegation (pre.filterMap proofCall).length, ?_, ?_⟩
    · rw [(signed_payload hm.short hm.signed).2.1.mem_iff, claimed_append]
      simp [claimed, claimsOf]
    · refine (C19_index_iff D _ _).1 ⟨_, C19_decimal D _ ?_ _, rfl⟩
      have := List.length_filterMap_le proofCall pre
      have := hm.short
      simp only [List.length_append, List.length_cons] at this
      omega

end AnyStore

open AnyStore

/-- C91: whatever the store and whichever hash functions the parties chose, a token made properly, with authorities at any depth each of
which the store returns under the CID by which it is named, validates with all its authorities; every capability handed to it is
covered by a report that names who granted it and carries the token's lifetime. -/
theorem C91_delegation (D : Deps) (hD : ShortDigests D) (sem : Semantics S A) (hs : Lawful sem) (E : Env) (nowTime : Option UInt64) (w : World)
    (hc : Coherent w.parser) (F : Cid → Bytes → Prop) (hF : ServesFrom E w.tick F) (u : Ucan)
    (hu : ProperIn D w.parser.ctors (Timely E nowTime w.tick) F u) :
    ∃ c w' out, c.ucan = u ∧ (∃ N, ∀ fuel, N ≤ fuel → ofToken D E nowTime fuel (u.encode D) w = (.ok c, w')) ∧ reduce D sem c = .ok out ∧
      ∀ v o, HandedIn D sem w.parser.ctors (Timely E nowTime w.tick) F u v o →
        ∃ i ∈ out, CoveredBy sem i.capability v ∧ o ∈ i.originators ∧ i.notBefore = u.payload.nbf ∧ i.expiresAt = u.payload.exp := by
  obtain ⟨c, hcu, hcs⟩ := AnyStore.proper_sound hD hu
  have hen : Enables E nowTime w.parser.ctors w.tick (fun u => Timely E nowTime w.tick u ∧ Authentic w.parser.ctors u) F := by
    refine ⟨?_, fun i c b hi h => hF i c b hi h⟩
    intro u w1 hc1 hct hlo hv
    have := (C12_validate_iff E u nowTime w1 hc1).2 ⟨(hv.1 _ hlo).1, (hv.1 _ (by omega)).2, hct ▸ hv.2⟩
    exact ⟨(u.validate E nowTime w1).2, by rw [← this]⟩
  have hrun := fun fuel hfuel => ofToken_complete hen fuel (u.encode D) w c hc rfl (Nat.le_refl _) hfuel ((AnyStore.proper_parses hu).trans (by rw [hcu])) hcs
  obtain ⟨w', hw'⟩ := hrun (levels c) (Nat.le_refl _)
  obtain ⟨out, hout⟩ := reduce_total D sem c (Chain.sound_inRange hcs)
  refine ⟨c, w', out, hcu, ⟨levels c, fun fuel hfuel => ?_⟩, hout, ?_⟩
  · rw [← hw']
    exact ofToken_fuel hfuel _ _ (by rw [hw']; simp)
  · intro v o hh
    obtain ⟨i, hi, h1, h2⟩ := C33_covered D sem hs c out hout v o (AnyStore.handed_granted hD (F := F) (fun c b b' => served_unique hF) hh c hcu hcs)
    obtain ⟨h3, h4⟩ := C29_lifetime D sem c out hout i hi
    exact ⟨i, hi, h1, h2, hcu ▸ h3, hcu ▸ h4⟩

/-- C91, conversely: if the token of `u` is accepted, the store was asked for each authority under the CID by which it is named, in the
order of the calls, and answered with the text of a token with the content of the proof at that position. -/
theorem C91_needed (D : Deps) (hD : ShortDigests D) (E : Env) (nowTime : Option UInt64) (w w' : World) (hc : Coherent w.parser) (ctors : BMap Bytes KeyCtor)
    (ops : List Op) (u : Ucan) (hl : ops.length < 2 ^ 64) (h : SignedBy D ctors ops u) (c : Chain) (hu : c.ucan = u) (hb : Built D E nowTime w w' c) :
    c.proofs.length = (ops.filterMap proofCall).length ∧
    ∀ (k : Nat) (p : Ucan × UInt64) (d : Chain), (ops.filterMap proofCall)[k]? = some p → c.proofs[k]? = some d →
      ∃ token i, w.tick ≤ i ∧ i < w'.tick ∧ E.read i (nameOf D p.1 p.2) = .ok (some (.bytes (strBytes token))) ∧ Ucan.fromStr D token = .ok d.ucan := by
  obtain ⟨h1, h2⟩ := C23_mirrors hc hb c (.self c)
  have hprf : c.ucan.payload.prf.getD [] = references D ops := by rw [hu]; exact (signed_payload hl h).1
  rw [hprf] at h1 h2
  refine ⟨by rw [h1]; unfold references; rw [List.length_map], fun k p d hp hd => ?_⟩
  have hk : (references D ops)[k]? = some (reference D p.1 p.2) := by
    unfold references
    rw [List.getElem?_map, hp]
    rfl
  obtain ⟨cid, token, h3, _, ⟨i, h4, h5, h6⟩, h7⟩ := h2 k _ d hk hd
  rw [name_text D hD] at h3
  cases h3
  exact ⟨token, i, h4, h5, h6, h7⟩

/-! ## A store with a hash function of its own -/

/-- What is published in it: the tokens written, under their CIDs. -/
def Spec.FiledIn (D : Deps) (hasher : UInt64) (ts : List String) (c : Cid) (b : Bytes) : Prop :=
  ∃ t ∈ ts, b = strBytes t ∧ c = ⟨true, 0x55, hasher, D.digest hasher (strBytes t)⟩

/-- No two of the tokens have the same digest. -/
def Spec.Distinct (D : Deps) (hasher : UInt64) (ts : List String) : Prop :=
  ∀ s ∈ ts, ∀ t ∈ ts, D.digest hasher (strBytes s) = D.digest hasher (strBytes t) → s = t

/-- C91: such a store returns the tokens written, under their CIDs, and nothing else. -/
theorem C91_filed (D : Deps) (hasher : UInt64) : ∀ (ts : List String), Distinct D hasher ts → ∀ (c : Cid) (b : Bytes),
    Store.hashStore D hasher ts c = some b ↔ FiledIn D hasher ts c b := by
  intro ts
  induction ts with
  | nil =>
    intro _ c b
    constructor
    · intro h; cases h
    · rintro ⟨t, h, _⟩; cases h
  | cons t ts ih =>
    intro hd c b
    have hd' : Distinct D hasher ts := fun s hs x hx => hd s (by simp [hs]) x (by simp [hx])
    show (if c = _ then some (strBytes t) else Store.hashStore D hasher ts c) = some b ↔ _
    split
    · rename_i e
      subst e
      constructor
      · intro h; cases h; exact ⟨t, by simp, rfl, rfl⟩
      · rintro ⟨s, hs, rfl, he⟩
        have : D.digest hasher (strBytes t) = D.digest hasher (strBytes s) := congrArg Cid.digest he
        rw [hd t (by simp) s hs this]
    · rename_i hne
      rw [ih hd' c b]
      constructor
      · rintro ⟨s, hs, h⟩; exact ⟨s, by simp [hs], h⟩
      · rintro ⟨s, hs, h1, h2⟩
        rcases List.mem_cons.1 hs with rfl | hs
        · exact absurd h2 hne
        · exact ⟨s, hs, h1, h2⟩

/-- C91: writing returns the CID under which exactly what was written can be read, and leaves everything else as it was; what is not bytes is
refused without effect. -/
theorem C91_write (D : Deps) (hasher : UInt64) (m : Store.Dags) (v : Ipld) :
    (∀ b, v = .bytes b → ∃ cid m', Store.hashWrite D hasher m v = (.ok cid, m') ∧ cid.hashCode = hasher ∧ cid.digest = D.digest hasher b ∧ m' cid = some b ∧
      ∀ c, c ≠ cid → m' c = m c) ∧
    ((∀ b, v ≠ .bytes b) → ∃ e, Store.hashWrite D hasher m v = (.error (.err e), m)) := by
  constructor
  · rintro b rfl
    refine ⟨_, _, rfl, rfl, rfl, if_pos rfl, fun c hc => if_neg hc⟩
  · intro h
    cases v with
    | bytes b => exact absurd rfl (h b)
    | _ => exact ⟨_, rfl⟩

/-- C91: delegation works with such a store, if the parties name authorities with its hash function. -/
theorem C91_own_hash (D : Deps) (hD : ShortDigests D) (sem : Semantics S A) (hs : Lawful sem) (clock : Nat → UInt64) (hasher : UInt64) (ts : List String)
    (hd : Distinct D hasher ts) (nowTime : Option UInt64) (w : World) (hc : Coherent w.parser) (u : Ucan)
    (hu : ProperIn D w.parser.ctors (Timely (Store.hashEnv D clock hasher ts) nowTime w.tick) (FiledIn D hasher ts) u) :
    ∃ c w' out, c.ucan = u ∧ (∃ N, ∀ fuel, N ≤ fuel → ofToken D (Store.hashEnv D clock hasher ts) nowTime fuel (u.encode D) w = (.ok c, w')) ∧
      reduce D sem c = .ok out ∧
      ∀ v o, HandedIn D sem w.parser.ctors (Timely (Store.hashEnv D clock hasher ts) nowTime w.tick) (FiledIn D hasher ts) u v o →
        ∃ i ∈ out, CoveredBy sem i.capability v ∧ o ∈ i.originators ∧ i.notBefore = u.payload.nbf ∧ i.expiresAt = u.payload.exp := by
  refine C91_delegation D hD sem hs _ nowTime w hc _ (fun i c b _ h => ?_) u hu
  exact Chain.memRead_bytes.2 ((C91_filed D hasher ts hd c b).2 h)

/-- C91: an authority named with another hash function than the store's makes the token unusable with this store. -/
theorem C91_wrong_hash (D : Deps) (hD : ShortDigests D) (clock : Nat → UInt64) (hasher : UInt64) (ts : List String)
    (nowTime : Option UInt64) (w w' : World) (hc : Coherent w.parser) (ctors : BMap Bytes KeyCtor)
    (ops : List Op) (u : Ucan) (hl : ops.length < 2 ^ 64) (h : SignedBy D ctors ops u) (p : Ucan × UInt64) (hp : p ∈ ops.filterMap proofCall)
    (hne : p.2 ≠ hasher) (c : Chain) (hu : c.ucan = u) : ¬ Built D (Store.hashEnv D clock hasher ts) nowTime w w' c := by
  intro hb
  obtain ⟨h1, h2⟩ := C91_needed D hD _ nowTime w w' hc ctors ops u hl h c hu hb
  obtain ⟨k, hk, hkp⟩ := List.getElem_of_mem hp
  have hlt : k < c.proofs.length := by omega
  obtain ⟨token, i, _, _, hr, _⟩ := h2 k p c.proofs[k] (by rw [List.getElem?_eq_getElem hk, hkp]) (List.getElem?_eq_getElem hlt)
  have hr := Chain.memRead_bytes.1 hr
  have key : ∀ ts : List String, ∀ c b, Store.hashStore D hasher ts c = some b → c.hashCode = hasher := by
    intro ts
    induction ts with
    | nil => intro c b h; cases h
    | cons t ts ih =>
      intro c b h
      change (if c = _ then some (strBytes t) else Store.hashStore D hasher ts c) = some b at h
      split at h
      · rename_i e; rw [e]
      · exact ih c b h
  exact hne (key ts _ _ hr)

/-- C63 in terms of the builder: each call that adds an authority adds the CID of its token, by the hash function given in the call (Blake3 if none
is). If that is Blake3 the entry resolves to the authority once its token is written to a memory store; otherwise nothing that is ever written to
one is found under it. -/
theorem C63_builder (D : Deps) (hD : ShortDigests D) (ops : List Op) (hl : ops.length < 2 ^ 64) (p : Ucan × UInt64) (hp : p ∈ ops.filterMap proofCall) :
    ∃ s ∈ (Builder.run D ops).proofs, Cid.parse D s = some (nameOf D p.1 p.2) ∧
      (p.2 = 0x1e → Ucan.fromStr D (p.1.encode D) = .ok p.1 → ∀ m, Resolves D (fun c b => (Store.writeToken D m (p.1.encode D)).2 c = some b) s p.1) ∧
      (p.2 ≠ 0x1e → ∀ l g, (Store.after D l).dags g (nameOf D p.1 p.2) = none) := by
  refine ⟨reference D p.1 p.2, ?_, name_text D hD _ _, fun h hu m => ?_, fun h l g => ?_⟩
  · rw [(C51_state D ops hl).proofs]
    exact List.mem_map.2 ⟨p, hp, rfl⟩
  · refine ⟨_, _, name_text D hD _ _, rfl, ?_, hu⟩
    rw [h]
    show (if _ = _ then _ else _) = _
    exact if_pos rfl
  · cases hg : (Store.after D l).dags g (nameOf D p.1 p.2) with
    | none => rfl
    | some b => exact absurd (congrArg Cid.hashCode (C50_content D l g _ b hg)) h

namespace Ex

/-- Key 2 hands on what it holds, naming the authority by its Blake2b digest. -/
def blakeCalls (aud : String) (uA : Ucan) : List Op := [.issuedBy (toyKey 2), .forAudience aud, .withExpiration 10, .delegatingFrom uA (some 0xb220)]

/-- Beside C91: two keys and a Blake2b store. -/
example (D : Deps) (hD : ShortDigests D) : ∃ (uA uB : Ucan) (dA : String) (ch : Chain) (w' : World) (out : List (Info String Nat)),
    (toyKey 1).did = .ok dA ∧ SignedBy D toyCtors (blakeCalls "did:key:z3" uA) uB ∧
    (∃ N, ∀ fuel, N ≤ fuel → ofToken D (Store.hashEnv D (fun _ => 7) 0xb220 [uA.encode D]) none fuel (uB.encode D) ⟨0, ⟨toyCtors, []⟩⟩ = (.ok ch, w')) ∧
    reduce D mailSem ch = .ok out ∧ ∃ i ∈ out, CoveredBy mailSem i.capability (mail "a@b" 0) ∧ dA ∈ i.originators := by
  obtain ⟨dA, _, hdA, _⟩ := toy_denotes 1
  obtain ⟨dB, _, hdB, _⟩ := toy_denotes 2
  have hA : ∃ u, SignedBy D toyCtors (grantCalls (toyKey 1) dB 20 ⟨"mailto:a@b", "msg/send", .obj []⟩) u :=
    ⟨_, toy_signed D 1 _ _ _ ⟨fun _ => 0, fun _ _ => .ok none⟩ ⟨0, ⟨[], []⟩⟩ ⟨0, ⟨[], []⟩⟩ rfl rfl rfl
      (plain_ok D _ rfl (by intro c hc; cases List.mem_singleton.1 hc; rfl))⟩
  obtain ⟨uA, hA⟩ := hA
  have hB : ∃ u, SignedBy D toyCtors (blakeCalls "did:key:z3" uA) u := by
    have hst := C51_state D (blakeCalls "did:key:z3" uA) (by simp [blakeCalls])
    have hcap : (Builder.run D (blakeCalls "did:key:z3" uA)).capabilities = [delegation 0] := hst.capabilities
    have hb : (Builder.run D (blakeCalls "did:key:z3" uA)).build ⟨fun _ => 0, fun _ _ => .ok none⟩ true ⟨0, ⟨[], []⟩⟩ =
        (.ok ⟨toyKey 2, "did:key:z3", [delegation 0], some 10, none, [], references D (blakeCalls "did:key:z3" uA), false⟩, ⟨0, ⟨[], []⟩⟩) := by
      rw [Builder.build_eq (k := toyKey 2) (a := "did:key:z3") hst.issuer hst.audience,
        M.bind_of_ok (Builder.impliedExpiration_explicit (t := 10) hst.expiration _), hcap, hst.notBefore, hst.facts, hst.proofs, hst.addNonce]
      rfl
    exact ⟨_, toy_signed D 2 _ _ _ _ _ _ hb rfl rfl (plain_ok D _ rfl (by intro c hc; cases List.mem_singleton.1 hc; rfl))⟩
  obtain ⟨uB, hB⟩ := hB
  have hlA : (grantCalls (toyKey 1) dB 20 ⟨"mailto:a@b", "msg/send", .obj []⟩).length < 2 ^ 64 := by simp [grantCalls]
  have hlB : (blakeCalls "did:key:z3" uA).length < 2 ^ 64 := by simp [blakeCalls]
  obtain ⟨iA, aA, eA, nA⟩ := signed_fields (k := toyKey 1) (a := dB) (e := 20) hlA hA rfl rfl rfl
  obtain ⟨iB, aB, eB, nB⟩ := signed_fields (k := toyKey 2) (a := "did:key:z3") (e := 10) hlB hB rfl rfl rfl
  have nA : uA.payload.nbf = none := nA
  have nB : uB.payload.nbf = none := nB
  have iA : dA = uA.payload.iss := by rw [hdA] at iA; cases iA; rfl
  have iB : dB = uB.payload.iss := by rw [hdB] at iB; cases iB; rfl
  obtain ⟨_, capA, _, _⟩ := signed_payload hlA hA
  have capA : uA.payload.cap.iter = [⟨"mailto:a@b", "msg/send", .obj []⟩] := List.perm_singleton.1 capA
  let E := Store.hashEnv D (fun _ => 7) 0xb220 [uA.encode D]
  have tA : Timely E none 0 uA := by
    refine fun i _ => ⟨fun e' he' => ?_, fun n hn' => ?_⟩
    · rw [eA] at he'; cases he'
      show (7 : UInt64) ≤ 20; decide
    · rw [nA] at hn'; cases hn'
  have tB : Timely E none 0 uB := by
    refine fun i _ => ⟨fun e' he' => ?_, fun n hn' => ?_⟩
    · rw [eB] at he'; cases he'
      show (7 : UInt64) ≤ 10; decide
    · rw [nB] at hn'; cases hn'
  have mA : MadeIn D toyCtors (Timely E none 0) (FiledIn D 0xb220 [uA.encode D]) (grantCalls (toyKey 1) dB 20 ⟨"mailto:a@b", "msg/send", .obj []⟩) uA := by
    refine ⟨hlA, hA, tA, by simp [grantCalls, proofCall], by simp [grantCalls, proofCall], ?_⟩
    intro x i hx hi
    rcases hx with hx | ⟨l, hx, _⟩
    · have : x = ⟨"mailto:a@b", "msg/send", .obj []⟩ := by simpa [grantCalls] using hx
      subst this
      exact absurd hi (mail_not_redelegating D i)
    · simp [grantCalls] at hx
  have mB : MadeIn D toyCtors (Timely E none 0) (FiledIn D 0xb220 [uA.encode D]) (blakeCalls "did:key:z3" uA) uB := by
    have hp : ∀ p ∈ (blakeCalls "did:key:z3" uA).filterMap proofCall, p = (uA, 0xb220) := by simp [blakeCalls, proofCall]
    refine ⟨hlB, hB, tB, fun p h => by rw [hp p h]; exact ⟨_, by simp, rfl, rfl⟩, fun p h => ?_, ?_⟩
    · rw [hp p h]
      refine ⟨aA.trans iB, fun n hn' => by (rw [nA] at hn'; cases hn'), fun e' he' => ?_⟩
      rw [eA] at he'
      cases he'
      exact ⟨10, eB, by decide⟩
    · intro x i hx
      rcases hx with hx | ⟨l, hx, _⟩ <;> simp [blakeCalls] at hx
  have hd : Distinct D 0xb220 [uA.encode D] := by
    intro s hs t ht _
    rw [List.mem_singleton.1 hs, List.mem_singleton.1 ht]
  have hprop : ProperIn D toyCtors (Timely E none 0) (FiledIn D 0xb220 [uA.encode D]) uB := by
    refine .mk _ uB mB fun p hp => ?_
    have : (uA, 0xb220) = p := by simpa [blakeCalls, proofCall, eq_comm] using hp
    subst this
    exact .mk _ uA mA fun p hp => by simp [grantCalls, proofCall] at hp
  obtain ⟨c, w', out, _, h1, h2, h3⟩ := C91_own_hash D hD mailSem mailSem_lawful (fun _ => 7) 0xb220 _ hd none ⟨0, ⟨toyCtors, []⟩⟩ (DidParser.coherent_fresh _) uB hprop
  obtain ⟨i, hi, hcov, ho, _⟩ := h3 (mail "a@b" 0) dA (.redelegated _ uB uA (some 0xb220) _ dA mB (by simp [blakeCalls]) (by
    rw [iA]
    exact .granted _ uA _ mA (by simp [grantCalls, proofCall]) ⟨[], _, [], capA, by simp, rfl⟩))
  exact ⟨uA, uB, dA, c, w', out, hdA, hB, h1, h2, i, hi, hcov, ho⟩

end Ex

end Verif
