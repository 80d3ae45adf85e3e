import Verif.Props.Builder
import Verif.Props.Reduce
import Verif.Props.Crypto
import Verif.Props.ReduceExamples
import Verif.Spec.EndToEnd

/-! # Property C55: delegation from end to end -/

namespace Verif
open Spec Chain Reduce
open Builder (Op)

variable {S A : Type}

namespace EndToEnd

/-- What the calls say about the signed UCAN. -/
theorem signed_payload {D : Deps} {ctors : BMap Bytes KeyCtor} {ops : List Op} {u : Ucan} (hl : ops.length < 2 ^ 64) (h : SignedBy D ctors ops u) :
    u.payload.prf.getD [] = references D ops ∧ u.payload.cap.iter.Perm (claimed 0 ops) ∧ Ucan.fromStr D (u.encode D) = .ok u ∧ Authentic ctors u := by
  obtain ⟨E, checked, w, w', s, rnd, key, hb, hs, hok, hk, ha⟩ := h
  obtain ⟨_, _, hcap, _, _, hprf, _, _⟩ := C51_built D E checked ops hl w w' s hb
  obtain ⟨_, _, _, _, _, hperm, _, _, hp, _⟩ := C54_payload D s rnd u hs
  refine ⟨?_, hcap ▸ hperm, C01_round_trip D s rnd u hok hs, sign_authentic hs hk ha⟩
  rw [hp, ← hprf]
  split
  · rename_i e; rw [e]; rfl
  · rfl

/-- The redelegated indices of a made UCAN are in range. -/
theorem made_inRange {D : Deps} {ctors : BMap Bytes KeyCtor} {V : Ucan → Prop} {H : Bytes → Prop} {ops : List Op} {u : Ucan} (h : Made D ctors V H ops u)
    {c : Capability} (hc : c ∈ u.payload.cap.iter) {i : Nat} (hi : Redelegates D c i) : i < (ops.filterMap proofCall).length := by
  have hm := (signed_payload h.short h.signed).2.1.mem_iff.1 hc
  have hst := C51_state D ops h.short
  rw [← hst.capabilities] at hm
  have hlen : (Builder.run D ops).proofs.length = (ops.filterMap proofCall).length := by
    rw [hst.proofs]; unfold references; rw [List.length_map]
  rcases C53_claims D ops h.short c hm with ⟨j, rfl, hj⟩ | hown
  · rw [hlen] at hj
    have hlt : j < 2 ^ 64 := by
      have := List.length_filterMap_le proofCall ops
      have := h.short
      omega
    have : Redelegates D (delegation j) j := (C19_index_iff D _ _).1 ⟨_, C19_decimal D j hlt _, rfl⟩
    cases C19_unique D _ i j hi.2 this.2
    exact hj
  · exact h.inRange c i hown hi

/-- The text of a reference stands for the authority it was made from. -/
theorem reference_resolves {D : Deps} (hD : ShortDigests D) {F : Cid → Bytes → Prop} {H : Bytes → Prop} (hF : ∀ b, H b → F (Store.blockCid D b) b) {p : Ucan}
    (hp : Ucan.fromStr D (p.encode D) = .ok p) (hH : H (strBytes (p.encode D))) : Resolves D F (reference D p 0x1e) p :=
  ⟨_, p.encode D, C56_round_trip D _ rfl (hD _ _), rfl, hF _ hH, hp⟩

theorem resolves_eq {D : Deps} (hD : ShortDigests D) {F : Cid → Bytes → Prop} {H : Bytes → Prop} (hF : ∀ b b', H b → F (Store.blockCid D b) b' → b' = b) {p q : Ucan}
    (hp : Ucan.fromStr D (p.encode D) = .ok p) (hH : H (strBytes (p.encode D))) (h : Resolves D F (reference D p 0x1e) q) : q = p := by
  obtain ⟨cid, token, h1, _, h3, h4⟩ := h
  have h1' : Cid.parse D (reference D p 0x1e) = _ := C56_round_trip D _ rfl (hD _ _)
  rw [h1'] at h1
  cases h1
  have := strBytes_inj (hF _ _ hH h3)
  rw [this, hp] at h4
  cases h4
  rfl

/-- Distinct positions below a bound that satisfy a decidable condition, as a sorted set. -/
theorem exists_redel {D : Deps} {u : Ucan} {n : Nat} (h : ∀ c ∈ u.payload.cap.iter, ∀ i, Redelegates D c i → i < n) : ∃ r, RedelOk D u n r := by
  classical
  refine ⟨(List.range n).filter fun i => ∃ c ∈ u.payload.cap.iter, Redelegates D c i, ?_, ?_, ?_⟩
  · exact List.Pairwise.filter _ (List.pairwise_lt_range.imp fun h => by simpa [OrdKey.lt] using h)
  · intro i
    rw [List.mem_filter, List.mem_range]
    constructor
    · rintro ⟨_, h⟩; simpa using h
    · intro hi
      obtain ⟨c, hc, hi'⟩ := hi
      exact ⟨h c hc i hi', by simpa using ⟨c, hc, hi'⟩⟩
  · intro i hi
    exact List.mem_range.1 (List.mem_filter.1 hi).1

theorem proper_parses {D : Deps} {ctors : BMap Bytes KeyCtor} {V : Ucan → Prop} {H : Bytes → Prop} {u : Ucan} (h : Proper D ctors V H u) :
    Ucan.fromStr D (u.encode D) = .ok u := by
  cases h with
  | mk ops _ hm _ => exact (signed_payload hm.short hm.signed).2.2.1

theorem handed_parses {D : Deps} {sem : Semantics S A} {ctors : BMap Bytes KeyCtor} {V : Ucan → Prop} {H : Bytes → Prop} {u : Ucan} {v : View S A} {o : String}
    (h : Handed D sem ctors V H u v o) : Ucan.fromStr D (u.encode D) = .ok u := by
  cases h with
  | granted ops _ _ hm _ _ => exact (signed_payload hm.short hm.signed).2.2.1
  | attenuated ops _ _ _ _ _ _ hm _ _ _ _ _ => exact (signed_payload hm.short hm.signed).2.2.1
  | redelegated ops _ _ _ _ _ hm _ _ => exact (signed_payload hm.short hm.signed).2.2.1

/-- Properly made tokens have a sound chain. -/
theorem proper_sound {D : Deps} (hD : ShortDigests D) {ctors : BMap Bytes KeyCtor} {V : Ucan → Prop} {F : Cid → Bytes → Prop} {H : Bytes → Prop}
    (hF : ∀ b, H b → F (Store.blockCid D b) b) {u : Ucan} (h : Proper D ctors V H u) :
    ∃ c, c.ucan = u ∧ Sound D (fun u => V u ∧ Authentic ctors u) F c := by
  induction h with
  | mk ops u hm hps ih =>
    have key : ∀ l : List (Ucan × UInt64), (∀ p ∈ l, p ∈ ops.filterMap proofCall) →
        ∃ cs : List Chain, cs.length = l.length ∧ SoundAll D (fun u => V u ∧ Authentic ctors u) F u (l.map fun p => reference D p.1 p.2) cs := by
      intro l
      induction l with
      | nil => intro _; exact ⟨[], rfl, by simp [SoundAll]⟩
      | cons p l ihl =>
        intro hl
        have hp := hl p (by simp)
        obtain ⟨cs, hlen, hcs⟩ := ihl fun q hq => hl q (by simp [hq])
        obtain ⟨c, he, hc⟩ := ih p hp
        refine ⟨c :: cs, by simp [hlen], ?_⟩
        rw [SoundAll]
        refine ⟨_, _, rfl, ?_, ?_, hc, hcs⟩
        · show Resolves D F (reference D p.1 p.2) c.ucan
          rw [hm.hashed p hp, he]
          exact reference_resolves hD hF (proper_parses (hps p hp)) (hm.published p hp)
        · rw [he]; exact hm.delegated p hp
    obtain ⟨cs, hlen, hcs⟩ := key _ fun _ h => h
    obtain ⟨hprf, _, _, hauth⟩ := signed_payload hm.short hm.signed
    obtain ⟨r, hr⟩ := exists_redel fun c hc i hi => made_inRange hm hc hi
    refine ⟨.mk u cs r, rfl, ?_⟩
    rw [Sound]
    refine ⟨⟨hm.timely, hauth⟩, ?_, hlen ▸ hr⟩
    rw [hprf]
    exact hcs

/-- In a sound chain of a made token, the proof at a position is the authority named by the call at that position. -/
theorem made_proof {D : Deps} (hD : ShortDigests D) {ctors : BMap Bytes KeyCtor} {V W : Ucan → Prop} {F : Cid → Bytes → Prop} {H : Bytes → Prop}
    (hF : ∀ b b', H b → F (Store.blockCid D b) b' → b' = b) {ops : List Op} {c : Chain} (hm : Made D ctors V H ops c.ucan) (hs : Sound D W F c) {k : Nat}
    {p : Ucan × UInt64} (hp : (ops.filterMap proofCall)[k]? = some p) (hr : Ucan.fromStr D (p.1.encode D) = .ok p.1) :
    ∃ d, c.proofs[k]? = some d ∧ d.ucan = p.1 ∧ Sound D W F d := by
  obtain ⟨_, hall, _⟩ := Sound.all hs
  obtain ⟨hlen, hent⟩ := SoundAll.entry hall
  have hprf := (signed_payload hm.short hm.signed).1
  rw [hprf] at hlen hent
  have hmem : p ∈ ops.filterMap proofCall := List.mem_of_getElem? hp
  have hk : (references D ops)[k]? = some (reference D p.1 p.2) := by
    unfold references
    rw [List.getElem?_map, hp]
    rfl
  have hlt : k < c.proofs.length := by
    rw [hlen]
    exact (List.getElem?_eq_some_iff.1 hk).1
  refine ⟨c.proofs[k], List.getElem?_eq_getElem hlt, ?_, (SoundAll.mem hall _ (List.getElem_mem hlt)).2.1⟩
  have h := hent k _ _ hk (List.getElem?_eq_getElem hlt)
  rw [hm.hashed p hmem] at h
  exact resolves_eq hD hF hr (hm.published p hmem) h

/-- What was handed to a token was granted in its chain. -/
theorem handed_granted {D : Deps} (hD : ShortDigests D) {sem : Semantics S A} {ctors : BMap Bytes KeyCtor} {V W : Ucan → Prop} {F : Cid → Bytes → Prop}
    {H : Bytes → Prop} (hF : ∀ b b', H b → F (Store.blockCid D b) b' → b' = b) {u : Ucan} {v : View S A} {o : String} (h : Handed D sem ctors V H u v o) :
    ∀ c, c.ucan = u → Sound D W F c → Granted D sem c v o := by
  induction h with
  | granted ops u v hm hno hcl =>
    intro c he hs
    subst he
    rw [granted_iff]
    refine Or.inl ⟨hcl, Or.inr ⟨rfl, ?_⟩⟩
    rintro ⟨o, k, p, v', hp, _⟩
    have := (SoundAll.entry (Sound.all hs).2.1).1
    rw [(signed_payload hm.short hm.signed).1] at this
    unfold references at this
    rw [hno] at this
    cases List.length_eq_zero_iff.1 this ▸ hp
  | attenuated ops u v v' o k p hm hp hnr hh hen hcl ih =>
    intro c he hs
    subst he
    obtain ⟨d, hd, hdu, hds⟩ := made_proof hD hF hm hs hp (handed_parses hh)
    rw [granted_iff]
    refine Or.inl ⟨hcl, Or.inl ⟨k, d, v', hd, ?_, ih d hdu hds, hen⟩⟩
    intro hk
    obtain ⟨cl, hcl, hr⟩ := ((Sound.all hs).2.2.claimed k).1 hk
    exact hnr cl hcl hr
  | redelegated ops u p h v o hm hop hh ih =>
    intro c he hs
    subst he
    obtain ⟨pre, post, rfl⟩ := List.append_of_mem hop
    have hp : ((pre ++ .delegatingFrom p h :: post).filterMap proofCall)[(pre.filterMap proofCall).length]? = some (p, h.getD 0x1e) := by
      rw [List.filterMap_append, List.getElem?_append_right (Nat.le_refl _)]
      simp [proofCall]
    obtain ⟨d, hd, hdu, hds⟩ := made_proof hD hF hm hs hp (handed_parses hh)
    rw [granted_iff]
    refine Or.inr ⟨_, d, ?_, hd, ih d hdu hds⟩
    rw [(Sound.all hs).2.2.claimed]
    refine ⟨delegation (pre.filterMap proofCall).length, ?_, ?_⟩
    · rw [(signed_payload hm.short hm.signed).2.1.mem_iff, claimed_append]
      simp [claimed, claimsOf]
    · refine (C19_index_iff D _ _).1 ⟨_, C19_decimal D _ ?_ _, rfl⟩
      have := List.length_filterMap_le proofCall pre
      have := hm.short
      simp only [List.length_append, List.length_cons] at this
      omega

/-- Each token is in its lifetime at every instant from tick `lo` on. -/
def _root_.Verif.Spec.Timely (E : Env) (nowTime : Option UInt64) (lo : Nat) (u : Ucan) : Prop :=
  ∀ i, lo ≤ i → Unexpired u (nowTime.getD (E.clock i)) ∧ Active u (E.clock i)

theorem timely_enables {D : Deps} {E : Env} {g : Nat} {l : Nat → List Store.Op} (hE : Served D E g l) (hl : ∀ i j, i ≤ j → l i <:+ l j)
    (hn : ∀ i, NoCollision D g (l i)) (nowTime : Option UInt64) (ctors : BMap Bytes KeyCtor) (lo : Nat) :
    Enables E nowTime ctors lo (fun u => Timely E nowTime lo u ∧ Authentic ctors u) (fun c b => c = Store.blockCid D b ∧ Written g b (l lo)) := by
  refine ⟨?_, ?_⟩
  · intro u w hc hct hlo hv
    have := (C12_validate_iff E u nowTime w hc).2 ⟨(hv.1 _ hlo).1, (hv.1 _ (by omega)).2, hct ▸ hv.2⟩
    exact ⟨(u.validate E nowTime w).2, by rw [← this]⟩
  · rintro i c b hi ⟨rfl, hw⟩
    have hw := hw.suffix (hl _ _ hi)
    obtain ⟨b', hb'⟩ := written_stored (D := D) hw
    obtain ⟨hw', e⟩ := stored_written hb'
    rw [hE, Chain.memRead_bytes, (Store.refines D (l i)).dags, hb', hn i b' b hw' hw e]

end EndToEnd

open EndToEnd

/-- C55: a token made properly, with authorities at any depth all of which are in the memory store when validation starts, validates with
all its authorities while other handles keep writing and the clock moves; every capability handed to it is covered by a
report that names who granted it and carries the token's lifetime. -/
theorem C55_delegation (D : Deps) (hD : ShortDigests D) (sem : Semantics S A) (hs : Lawful sem) (E : Env) (g : Nat) (l : Nat → List Store.Op)
    (hE : Served D E g l) (hl : ∀ i j, i ≤ j → l i <:+ l j) (hn : ∀ i, NoCollision D g (l i)) (nowTime : Option UInt64) (w : World)
    (hc : Coherent w.parser) (u : Ucan)
    (hu : Proper D w.parser.ctors (Timely E nowTime w.tick) (fun b => Written g b (l w.tick)) u) :
    ∃ c w' out, c.ucan = u ∧ (∃ N, ∀ fuel, N ≤ fuel → ofToken D E nowTime fuel (u.encode D) w = (.ok c, w')) ∧ reduce D sem c = .ok out ∧
      ∀ v o, Handed D sem w.parser.ctors (Timely E nowTime w.tick) (fun b => Written g b (l w.tick)) u v o →
        ∃ i ∈ out, CoveredBy sem i.capability v ∧ o ∈ i.originators ∧ i.notBefore = u.payload.nbf ∧ i.expiresAt = u.payload.exp := by
  have hF : ∀ b, Written g b (l w.tick) → (fun c b => c = Store.blockCid D b ∧ Written g b (l w.tick)) (Store.blockCid D b) b := fun b hb => ⟨rfl, hb⟩
  have hF' : ∀ b b', Written g b (l w.tick) → (fun c b => c = Store.blockCid D b ∧ Written g b (l w.tick)) (Store.blockCid D b) b' → b' = b :=
    fun b b' hb hb' => (hn _ b b' hb hb'.2 hb'.1).symm
  obtain ⟨c, hcu, hcs⟩ := proper_sound hD (F := fun c b => c = Store.blockCid D b ∧ Written g b (l w.tick)) hF hu
  have hen := timely_enables hE hl hn nowTime w.parser.ctors w.tick
  have hrun := fun fuel hfuel => ofToken_complete hen fuel (u.encode D) w c hc rfl (Nat.le_refl _) hfuel ((proper_parses hu).trans (by rw [hcu])) hcs
  obtain ⟨w', hw'⟩ := hrun (levels c) (Nat.le_refl _)
  obtain ⟨out, hout⟩ := reduce_total D sem c (Chain.sound_inRange hcs)
  refine ⟨c, w', out, hcu, ⟨levels c, fun fuel hfuel => ?_⟩, hout, ?_⟩
  · rw [← hw']
    exact ofToken_fuel hfuel _ _ (by rw [hw']; simp)
  · intro v o hh
    obtain ⟨i, hi, h1, h2⟩ := C33_covered D sem hs c out hout v o (handed_granted hD (F := fun c b => c = Store.blockCid D b ∧ Written g b (l w.tick)) hF' hh c hcu hcs)
    obtain ⟨h3, h4⟩ := C29_lifetime D sem c out hout i hi
    exact ⟨i, hi, h1, h2, hcu ▸ h3, hcu ▸ h4⟩

/-- C55: a claim made in a builder call is a claim of the token, if the semantics understands all claims listed before it. -/
theorem C55_claim (D : Deps) (sem : Semantics S A) (ctors : BMap Bytes KeyCtor) (ops : List Op) (u : Ucan) (hl : ops.length < 2 ^ 64) (h : SignedBy D ctors ops u)
    (c : Capability) (hc : c ∈ claimed 0 ops) (v : View S A) (hv : sem.parseCapability D c = some v)
    (hb : ∀ x ∈ claimed 0 ops, KeyLe x c → sem.parseCapability D x ≠ none) : Claimed D sem u v := by
  obtain ⟨_, hperm, _⟩ := signed_payload hl h
  obtain ⟨E, checked, w, w', s, rnd, key, _, hs, _⟩ := h
  have hord := C16_ordered (ucanPayload_ok (sign_ok hs).1).2.1
  obtain ⟨pre, post, hpp⟩ := List.append_of_mem (hperm.mem_iff.2 hc)
  refine ⟨pre, c, post, hpp, fun x hx => hb x (hperm.mem_iff.1 (by rw [hpp]; simp [hx])) ?_, hv⟩
  rw [hpp] at hord
  exact (List.pairwise_append.1 hord).2.2 x hx c (by simp)

/-- The calls that grant a capability. -/
def Spec.grantCalls (k : Key) (aud : String) (exp : UInt64) (c : Capability) : List Op :=
  [.issuedBy k, .forAudience aud, .withExpiration exp, .claimingCapability c]
/-- The calls that hand on everything in a token. -/
def Spec.handOnCalls (k : Key) (aud : String) (exp : UInt64) (u : Ucan) : List Op :=
  [.issuedBy k, .forAudience aud, .withExpiration exp, .delegatingFrom u none]

theorem EndToEnd.signed_fields {D : Deps} {ctors : BMap Bytes KeyCtor} {ops : List Op} {u : Ucan} (hl : ops.length < 2 ^ 64) (h : SignedBy D ctors ops u) {k : Key}
    (hk : lastCall issuerCall ops = some k) {a : String} (ha : lastCall audienceCall ops = some a) {e : UInt64} (he : lastCall expirationCall ops = some e) :
    k.did = .ok u.payload.iss ∧ u.payload.aud = a ∧ u.payload.exp = some e ∧ u.payload.nbf = lastCall notBeforeCall ops := by
  obtain ⟨E, checked, w, w', s, rnd, key, hb, hs, hok, _⟩ := h
  obtain ⟨h1, h2, _, h4, _, _, _, h8⟩ := C51_built D E checked ops hl w w' s hb
  obtain ⟨_, p2, p3, p4, p5, _⟩ := C54_payload D s rnd u hs
  rw [hk] at h1
  rw [ha] at h2
  rw [he] at h8
  cases h1
  cases h2
  exact ⟨p2, p3, p4.trans h8, p5.trans h4⟩

/-- C55 for two parties: A grants `c` to B, B hands it on with `delegating_from`; the report is exactly the capability, granted by A, with the
lifetime of B's token. -/
theorem C55_two_parties (D : Deps) (hD : ShortDigests D) (sem : Semantics S A) (E : Env) (g : Nat) (l : Nat → List Store.Op) (hE : Served D E g l)
    (hl : ∀ i j, i ≤ j → l i <:+ l j) (hn : ∀ i, NoCollision D g (l i)) (w : World) (hc : Coherent w.parser) (kA kB : Key) (a b z : String)
    (ha : kA.did = .ok a) (hb : kB.did = .ok b) (c : Capability) (v : View S A) (hv : sem.parseCapability D c = some v)
    (hc' : ∀ i, ¬ Redelegates D c i) (hsem : sem.parseCapability D (delegation 0) = none) (e f : UInt64) (hef : f ≤ e) (uA uB : Ucan)
    (hA : SignedBy D w.parser.ctors (grantCalls kA b e c) uA) (hB : SignedBy D w.parser.ctors (handOnCalls kB z f uA) uB)
    (hstored : Written g (strBytes (uA.encode D)) (l w.tick)) (hclock : ∀ i, E.clock i ≤ f) :
    ∃ ch w', (∃ N, ∀ fuel, N ≤ fuel → ofToken D E none fuel (uB.encode D) w = (.ok ch, w')) ∧
      reduce D sem ch = .ok [⟨[a], none, some f, v⟩] ∧
      Proper D w.parser.ctors (Timely E none w.tick) (fun b => Written g b (l w.tick)) uB ∧
      Handed D sem w.parser.ctors (Timely E none w.tick) (fun b => Written g b (l w.tick)) uB v a := by
  have hlA : (grantCalls kA b e c).length < 2 ^ 64 := by simp [grantCalls]
  have hlB : (handOnCalls kB z f uA).length < 2 ^ 64 := by simp [handOnCalls]
  obtain ⟨iA, aA, eA, nA⟩ := signed_fields (k := kA) (a := b) (e := e) hlA hA rfl rfl rfl
  obtain ⟨iB, aB, eB, nB⟩ := signed_fields (k := kB) (a := z) (e := f) hlB hB rfl rfl rfl
  have nA : uA.payload.nbf = none := nA
  have nB : uB.payload.nbf = none := nB
  have iA : a = uA.payload.iss := by rw [ha] at iA; cases iA; rfl
  have iB : b = uB.payload.iss := by rw [hb] at iB; cases iB; rfl
  obtain ⟨prfA, capA, parA, _⟩ := signed_payload hlA hA
  obtain ⟨prfB, capB, parB, _⟩ := signed_payload hlB hB
  have capA : uA.payload.cap.iter = [c] := List.perm_singleton.1 capA
  have capB : uB.payload.cap.iter = [delegation 0] := List.perm_singleton.1 capB
  have r0 : Redelegates D (delegation 0) 0 := (C19_index_iff D _ _).1 ⟨_, C19_decimal D 0 (by decide) _, rfl⟩
  have tA : Timely E none w.tick uA := by
    refine fun i _ => ⟨fun e' he' => ?_, fun n hn' => ?_⟩
    · rw [eA] at he'; cases he'
      exact UInt64.le_trans (hclock i) hef
    · rw [nA] at hn'; cases hn'
  have tB : Timely E none w.tick uB := by
    refine fun i _ => ⟨fun e' he' => ?_, fun n hn' => ?_⟩
    · rw [eB] at he'; cases he'
      exact hclock i
    · rw [nB] at hn'; cases hn'
  have mA : Made D w.parser.ctors (Timely E none w.tick) (fun b => Written g b (l w.tick)) (grantCalls kA b e c) uA := by
    refine ⟨hlA, hA, tA, by simp [grantCalls, proofCall], by simp [grantCalls, proofCall], by simp [grantCalls, proofCall], ?_⟩
    intro x i hx hi
    rcases hx with hx | ⟨l, hx, _⟩
    · have : x = c := by simpa [grantCalls] using hx
      subst this
      exact absurd hi (hc' i)
    · simp [grantCalls] at hx
  have mB : Made D w.parser.ctors (Timely E none w.tick) (fun b => Written g b (l w.tick)) (handOnCalls kB z f uA) uB := by
    have hp : ∀ p ∈ (handOnCalls kB z f uA).filterMap proofCall, p = (uA, 0x1e) := by simp [handOnCalls, proofCall]
    refine ⟨hlB, hB, tB, fun p h => by rw [hp p h], fun p h => by rw [hp p h]; exact hstored, fun p h => ?_, ?_⟩
    · rw [hp p h]
      refine ⟨aA.trans iB, fun n hn' => by (rw [nA] at hn'; cases hn'), fun e' he' => ?_⟩
      rw [eA] at he'
      cases he'
      exact ⟨f, eB, hef⟩
    · intro x i hx
      rcases hx with hx | ⟨l, hx, _⟩ <;> simp [handOnCalls] at hx
  have hF : ∀ b, Written g b (l w.tick) → (fun c b => c = Store.blockCid D b ∧ Written g b (l w.tick)) (Store.blockCid D b) b := fun b hb => ⟨rfl, hb⟩
  have sA : Sound D (fun u => Timely E none w.tick u ∧ Authentic w.parser.ctors u) (fun c b => c = Store.blockCid D b ∧ Written g b (l w.tick)) (.mk uA [] []) := by
    rw [Sound, SoundAll, prfA]
    refine ⟨⟨tA, (signed_payload hlA hA).2.2.2⟩, rfl, by simp [BSet.Sorted], fun i => ?_, by simp⟩
    rw [capA]
    simpa using hc' i
  have sB : Sound D (fun u => Timely E none w.tick u ∧ Authentic w.parser.ctors u) (fun c b => c = Store.blockCid D b ∧ Written g b (l w.tick))
      (.mk uB [.mk uA [] []] [0]) := by
    rw [Sound, SoundAll, prfB]
    refine ⟨⟨tB, (signed_payload hlB hB).2.2.2⟩, ⟨_, [], rfl, ?_, mB.delegated (uA, 0x1e) (by simp [handOnCalls, proofCall]), sA, by rw [SoundAll]⟩,
      by simp [BSet.Sorted], fun i => ?_, by simp⟩
    · exact reference_resolves hD hF parA hstored
    · rw [capB]
      constructor
      · intro hi
        cases List.mem_singleton.1 hi
        exact ⟨_, List.mem_singleton.2 rfl, r0⟩
      · rintro ⟨x, hx, hi⟩
        cases List.mem_singleton.1 hx
        cases C19_unique D _ i 0 hi.2 r0.2
        simp
  have hen := timely_enables hE hl hn none w.parser.ctors w.tick
  obtain ⟨w', hw'⟩ := ofToken_complete hen (levels (.mk uB [.mk uA [] []] [0])) (uB.encode D) w (.mk uB [.mk uA [] []] [0]) hc rfl (Nat.le_refl _) (Nat.le_refl _) parB sB
  refine ⟨.mk uB [.mk uA [] []] [0], w', ⟨levels (.mk uB [.mk uA [] []] [0]), fun fuel hfuel => ?_⟩, ?_, ?_, ?_⟩
  · rw [← hw']
    exact ofToken_fuel hfuel _ _ (by rw [hw']; simp)
  · have h1 : reduce D sem (.mk uA [] []) = .ok [⟨[a], none, some e, v⟩] := by
      rw [reduce, reduceAll]
      unfold combine
      simp only [ancestral, redelegated, selfInfos, Ucan.capabilities, capA, mapWhile, hv, List.map_cons, List.map_nil, List.append_nil, Ucan.issuer, ← iA,
        Ucan.notBefore, Ucan.expiresAt, nA, eA]
      rfl
    rw [reduce, reduceAll, reduceAll, h1]
    unfold combine
    simp only [ancestral, redelegated, selfInfos, Ucan.capabilities, capB, mapWhile, hsem, relifetime, Ucan.notBefore, Ucan.expiresAt, nB, eB,
      List.mem_singleton, if_true, List.getElem?_cons_zero, List.append_nil, List.map_cons, List.map_nil, List.nil_append]
    rfl
  · refine .mk _ uB mB fun p hp => ?_
    have : (uA, 0x1e) = p := by simpa [handOnCalls, proofCall] using hp
    subst this
    exact .mk _ uA mA fun p hp => by simp [grantCalls, proofCall] at hp
  · refine .redelegated _ uB uA none v a mB (by simp [handOnCalls]) ?_
    rw [iA]
    exact .granted _ uA v mA (by simp [grantCalls, proofCall]) ⟨[], c, [], capA, by simp, hv⟩

namespace Ex

/-- The key `x` of the toy scheme, both halves. -/
def toyKey (x : UInt8) : Key := KeySupport.ed25519Key toyScheme x (some x)

theorem toy_denotes (x : UInt8) : ∃ did key, (toyKey x).did = .ok did ∧ Denotes toyCtors did key ∧ Accepts key (toyKey x) := by
  obtain ⟨did, key, hd, hp, ha, _⟩ := C41_ed25519 toyScheme x (some x) [x] (toy_exports x) (fun k h => by cases h; exact toy_matches x) ⟨toyCtors, []⟩
    (DidParser.coherent_fresh _) rfl
  exact ⟨did, key, hd, (DidParser.parse_ok_iff (DidParser.coherent_fresh _) did key).1 hp, ha⟩

theorem toy_signed (D : Deps) (x : UInt8) (ops : List Op) (s : Signable) (u : Ucan) (E : Env) (w w' : World) (hb : (Builder.run D ops).build E true w = (.ok s, w'))
    (hi : s.issuer = toyKey x) (hs : s.sign D [] = .ok u) (hok : SignableOk D s) : SignedBy D toyCtors ops u := by
  obtain ⟨did, key, hd, hk, ha⟩ := toy_denotes x
  refine ⟨E, true, w, w', s, [], key, hb, hs, hok, fun d hd' => ?_, hi ▸ ha⟩
  rw [hi, hd] at hd'
  cases hd'
  exact hk

theorem plain_ok (D : Deps) (s : Signable) (hf : s.facts = []) (hc : ∀ c ∈ s.capabilities, c.caveat = .obj []) : SignableOk D s := by
  refine ⟨fun c h => ?_, ?_⟩
  · rw [hc c h]
    exact ⟨good_empty D, by decide⟩
  · rw [hf]
    exact ⟨good_empty D, by decide⟩

theorem written_one {b b' : Bytes} (h : Written 0 b' [.write 0 (.bytes b), .create]) : b' = b := by
  cases h with
  | here _ _ => rfl
  | earlier _ h => cases h with | earlier _ h => cases h

/-- A store with one token, and a clock that moves from 0 to 9. -/
def log1 (D : Deps) (u : Ucan) : List Store.Op := [.write 0 (.bytes (strBytes (u.encode D))), .create]
def env1 (D : Deps) (u : Ucan) : Env := ⟨fun i => UInt64.ofNat (min i 9), fun _ c => Store.memRead ((Store.after D (log1 D u)).dags 0) c⟩

theorem mail_not_redelegating (D : Deps) (i : Nat) : ¬ Redelegates D ⟨"mailto:a@b", "msg/send", .obj []⟩ i := by
  rintro ⟨h, _⟩
  exact absurd h (by decide)

/-- Beside C55: two keys, a memory store with one token, a clock that moves. -/
theorem two_parties (D : Deps) (hD : ShortDigests D) : ∃ (uA uB : Ucan) (dA dB : String) (ch : Chain) (w' : World),
    SignedBy D toyCtors (grantCalls (toyKey 1) dB 20 ⟨"mailto:a@b", "msg/send", .obj []⟩) uA ∧
    SignedBy D toyCtors (handOnCalls (toyKey 2) "did:key:z3" 10 uA) uB ∧ (toyKey 1).did = .ok dA ∧ (toyKey 2).did = .ok dB ∧
    (∃ N, ∀ fuel, N ≤ fuel → ofToken D (env1 D uA) none fuel (uB.encode D) ⟨0, ⟨toyCtors, []⟩⟩ = (.ok ch, w')) ∧
    reduce D mailSem ch = .ok [⟨[dA], none, some 10, mail "a@b" 0⟩] := by
  obtain ⟨dA, _, hdA, _⟩ := toy_denotes 1
  obtain ⟨dB, _, hdB, _⟩ := toy_denotes 2
  have hA : ∃ u, SignedBy D toyCtors (grantCalls (toyKey 1) dB 20 ⟨"mailto:a@b", "msg/send", .obj []⟩) u :=
    ⟨_, toy_signed D 1 _ _ _ ⟨fun _ => 0, fun _ _ => .ok none⟩ ⟨0, ⟨[], []⟩⟩ ⟨0, ⟨[], []⟩⟩ rfl rfl rfl
      (plain_ok D _ rfl (by intro c hc; cases List.mem_singleton.1 hc; rfl))⟩
  obtain ⟨uA, hA⟩ := hA
  have hB : ∃ u, SignedBy D toyCtors (handOnCalls (toyKey 2) "did:key:z3" 10 uA) u := by
    have hst := C51_state D (handOnCalls (toyKey 2) "did:key:z3" 10 uA) (by simp [handOnCalls])
    have hcap : (Builder.run D (handOnCalls (toyKey 2) "did:key:z3" 10 uA)).capabilities = [delegation 0] := hst.capabilities
    have hb : (Builder.run D (handOnCalls (toyKey 2) "did:key:z3" 10 uA)).build ⟨fun _ => 0, fun _ _ => .ok none⟩ true ⟨0, ⟨[], []⟩⟩ =
        (.ok ⟨toyKey 2, "did:key:z3", [delegation 0], some 10, none, [], references D (handOnCalls (toyKey 2) "did:key:z3" 10 uA), false⟩, ⟨0, ⟨[], []⟩⟩) := by
      rw [Builder.build_eq (k := toyKey 2) (a := "did:key:z3") hst.issuer hst.audience,
        M.bind_of_ok (Builder.impliedExpiration_explicit (t := 10) hst.expiration _), hcap, hst.notBefore, hst.facts, hst.proofs, hst.addNonce]
      rfl
    exact ⟨_, toy_signed D 2 _ _ _ _ _ _ hb rfl rfl (plain_ok D _ rfl (by intro c hc; cases List.mem_singleton.1 hc; rfl))⟩
  obtain ⟨uB, hB⟩ := hB
  obtain ⟨ch, w', h1, h2, _⟩ := C55_two_parties D hD mailSem (env1 D uA) 0 (fun _ => log1 D uA) (fun _ _ => rfl) (fun _ _ _ => List.suffix_refl _)
    (fun _ b b' hb hb' _ => (written_one hb).trans (written_one hb').symm) ⟨0, ⟨toyCtors, []⟩⟩ (DidParser.coherent_fresh _) (toyKey 1) (toyKey 2) dA dB
    "did:key:z3" hdA hdB ⟨"mailto:a@b", "msg/send", .obj []⟩ (mail "a@b" 0) rfl (mail_not_redelegating D) rfl 20 10 (by decide) uA uB hA hB
    (.here 0 rfl) (fun i => by
      show UInt64.ofNat (min i 9) ≤ 10
      rw [UInt64.le_iff_toNat_le, UInt64.toNat_ofNat_of_lt' (by have := Nat.min_le_right i 9; simp [UInt64.size]; omega)]
      exact Nat.le_trans (Nat.min_le_right i 9) (by decide))
  exact ⟨uA, uB, dA, dB, ch, w', hA, hB, hdA, hdB, h1, h2⟩

end Ex

end Verif
