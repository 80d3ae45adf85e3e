import Verif.Spec.Suite
import Verif.Props.Merge
import Verif.Props.Check

/-! # C127: what the test suite asserts holds for all parties, capabilities and times -/

namespace Verif
open Spec Chain Reduce
open Builder (Op)

variable {S A : Type}

namespace Suite

theorem absorb_of_none {sem : Semantics S A} {p : Info S A} : ∀ {l : List (Info S A)}, (∀ r ∈ l, sem.enables r.capability p.capability = false) → absorb sem p l = none
  | [], _ => rfl
  | r :: l, h => by
    rw [absorb, h r (by simp), absorb_of_none fun x hx => h x (by simp [hx])]
    rfl

theorem mergeLoop_separate (sem : Semantics S A) : ∀ (n : Nat) (l acc : List (Info S A)), l.length = n →
    (l.Pairwise fun a b => sem.enables a.capability b.capability = false) → mergeLoop sem n l acc = acc ++ l.reverse
  | 0, l, acc, hn, _ => by
    rw [List.length_eq_zero_iff.1 hn]
    simp [mergeLoop]
  | n + 1, l, acc, hn, h => by
    have hne : l ≠ [] := fun e => by rw [e] at hn; cases hn
    have hl := List.dropLast_concat_getLast hne
    have hg : l.getLast? = some (l.getLast hne) := List.getLast?_eq_some_getLast hne
    rw [← hl, List.pairwise_append] at h
    rw [mergeLoop, hg]
    simp only
    rw [absorb_of_none fun r hr => h.2.2 r hr _ (by simp)]
    simp only
    rw [mergeLoop_separate sem n l.dropLast _ (by simp [hn]) h.1, List.append_assoc]
    congr 1
    conv => rhs; rw [← hl]
    simp

theorem merge_separate (sem : Semantics S A) (l : List (Info S A)) (h : l.Pairwise fun a b => sem.enables a.capability b.capability = false) :
    merge sem l = l.reverse := by
  unfold merge
  rw [mergeLoop_separate sem _ l [] rfl h]
  rfl

/-- The chain of a token without proofs. -/
def leaf (p : Ucan) : Chain := .mk p [] []

theorem sub_leaf {d : Chain} {p : Ucan} (h : Sub d (leaf p)) : d = leaf p := by
  cases h with
  | self => rfl
  | proof hp _ => cases hp

theorem leaf_ok (D : Deps) (sem : Semantics S A) (p : Ucan) : ∃ out, reduce D sem (leaf p) = .ok out :=
  reduce_total D sem _ fun d hd => by rw [sub_leaf hd]; simp [leaf, redel]

theorem leaf_originators {D : Deps} {sem : Semantics S A} {p : Ucan} {out : List (Info S A)} (h : reduce D sem (leaf p) = .ok out) {i : Info S A} (hi : i ∈ out)
    (o : String) : o ∈ i.originators ↔ o = p.payload.iss := by
  have hall : ∀ o ∈ i.originators, o = p.payload.iss := by
    intro o ho
    obtain ⟨d, hd, e⟩ := C30_issuer D sem _ out h i hi o ho
    rw [sub_leaf hd] at e
    exact e.symm
  refine ⟨hall o, ?_⟩
  rintro rfl
  obtain ⟨o, ho⟩ := C30_nonempty D sem _ out h i hi
  rwa [← hall o ho]

theorem leaf_claimed {D : Deps} {sem : Semantics S A} {p : Ucan} {out : List (Info S A)} (h : reduce D sem (leaf p) = .ok out) {i : Info S A} (hi : i ∈ out) :
    Claimed D sem p i.capability := by
  rcases C28_step D sem _ out h i hi with ⟨pre, cl, post, e, h1, h2⟩ | ⟨k, _, _, _, hk, _⟩
  · exact ⟨pre, cl, post, e, h1, h2⟩
  · cases hk

theorem leaf_grants {D : Deps} {sem : Semantics S A} (hl : Lawful sem) {p : Ucan} {out : List (Info S A)} (h : reduce D sem (leaf p) = .ok out) (v : View S A) :
    (∃ i ∈ out, sem.enables i.capability v = true) ↔ Grants D sem p v := by
  constructor
  · rintro ⟨i, hi, he⟩
    exact ⟨_, leaf_claimed h hi, he⟩
  · rintro ⟨x, hx, he⟩
    obtain ⟨i, hi, hc⟩ := C33_offered_covered D sem hl _ out h x (.claim hx)
    refine ⟨i, hi, ?_⟩
    rcases hc with e | hc
    · rw [e]; exact he
    · exact enablesTrans_of_lawful hl _ _ _ hc he

theorem root_report (D : Deps) (sem : Semantics S A) (hl : Lawful sem) (u : Ucan) (ps : List Ucan) (hs : NoneEnablesLater sem (understood D sem u)) :
    ∃ out, reduce D sem (.mk u (ps.map leaf) []) = .ok out ∧ out.map (·.capability) = (understood D sem u).reverse ∧
      ∀ i ∈ out, i.notBefore = u.payload.nbf ∧ i.expiresAt = u.payload.exp ∧ ∀ o, o ∈ i.originators ↔ Vouchers D sem u ps i.capability o := by
  obtain ⟨anc, hanc⟩ := ancestral_total ([] : BSet Nat) ((ps.map leaf).map (reduce D sem)) (by
    intro r hr
    rw [List.map_map, List.mem_map] at hr
    obtain ⟨p, _, rfl⟩ := hr
    exact leaf_ok D sem p) 0
  have hmem := (mem_ancestral _ _ 0 anc hanc).1
  have hcap : (selfInfos D sem u (ps.map leaf).length anc).map (·.capability) = understood D sem u := by
    unfold selfInfos understood
    rw [Merge.mapWhile_eq, List.map_map]
    exact List.map_id _
  have hred : reduce D sem (.mk u (ps.map leaf) []) = .ok (selfInfos D sem u (ps.map leaf).length anc).reverse := by
    rw [reduce, reduceAll_eq]
    unfold combine
    rw [hanc]
    simp only [redelegated, List.map_nil, List.append_nil, List.length_map]
    rw [merge_separate]
    unfold NoneEnablesLater at hs
    rw [← hcap, List.pairwise_map, List.length_map] at hs
    exact hs
  refine ⟨_, hred, by rw [List.map_reverse, hcap], fun i hi => ?_⟩
  obtain ⟨_, h1, h2, h3⟩ := (mem_selfInfos D sem u _ anc (fun h => by
    rw [List.length_map, List.length_eq_zero_iff] at h
    rw [h] at hanc
    cases hanc
    rfl) i).1 (List.mem_reverse.1 hi)
  refine ⟨h1, h2, fun o => ?_⟩
  have key : ∀ o, (∃ j ∈ anc, sem.enables j.capability i.capability = true ∧ o ∈ j.originators) ↔ ∃ p ∈ ps, p.payload.iss = o ∧ Grants D sem p i.capability := by
    intro o
    constructor
    · rintro ⟨j, hj, he, ho⟩
      obtain ⟨k, lk, hk, _, hjl⟩ := (hmem j).1 hj
      rw [List.map_map, List.getElem?_map, Option.map_eq_some_iff] at hk
      obtain ⟨p, hp, e⟩ := hk
      exact ⟨p, List.mem_of_getElem? hp, ((leaf_originators e hjl o).1 ho).symm, (leaf_grants hl e _).1 ⟨j, hjl, he⟩⟩
    · rintro ⟨p, hp, rfl, hg⟩
      obtain ⟨out, e⟩ := leaf_ok D sem p
      obtain ⟨j, hj, he⟩ := (leaf_grants hl e _).2 hg
      obtain ⟨k, hk⟩ := List.mem_iff_getElem?.1 hp
      refine ⟨j, (hmem j).2 ⟨k, out, ?_, by simp, hj⟩, he, (leaf_originators e hj _).2 rfl⟩
      rw [List.map_map, List.getElem?_map, hk]
      exact congrArg some e
  rw [h3, mem_originators]
  unfold Vouchers
  rw [key]
  refine or_congr Iff.rfl (and_congr Iff.rfl ?_)
  constructor
  · intro h p hp hg
    exact h ⟨_, (key _).2 ⟨p, hp, rfl, hg⟩⟩
  · rintro h ⟨o', ho'⟩
    obtain ⟨p, hp, _, hg⟩ := (key o').1 ho'
    exact h p hp hg

theorem noRedel {D : Deps} {u : Ucan} (n : Nat) (h : ∀ c ∈ u.payload.cap.iter, ∀ i, ¬ Redelegates D c i) : RedelOk D u n [] := by
  refine ⟨by simp [BSet.Sorted], fun i => ⟨fun hm => (nomatch hm), ?_⟩, fun i hi => (nomatch hi)⟩
  rintro ⟨c, hc, hr⟩
  exact absurd hr (h c hc i)

theorem leaf_sound {D : Deps} {ctors : BMap Bytes KeyCtor} {V : Ucan → Prop} {p : Ucan} (h : Leaf D ctors V p) (F : Cid → Bytes → Prop) :
    Sound D (fun u => V u ∧ Authentic ctors u) F (leaf p) ∧ Ucan.fromStr D (p.encode D) = .ok p := by
  obtain ⟨ops, hlen, hs, hno⟩ := h.made
  obtain ⟨hprf, _, hpar, hauth⟩ := EndToEnd.signed_payload hlen hs
  refine ⟨?_, hpar⟩
  unfold leaf
  rw [Sound, SoundAll, hprf]
  refine ⟨⟨h.timely, hauth⟩, ?_, noRedel _ h.plain⟩
  unfold references
  rw [hno]
  rfl

theorem root_sound {D : Deps} (hD : ShortDigests D) {ctors : BMap Bytes KeyCtor} {V : Ucan → Prop} {F : Cid → Bytes → Prop} {H : Bytes → Prop}
    (hF : ∀ b, H b → F (Store.blockCid D b) b) {ops : List Op} {u : Ucan} (hm : Made D ctors V H ops u)
    (hleaf : ∀ p ∈ ops.filterMap proofCall, Leaf D ctors V p.1) (hno : ∀ c ∈ u.payload.cap.iter, ∀ i, ¬ Redelegates D c i) :
    Sound D (fun u => V u ∧ Authentic ctors u) F (.mk u (((ops.filterMap proofCall).map (·.1)).map leaf) []) := by
  obtain ⟨hprf, _, _, hauth⟩ := EndToEnd.signed_payload hm.short hm.signed
  rw [Sound, hprf]
  refine ⟨⟨hm.timely, hauth⟩, ?_, noRedel _ hno⟩
  unfold references
  have key : ∀ l : List (Ucan × UInt64), (∀ p ∈ l, p ∈ ops.filterMap proofCall) →
      SoundAll D (fun u => V u ∧ Authentic ctors u) F u (l.map fun p => reference D p.1 p.2) ((l.map (·.1)).map leaf) := by
    intro l
    induction l with
    | nil => intro _; simp [SoundAll]
    | cons p l ih =>
      intro h
      have hp := h p (by simp)
      obtain ⟨h1, h2⟩ := leaf_sound (hleaf p hp) F
      rw [List.map_cons, List.map_cons, List.map_cons, SoundAll]
      refine ⟨_, _, rfl, ?_, hm.delegated p hp, h1, ih fun q hq => h q (by simp [hq])⟩
      show Resolves D F (reference D p.1 p.2) p.1
      rw [hm.hashed p hp]
      exact EndToEnd.reference_resolves hD hF h2 (hm.published p hp)
  exact key _ fun _ h => h

end Suite
open Suite EndToEnd

/-- C127: whatever the parties, capabilities, times and the number of cited tokens are, a token that cites tokens without proofs, all stored and in their lifetime, and
of whose claims none enables a later one, is accepted, and each of its claims is reported once, the last one first, with its own lifetime and for exactly those that
vouch for it. -/
theorem C127_report (D : Deps) (hD : ShortDigests D) (sem : Semantics S A) (hs : Lawful sem) (E : Env) (g : Nat) (l : Nat → List Store.Op) (hE : Served D E g l)
    (hl : ∀ i j, i ≤ j → l i <:+ l j) (hn : ∀ i, NoCollision D g (l i)) (nowTime : Option UInt64) (w : World) (hc : Coherent w.parser) (ops : List Op) (u : Ucan)
    (hm : Made D w.parser.ctors (Timely E nowTime w.tick) (fun b => Written g b (l w.tick)) ops u)
    (hleaf : ∀ p ∈ ops.filterMap proofCall, Leaf D w.parser.ctors (Timely E nowTime w.tick) p.1)
    (hno : ∀ c ∈ u.payload.cap.iter, ∀ i, ¬ Redelegates D c i) (hcl : NoneEnablesLater sem (understood D sem u)) :
    ∃ ch w' out, (∃ N, ∀ fuel, N ≤ fuel → ofToken D E nowTime fuel (u.encode D) w = (.ok ch, w')) ∧
      ch.ucan = u ∧ ch.proofs.map Chain.ucan = (ops.filterMap proofCall).map (·.1) ∧ reduce D sem ch = .ok out ∧
      out.map (·.capability) = (understood D sem u).reverse ∧
      ∀ i ∈ out, i.notBefore = u.payload.nbf ∧ i.expiresAt = u.payload.exp ∧
        ∀ o, o ∈ i.originators ↔ Vouchers D sem u ((ops.filterMap proofCall).map (·.1)) i.capability o := by
  have hF : ∀ b, Written g b (l w.tick) → (fun c b => c = Store.blockCid D b ∧ Written g b (l w.tick)) (Store.blockCid D b) b := fun b hb => ⟨rfl, hb⟩
  have hsound := root_sound hD (F := fun c b => c = Store.blockCid D b ∧ Written g b (l w.tick)) hF hm hleaf hno
  have hen := timely_enables hE hl hn nowTime w.parser.ctors w.tick
  obtain ⟨w', hw'⟩ := ofToken_complete hen _ (u.encode D) w _ hc rfl (Nat.le_refl _) (Nat.le_refl _) (signed_payload hm.short hm.signed).2.2.1 hsound
  obtain ⟨out, h1, h2, h3⟩ := root_report D sem hs u ((ops.filterMap proofCall).map (·.1)) hcl
  refine ⟨_, w', out, ⟨Spec.levels (.mk u (((ops.filterMap proofCall).map (·.1)).map leaf) []), fun fuel hfuel => ?_⟩, rfl, ?_, h1, h2, h3⟩
  · rw [← hw']
    exact ofToken_fuel hfuel _ _ (by rw [hw']; simp)
  · show (((ops.filterMap proofCall).map (·.1)).map leaf).map Chain.ucan = _
    rw [List.map_map]
    exact List.map_id _

/-- C127: the check of the test suite (attenuation.rs 418-444) decides rightly wherever claims do not enable each other: it says yes exactly if each capability asked for
is enabled by a claim that the originator vouches for. -/
theorem C127_check (D : Deps) (sem : Semantics S A) (hs : Lawful sem) (u : Ucan) (cited : List Ucan) (hcl : NoneEnablesLater sem (understood D sem u)) (o : String)
    (asked : List Capability) (ha : ∀ x ∈ asked, sem.parseCapability D x ≠ none) :
    ∃ b, Check.enablesCapabilities D sem (.mk u (cited.map leaf) []) o asked = .ok b ∧
      (b = true ↔ ∀ x ∈ asked, ∀ v, sem.parseCapability D x = some v → ∃ y, Claimed D sem u y ∧ sem.enables y v = true ∧ Vouchers D sem u cited y o) := by
  obtain ⟨out, h1, h2, h3⟩ := root_report D sem hs u cited hcl
  obtain ⟨b, hb, hiff⟩ := C87_check D sem _ out h1 o asked ha
  refine ⟨b, hb, hiff.trans ?_⟩
  have hmem : ∀ y, (∃ i ∈ out, i.capability = y) ↔ Claimed D sem u y := by
    intro y
    have : y ∈ out.map (·.capability) ↔ Claimed D sem u y := by
      rw [h2, List.mem_reverse]
      unfold understood Claimed
      rw [← Merge.mapWhile_eq, mem_mapWhile]
    rw [← this, List.mem_map]
  refine forall_congr' fun x => forall_congr' fun _ => forall_congr' fun v => forall_congr' fun _ => ?_
  constructor
  · rintro ⟨i, hi, ho, he⟩
    exact ⟨_, (hmem _).1 ⟨i, hi, rfl⟩, he, ((h3 i hi).2.2 o).1 ho⟩
  · rintro ⟨y, hy, he, hv⟩
    obtain ⟨i, hi, rfl⟩ := (hmem y).2 hy
    exact ⟨i, hi, ((h3 i hi).2.2 o).2 hv, he⟩

theorem Suite.programCalls_proofs (k : Key) (aud : String) (lifetime : UInt64) (cited : List Ucan) (caps : List Capability) :
    (programCalls k aud lifetime cited caps).filterMap proofCall = cited.map fun p => (p, 0x1e) := by
  unfold programCalls
  have h1 : (cited.map (Op.witnessedBy · none)).filterMap proofCall = cited.map fun p => (p, 0x1e) := by
    rw [List.filterMap_map]
    induction cited with
    | nil => rfl
    | cons p l ih => simp [ih, proofCall]
  have h2 : (caps.map Op.claimingCapability).filterMap proofCall = [] := by
    rw [List.filterMap_map]
    induction caps with
    | nil => rfl
    | cons c l ih => simp [proofCall]
  rw [List.filterMap_append, List.filterMap_append, h1, h2]
  simp [proofCall]

theorem Suite.programCalls_claims (k : Key) (aud : String) (lifetime : UInt64) (cited : List Ucan) (caps : List Capability) (n : Nat) :
    claimed n (programCalls k aud lifetime cited caps) = caps := by
  unfold programCalls
  rw [claimed_append, claimed_append]
  have h1 : ∀ n, claimed n (cited.map (Op.witnessedBy · none)) = [] := by
    induction cited with
    | nil => intro n; rfl
    | cons p l ih => intro n; simp [claimed, claimsOf, ih]
  have h2 : ∀ n, claimed n (caps.map Op.claimingCapability) = caps := by
    induction caps with
    | nil => intro n; rfl
    | cons c l ih => intro n; simp [claimed, claimsOf, ih]
  rw [h1, h2]
  simp [claimed, claimsOf]

theorem Suite.programCalls_last {α : Type} (f : Op → Option α) (h1 : ∀ p, f (.witnessedBy p none) = none) (h2 : ∀ c, f (.claimingCapability c) = none) (k : Key)
    (aud : String) (lifetime : UInt64) (cited : List Ucan) (caps : List Capability) :
    lastCall f (programCalls k aud lifetime cited caps) = lastCall f [.issuedBy k, .forAudience aud, .withLifetime lifetime] := by
  have e1 : (cited.map (Op.witnessedBy · none)).filterMap f = [] := by
    rw [List.filterMap_eq_nil_iff]
    intro o ho
    obtain ⟨p, _, rfl⟩ := List.mem_map.1 ho
    exact h1 p
  have e2 : (caps.map Op.claimingCapability).filterMap f = [] := by
    rw [List.filterMap_eq_nil_iff]
    intro o ho
    obtain ⟨c, _, rfl⟩ := List.mem_map.1 ho
    exact h2 c
  unfold lastCall programCalls
  rw [List.filterMap_append, List.filterMap_append, e1, e2, List.append_nil, List.append_nil]

theorem Suite.programCalls_fields {D : Deps} {ctors : BMap Bytes KeyCtor} {k : Key} {aud : String} {lifetime : UInt64} {cited : List Ucan} {caps : List Capability}
    {u : Ucan} (hlen : (programCalls k aud lifetime cited caps).length < 2 ^ 64) (h : SignedBy D ctors (programCalls k aud lifetime cited caps) u) :
    k.did = .ok u.payload.iss ∧ u.payload.aud = aud ∧ u.payload.nbf = none := by
  obtain ⟨E, checked, w, w', s, rnd, key, hb, hs, hok, _⟩ := h
  obtain ⟨h1, h2, _, h4, _⟩ := C51_built D E checked _ hlen w w' s hb
  obtain ⟨_, p2, p3, p4, p5, _⟩ := C54_payload D s rnd u hs
  rw [Suite.programCalls_last _ (fun _ => rfl) (fun _ => rfl)] at h1 h2 h4
  cases h1
  cases h2
  exact ⟨p2, p3, p5.trans h4⟩

/-- C127: the programs of the test suite. Parties issue tokens for B, each with a lifetime and capabilities, and these are stored; B cites them all in a token of no longer
life, with capabilities of which none enables a later one. While B's token lives it is accepted, and reported is each capability for those who vouch for it. -/
theorem C127_programs (D : Deps) (hD : ShortDigests D) (sem : Semantics S A) (hs : Lawful sem) (E : Env) (g : Nat) (l : Nat → List Store.Op) (hE : Served D E g l)
    (hl : ∀ i j, i ≤ j → l i <:+ l j) (hn : ∀ i, NoCollision D g (l i)) (w : World) (hc : Coherent w.parser) (kB : Key) (b z : String) (hb : kB.did = .ok b)
    (lifetime : UInt64) (cited : List Ucan) (caps : List Capability) (hlen : (programCalls kB z lifetime cited caps).length < 2 ^ 64) (u : Ucan)
    (hu : SignedBy D w.parser.ctors (programCalls kB z lifetime cited caps) u) (hcaps : ∀ c ∈ caps, c.ability ≠ "ucan/DELEGATE")
    (hcited : ∀ p ∈ cited, ∃ k life cs, (programCalls k b life [] cs).length < 2 ^ 64 ∧ SignedBy D w.parser.ctors (programCalls k b life [] cs) p ∧
      (∀ c ∈ cs, c.ability ≠ "ucan/DELEGATE") ∧ Written g (strBytes (p.encode D)) (l w.tick) ∧ ∀ e, p.payload.exp = some e → ∃ f, u.payload.exp = some f ∧ f ≤ e)
    (hclock : ∀ f, u.payload.exp = some f → ∀ i, E.clock i ≤ f) (hcl : NoneEnablesLater sem (understood D sem u)) :
    ∃ ch w' out, (∃ N, ∀ fuel, N ≤ fuel → ofToken D E none fuel (u.encode D) w = (.ok ch, w')) ∧ ch.ucan.payload.aud = z ∧
      ch.proofs.map Chain.ucan = cited ∧ reduce D sem ch = .ok out ∧ out.map (·.capability) = (understood D sem u).reverse ∧
      ∀ i ∈ out, i.notBefore = u.payload.nbf ∧ i.expiresAt = u.payload.exp ∧ ∀ o, o ∈ i.originators ↔ Vouchers D sem u cited i.capability o := by
  obtain ⟨hiss, haud, hnbf⟩ := programCalls_fields hlen hu
  have hb : b = u.payload.iss := by rw [hb] at hiss; cases hiss; rfl
  have hproofs := programCalls_proofs kB z lifetime cited caps
  have hcapsu := (signed_payload hlen hu).2.1
  rw [programCalls_claims] at hcapsu
  have plain : ∀ c : Capability, c.ability ≠ "ucan/DELEGATE" → ∀ i, ¬ Redelegates D c i := fun c h i hr => h hr.1
  have tB : Timely E none w.tick u := by
    refine fun i _ => ⟨fun e' he' => hclock e' he' i, fun n hn' => ?_⟩
    rw [hnbf] at hn'; cases hn'
  have hm : Made D w.parser.ctors (Timely E none w.tick) (fun b => Written g b (l w.tick)) (programCalls kB z lifetime cited caps) u := by
    refine ⟨hlen, hu, tB, fun p hp => ?_, fun p hp => ?_, fun p hp => ?_, fun c i ho hr => ?_⟩
    · rw [hproofs] at hp
      obtain ⟨q, _, rfl⟩ := List.mem_map.1 hp
      rfl
    · rw [hproofs] at hp
      obtain ⟨q, hq, rfl⟩ := List.mem_map.1 hp
      obtain ⟨k, life, cs, _, _, _, hw, _⟩ := hcited q hq
      exact hw
    · rw [hproofs] at hp
      obtain ⟨q, hq, rfl⟩ := List.mem_map.1 hp
      obtain ⟨k, life, cs, h1, h2, _, _, he⟩ := hcited q hq
      obtain ⟨_, ha, hnq⟩ := programCalls_fields h1 h2
      refine ⟨ha.trans hb, fun n hn' => ?_, he⟩
      rw [hnq] at hn'
      cases hn'
    · rcases ho with ho | ⟨l, ho, _⟩
      · have : c ∈ caps := by simpa [programCalls] using ho
        exact absurd hr (plain c (hcaps c this) i)
      · simp [programCalls] at ho
  have hleaf : ∀ p ∈ (programCalls kB z lifetime cited caps).filterMap proofCall, Leaf D w.parser.ctors (Timely E none w.tick) p.1 := by
    intro p hp
    rw [hproofs] at hp
    obtain ⟨q, hq, rfl⟩ := List.mem_map.1 hp
    obtain ⟨k, life, cs, h1, h2, h3, _, he⟩ := hcited q hq
    obtain ⟨_, _, hnq⟩ := programCalls_fields h1 h2
    refine ⟨⟨_, h1, h2, by rw [programCalls_proofs]; rfl⟩, fun i _ => ⟨fun e' he' => ?_, fun n hn' => ?_⟩, fun c h i => ?_⟩
    · obtain ⟨f, hf, hle⟩ := he e' he'
      exact UInt64.le_trans (hclock f hf i) hle
    · rw [hnq] at hn'
      cases hn'
    · have := (signed_payload h1 h2).2.1.mem_iff.1 h
      rw [programCalls_claims] at this
      exact plain c (h3 c this) i
  obtain ⟨ch, w', out, h1, h2, h3, h4, h5, h6⟩ := C127_report D hD sem hs E g l hE hl hn none w hc _ u hm hleaf
    (fun c h i => plain c (hcaps c (hcapsu.mem_iff.1 h)) i) hcl
  rw [hproofs, List.map_map] at h3 h6
  have e : cited.map ((fun x : Ucan × UInt64 => x.1) ∘ fun p => (p, 0x1e)) = cited := List.map_id _
  rw [e] at h3 h6
  exact ⟨ch, w', out, h1, by rw [h2, haud], h3, h4, h5, h6⟩

namespace Ex
open Fixtures

def sendTwo : Capability := ⟨"mailto:c@d", "email/send", .obj []⟩
def viewTwo : View EmailAddress EmailAction := ⟨.resource (.scoped ⟨"c@d"⟩), .send, .obj []⟩

theorem toy_program_leaf (D : Deps) (b : String) : ∃ u, SignedBy D toyCtors (programCalls (toyKey 1) b 20 [] [sendOne]) u ∧ u.payload.cap.iter = [sendOne] ∧
    u.payload.exp = some 20 :=
  ⟨_, toy_signed D 1 _ _ _ ⟨fun _ => 0, fun _ _ => .ok none⟩ ⟨0, ⟨[], []⟩⟩ ⟨1, ⟨[], []⟩⟩ rfl rfl rfl
    (plain_ok D _ rfl (by intro y hy; cases List.mem_singleton.1 hy; rfl)), rfl, rfl⟩

theorem toy_program_root (D : Deps) (u : Ucan) : ∃ u', SignedBy D toyCtors (programCalls (toyKey 2) "did:key:z3" 10 [u] [sendOne, sendTwo]) u' ∧
    u'.payload.cap.iter = [sendOne, sendTwo] ∧ u'.payload.exp = some 10 := by
  have hst := C51_state D (programCalls (toyKey 2) "did:key:z3" 10 [u] [sendOne, sendTwo]) (by simp [programCalls])
  have hcap : (Builder.run D (programCalls (toyKey 2) "did:key:z3" 10 [u] [sendOne, sendTwo])).capabilities = [sendOne, sendTwo] := hst.capabilities
  have hb : (Builder.run D (programCalls (toyKey 2) "did:key:z3" 10 [u] [sendOne, sendTwo])).build ⟨fun _ => 0, fun _ _ => .ok none⟩ true ⟨0, ⟨[], []⟩⟩ =
      (.ok ⟨toyKey 2, "did:key:z3", [sendOne, sendTwo], some 10, none, [], references D (programCalls (toyKey 2) "did:key:z3" 10 [u] [sendOne, sendTwo]), false⟩,
        ⟨1, ⟨[], []⟩⟩) := by
    have he : (Builder.run D (programCalls (toyKey 2) "did:key:z3" 10 [u] [sendOne, sendTwo])).impliedExpiration ⟨fun _ => 0, fun _ _ => .ok none⟩ true ⟨0, ⟨[], []⟩⟩ =
        (.ok (some 10), ⟨1, ⟨[], []⟩⟩) := (Builder.impliedExpiration_lifetime (l := 10) hst.expiration hst.lifetime _).trans rfl
    rw [Builder.build_eq (k := toyKey 2) (a := "did:key:z3") hst.issuer hst.audience, M.bind_of_ok he, hcap, hst.notBefore, hst.facts, hst.proofs, hst.addNonce]
    rfl
  exact ⟨_, toy_signed D 2 _ _ _ _ _ _ hb rfl rfl (plain_ok D _ rfl (by
    intro y hy
    rcases List.mem_cons.1 hy with rfl | hy
    · rfl
    · cases List.mem_singleton.1 hy; rfl)), rfl, rfl⟩

/-- Beside C127: A grants sending as a@b to B, who cites this and claims sending as a@b and as c@d; the first is reported for A and the second for B. -/
example (D : Deps) (hD : ShortDigests D) : ∃ (uA uB : Ucan) (dA dB : String) (ch : Chain) (w' : World) (out : List (Info EmailAddress EmailAction)),
    (toyKey 1).did = .ok dA ∧ (toyKey 2).did = .ok dB ∧ SignedBy D toyCtors (programCalls (toyKey 1) dB 20 [] [sendOne]) uA ∧
    SignedBy D toyCtors (programCalls (toyKey 2) "did:key:z3" 10 [uA] [sendOne, sendTwo]) uB ∧
    (∃ N, ∀ fuel, N ≤ fuel → ofToken D (env1 D uA) none fuel (uB.encode D) ⟨0, ⟨toyCtors, []⟩⟩ = (.ok ch, w')) ∧
    reduce D emailSemantics ch = .ok out ∧ out.map (·.capability) = [viewTwo, viewOne] ∧
    ∀ i ∈ out, i.expiresAt = some 10 ∧ (i.capability = viewOne → ∀ o, o ∈ i.originators ↔ o = dA) ∧ (i.capability = viewTwo → ∀ o, o ∈ i.originators ↔ o = dB) := by
  obtain ⟨dA, _, hdA, _⟩ := toy_denotes 1
  obtain ⟨dB, _, hdB, _⟩ := toy_denotes 2
  obtain ⟨uA, hA, cA, eA⟩ := toy_program_leaf D dB
  obtain ⟨uB, hB, cB, eB⟩ := toy_program_root D uA
  have iA := (programCalls_fields (by simp [programCalls]) hA).1
  have iB := (programCalls_fields (by simp [programCalls]) hB).1
  rw [hdA] at iA
  rw [hdB] at iB
  have hund : understood D emailSemantics uB = [viewOne, viewTwo] := by
    unfold understood; rw [cB]; rfl
  have hcl : ∀ x, Claimed D emailSemantics uA x ↔ x = viewOne := by
    intro x
    have : understood D emailSemantics uA = [viewOne] := by unfold understood; rw [cA]; rfl
    rw [← List.mem_singleton, ← this]
    unfold understood
    rw [← Merge.mapWhile_eq, mem_mapWhile]
    rfl
  have hg : ∀ v, Grants D emailSemantics uA v ↔ emailSemantics.enables viewOne v = true := by
    intro v
    constructor
    · rintro ⟨x, hx, he⟩
      cases (hcl x).1 hx
      exact he
    · exact fun he => ⟨viewOne, (hcl _).2 rfl, he⟩
  obtain ⟨ch, w', out, h1, _, _, h4, h5, h6⟩ := C127_programs D hD emailSemantics C74_lawful.1 (env1 D uA) 0 (fun _ => log1 D uA) (fun _ _ => rfl)
    (fun _ _ _ => List.suffix_refl _) (fun _ b b' hb hb' _ => (written_one hb).trans (written_one hb').symm) ⟨0, ⟨toyCtors, []⟩⟩ (DidParser.coherent_fresh _)
    (toyKey 2) dB "did:key:z3" hdB 10 [uA] [sendOne, sendTwo] (by simp [programCalls]) uB hB (by decide)
    (fun p hp => by
      cases List.mem_singleton.1 hp
      refine ⟨toyKey 1, 20, [sendOne], by simp [programCalls], hA, by decide, .here 0 rfl, fun e he => ⟨10, eB, ?_⟩⟩
      rw [eA] at he; cases he; decide)
    (fun f hf i => by rw [eB] at hf; cases hf; exact clock_le i)
    (by rw [hund]; unfold NoneEnablesLater; decide)
  refine ⟨uA, uB, dA, dB, ch, w', out, hdA, hdB, hA, hB, h1, h4, by rw [h5, hund]; rfl, fun i hi => ?_⟩
  obtain ⟨_, h7, h8⟩ := h6 i hi
  refine ⟨h7.trans eB, fun hv o => ?_, fun hv o => ?_⟩
  · rw [h8, hv]
    constructor
    · rintro (⟨p, hp, rfl, _⟩ | ⟨_, hno⟩)
      · cases List.mem_singleton.1 hp
        cases iA
        rfl
      · exact absurd ((hg _).2 (by decide)) (hno uA (List.mem_singleton.2 rfl))
    · rintro rfl
      cases iA
      exact Or.inl ⟨uA, List.mem_singleton.2 rfl, rfl, (hg _).2 (by decide)⟩
  · rw [h8, hv]
    constructor
    · rintro (⟨p, hp, rfl, hgr⟩ | ⟨rfl, _⟩)
      · cases List.mem_singleton.1 hp
        exact absurd ((hg _).1 hgr) (by decide)
      · cases iB
        rfl
    · rintro rfl
      cases iB
      refine Or.inr ⟨rfl, fun p hp hgr => ?_⟩
      cases List.mem_singleton.1 hp
      exact absurd ((hg _).1 hgr) (by decide)

end Ex

end Verif
