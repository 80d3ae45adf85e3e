import Verif.Props.Authority
import Verif.Props.ReduceExamples
import Verif.Spec.Depends

/-! # C80, C81: what validation and authority depend on -/

namespace Verif
open Spec Chain Reduce

namespace Depends

/-- Same instant, and coherent parsers with these key types; the caches may differ. -/
structure Sim (ctors ctors' : BMap Bytes KeyCtor) (w w' : World) : Prop where
  tick : w.tick = w'.tick
  left : Coherent w.parser
  right : Coherent w'.parser
  leftCtors : w.parser.ctors = ctors
  rightCtors : w'.parser.ctors = ctors'

/-- The same result, and such worlds. -/
structure SimRes {α : Type} (ctors ctors' : BMap Bytes KeyCtor) (r r' : Res α × World) : Prop where
  result : r.1 = r'.1
  world : Sim ctors ctors' r.2 r'.2

variable {ctors ctors' : BMap Bytes KeyCtor}

theorem bind_sim {α β : Type} {x x' : M α} {f f' : α → M β} {w w' : World} (hx : SimRes ctors ctors' (x w) (x' w'))
    (hf : ∀ a w1 w1', x w = (.ok a, w1) → Sim ctors ctors' w1 w1' → SimRes ctors ctors' (f a w1) (f' a w1')) :
    SimRes ctors ctors' ((x >>= f) w) ((x' >>= f') w') := by
  cases h : x w with
  | mk r w1 =>
    cases h' : x' w' with
    | mk r' w1' =>
      rw [h, h'] at hx
      have e : r = r' := hx.result
      subst e
      cases r with
      | ok a => rw [M.bind_of_ok h, M.bind_of_ok h']; exact hf a w1 w1' h hx.world
      | error e => rw [M.bind_of_error h, M.bind_of_error h']; exact ⟨rfl, hx.world⟩

theorem lift_sim {α : Type} (r : Res α) {w w' : World} (h : Sim ctors ctors' w w') : SimRes ctors ctors' (M.lift r w) (M.lift r w') := ⟨rfl, h⟩

theorem Sim.next {w w' : World} (h : Sim ctors ctors' w w') : Sim ctors ctors' { w with tick := w.tick + 1 } { w' with tick := w'.tick + 1 } :=
  ⟨congrArg (· + 1) h.tick, h.left, h.right, h.leftCtors, h.rightCtors⟩

theorem now_sim {E E' : Env} (hE : E.clock = E'.clock) {w w' : World} (h : Sim ctors ctors' w w') : SimRes ctors ctors' (E.now w) (E'.now w') :=
  ⟨by show Except.ok _ = Except.ok _; rw [hE, h.tick], h.next⟩

theorem fresh_same {did : String} (h : SameKeyType ctors ctors' did) : (DidParser.parse ⟨ctors, []⟩ did).1 = (DidParser.parse ⟨ctors', []⟩ did).1 := by
  unfold DidParser.parse
  split
  · rename_i hp
    have : DidParser.resolve ctors did = DidParser.resolve ctors' did := by
      unfold DidParser.resolve
      split
      · rfl
      · rename_i b hb
        split
        · rename_i b0 b1 r
          have hb' := Base58.encode_of_decode hb
          obtain ⟨t, ht⟩ := DidParser.isPrefixOf_iff.1 hp
          rw [ht, List.drop_left] at hb'
          rw [h b0 b1 r (by rw [ht, ← hb', DidParser.didKeyPrefix_eq])]
        · rfl
    simp only [BMap.get?, this]
    split <;> rfl
  · rfl

theorem did_sim {did : String} (hs : SameKeyType ctors ctors' did) {w w' : World} (h : Sim ctors ctors' w w') :
    SimRes ctors ctors' (parseDid did w) (parseDid did w') := by
  refine ⟨?_, ⟨h.tick, DidParser.parse_coherent h.left did, DidParser.parse_coherent h.right did, ?_, ?_⟩⟩
  · show (w.parser.parse did).1 = (w'.parser.parse did).1
    rw [DidParser.parse_eq_fresh h.left, DidParser.parse_eq_fresh h.right, h.leftCtors, h.rightCtors, fresh_same hs]
  · exact (DidParser.parse_ctors _ _).trans h.leftCtors
  · exact (DidParser.parse_ctors _ _).trans h.rightCtors

theorem validate_sim {E E' : Env} (hE : E.clock = E'.clock) {u : Ucan} (hs : SameKeyType ctors ctors' u.payload.iss) (nowTime : Option UInt64)
    {w w' : World} (h : Sim ctors ctors' w w') : SimRes ctors ctors' (u.validate E nowTime w) (u.validate E' nowTime w') := by
  have hexp : SimRes ctors ctors' (u.isExpired E nowTime w) (u.isExpired E' nowTime w') := by
    unfold Ucan.isExpired
    cases u.payload.exp with
    | none => exact ⟨rfl, h⟩
    | some e =>
      cases nowTime with
      | some t => exact ⟨rfl, h⟩
      | none => exact bind_sim (now_sim hE h) fun a w1 w1' _ h1 => ⟨rfl, h1⟩
  unfold Ucan.validate
  refine bind_sim hexp fun b w1 w1' _ h1 => ?_
  split
  · exact lift_sim _ h1
  · have hearly : SimRes ctors ctors' (u.isTooEarly E w1) (u.isTooEarly E' w1') := by
      unfold Ucan.isTooEarly
      cases u.payload.nbf with
      | none => exact ⟨rfl, h1⟩
      | some n => exact bind_sim (now_sim hE h1) fun a w1 w1' _ h1 => ⟨rfl, h1⟩
    refine bind_sim hearly fun b w2 w2' _ h2 => ?_
    split
    · exact lift_sim _ h2
    · unfold Ucan.checkSignature
      exact bind_sim (did_sim hs h2) fun key w3 w3' _ h3 => lift_sim _ h3

theorem token_sim {E E' : Env} {c : Cid} (hr : ∀ i, E.read i c = E'.read i c) {w w' : World} (h : Sim ctors ctors' w w') :
    SimRes ctors ctors' (Store.requireToken E c w) (Store.requireToken E' c w') := by
  rw [Chain.requireToken_eq, Chain.requireToken_eq]
  split
  · exact ⟨rfl, h⟩
  · refine ⟨?_, h.next⟩
    simp only
    rw [hr, h.tick]

theorem loop_sim {D : Deps} {E E' : Env} {rec rec' : String → M Chain} (u : Ucan) (ss : List String)
    (hread : ∀ s ∈ ss, ∀ c, Cid.parse D s = some c → ∀ i, E.read i c = E'.read i c)
    (hrec : ∀ s ∈ ss, ∀ c tok, Cid.parse D s = some c → c.codec = Cid.rawCodec → Ever E c (strBytes tok) → ∀ w w', Sim ctors ctors' w w' →
      SimRes ctors ctors' (rec tok w) (rec' tok w')) :
    ∀ w w', Sim ctors ctors' w w' → SimRes ctors ctors' (Chain.proofsLoop D E rec u ss w) (Chain.proofsLoop D E' rec' u ss w') := by
  induction ss with
  | nil => intro w w' h; exact ⟨rfl, h⟩
  | cons s ss ih =>
    intro w w' h
    unfold Chain.proofsLoop
    refine bind_sim (lift_sim _ h) fun c w1 w1' hc h1 => ?_
    have hp : Cid.parse D s = some c := by
      rw [M.lift_apply] at hc
      have := (Prod.mk.inj hc).1
      cases hq : Cid.parse D s with
      | none => rw [hq] at this; cases this
      | some x => rw [hq] at this; cases this; rfl
    refine bind_sim (token_sim (hread s (by simp) c hp) h1) fun tok w2 w2' ht h2 => ?_
    obtain ⟨hcd, hrd, _⟩ := Chain.requireToken_ok ht
    refine bind_sim (hrec s (by simp) c tok hp hcd ⟨_, hrd⟩ w2 w2' h2) fun ch w3 w3' _ h3 => ?_
    refine bind_sim (lift_sim _ h3) fun _ w4 w4' _ h4 => ?_
    exact bind_sim (ih (fun s hs => hread s (by simp [hs])) (fun s hs => hrec s (by simp [hs])) w4 w4' h4) fun cs w5 w5' _ h5 => ⟨rfl, h5⟩

theorem ucan_sim {D : Deps} {E E' : Env} (hE : E.clock = E'.clock) (nowTime : Option UInt64) {rec rec' : String → M Chain} (u : Ucan)
    (hu : Alike D E E' ctors ctors' u)
    (hrec : ∀ tok, (∀ v, Ucan.fromStr D tok = .ok v → ∃ s ∈ u.payload.prf.getD [], Resolves D (Ever E) s v) → ∀ w w', Sim ctors ctors' w w' →
      SimRes ctors ctors' (rec tok w) (rec' tok w')) {w w' : World} (h : Sim ctors ctors' w w') :
    SimRes ctors ctors' (Chain.fromUcanWith D E nowTime rec u w) (Chain.fromUcanWith D E' nowTime rec' u w') := by
  unfold Chain.fromUcanWith
  refine bind_sim (validate_sim hE hu.keys nowTime h) fun _ w1 w1' _ h1 => ?_
  refine bind_sim (loop_sim u _ hu.store (fun s hs c tok hp hcd hev w w' hw => ?_) w1 w1' h1) fun cs w2 w2' _ h2 => ?_
  · exact hrec tok (fun v hv => ⟨s, hs, c, tok, hp, hcd, hev, hv⟩) w w' hw
  · exact bind_sim (lift_sim _ h2) fun _ w3 w3' _ h3 => ⟨rfl, h3⟩

theorem ofToken_sim {D : Deps} {E E' : Env} (hE : E.clock = E'.clock) (nowTime : Option UInt64) (fuel : Nat) :
    ∀ tok, (∀ u, Ucan.fromStr D tok = .ok u → AlikeFrom D E E' ctors ctors' u) → ∀ w w', Sim ctors ctors' w w' →
      SimRes ctors ctors' (Chain.ofToken D E nowTime fuel tok w) (Chain.ofToken D E' nowTime fuel tok w') := by
  induction fuel with
  | zero => intro tok _ w w' h; exact lift_sim _ h
  | succ fuel ih =>
    intro tok htok w w' h
    rw [Chain.ofToken, Chain.ofToken]
    refine bind_sim (lift_sim _ h) fun u w1 w1' hu h1 => ?_
    rw [M.lift_apply] at hu
    have ha := htok u (Prod.mk.inj hu).1
    refine ucan_sim hE nowTime u (ha u (.self u)) (fun tok' hv w w' hw => ih tok' (fun v hv' x hx => ?_) w w' hw) h1
    obtain ⟨s, hs, hr⟩ := hv v hv'
    exact ha x (.step hs hr hx)

end Depends

open Depends

/-! ## C80 Nothing else matters -/

/-- C80: two processes, reading the same clock, get the same result from a UCAN, chain or failure, whenever they are alike for what its proof
lists lead to. Neither the rest of the stores, nor other key types, nor the history of the parsers matter. -/
theorem C80_ucan (D : Deps) (E E' : Env) (hE : E.clock = E'.clock) (nowTime : Option UInt64) (fuel : Nat) (u : Ucan) (w w' : World)
    (ht : w.tick = w'.tick) (hc : Coherent w.parser) (hc' : Coherent w'.parser) (h : AlikeFrom D E E' w.parser.ctors w'.parser.ctors u) :
    (Chain.fromUcan D E nowTime fuel u w).1 = (Chain.fromUcan D E' nowTime fuel u w').1 :=
  (ucan_sim hE nowTime u (h u (.self u)) (fun tok hv w w' hw => ofToken_sim hE nowTime fuel tok
    (fun v hv' x hx => by obtain ⟨s, hs, hr⟩ := hv v hv'; exact h x (.step hs hr hx)) w w' hw) ⟨ht, hc, hc', rfl, rfl⟩).result

/-- C80 for a token. -/
theorem C80_token (D : Deps) (E E' : Env) (hE : E.clock = E'.clock) (nowTime : Option UInt64) (fuel : Nat) (token : String) (w w' : World)
    (ht : w.tick = w'.tick) (hc : Coherent w.parser) (hc' : Coherent w'.parser)
    (h : ∀ u, Ucan.fromStr D token = .ok u → AlikeFrom D E E' w.parser.ctors w'.parser.ctors u) :
    (Chain.ofToken D E nowTime fuel token w).1 = (Chain.ofToken D E' nowTime fuel token w').1 :=
  (ofToken_sim hE nowTime fuel token h w w' ⟨ht, hc, hc', rfl, rfl⟩).result

/-- C80 for a CID. -/
theorem C80_cid (D : Deps) (E E' : Env) (hE : E.clock = E'.clock) (nowTime : Option UInt64) (fuel : Nat) (cid : Cid) (w w' : World)
    (ht : w.tick = w'.tick) (hc : Coherent w.parser) (hc' : Coherent w'.parser) (hcid : ∀ i, E.read i cid = E'.read i cid)
    (h : ∀ token u, Ever E cid (strBytes token) → Ucan.fromStr D token = .ok u → AlikeFrom D E E' w.parser.ctors w'.parser.ctors u) :
    (Chain.fromCid D E nowTime fuel cid w).1 = (Chain.fromCid D E' nowTime fuel cid w').1 := by
  refine SimRes.result (ctors := w.parser.ctors) (ctors' := w'.parser.ctors) ?_
  unfold Chain.fromCid
  refine bind_sim (token_sim hcid ⟨ht, hc, hc', rfl, rfl⟩) fun tok w1 w1' hr h1 => ?_
  exact ofToken_sim hE nowTime fuel tok (fun u hu => h tok u ⟨_, (Chain.requireToken_ok hr).2.1⟩ hu) w1 w1' h1

/-! ## C81 Order and repetition of proofs -/

variable {S A : Type}

namespace Depends

theorem whole_child {D : Deps} {F : Cid → Bytes → Prop} (hF : Functional F) {c c' : Chain} (h : Sound D (fun _ => True) F c)
    (h' : Sound D (fun _ => True) F c') (hw : ∀ q, HandsOnWhole D F c.ucan q → HandsOnWhole D F c'.ucan q) (k : Nat) (p : Chain) (hk : k ∈ c.redel)
    (hp : c.proofs[k]? = some p) : ∃ k', k' ∈ c'.redel ∧ c'.proofs[k']? = some p := by
  have hs := Sound.all h
  have hs' := Sound.all h'
  have hlt : k < (c.ucan.payload.prf.getD []).length := by
    rw [← (SoundAll.entry hs.2.1).1]; exact (List.getElem?_eq_some_iff.1 hp).1
  have hr := (SoundAll.entry hs.2.1).2 k _ p (List.getElem?_eq_getElem hlt) hp
  obtain ⟨i, hi, s, hsi, hri⟩ := hw p.ucan ⟨k, (hs.2.2.claimed k).1 hk, _, List.getElem?_eq_getElem hlt, hr⟩
  have hlt' : i < c'.proofs.length := by
    rw [(SoundAll.entry hs'.2.1).1]; exact (List.getElem?_eq_some_iff.1 hsi).1
  have hr' := (SoundAll.entry hs'.2.1).2 i s _ hsi (List.getElem?_eq_getElem hlt')
  refine ⟨i, (hs'.2.2.claimed i).2 hi, ?_⟩
  rw [List.getElem?_eq_getElem hlt']
  exact congrArg some (Sound.unique hF _ _ (Resolves.unique hF hr' hri) (SoundAll.mem hs'.2.1 _ (List.getElem_mem hlt')).2.1
    (SoundAll.mem hs.2.1 _ (List.mem_of_getElem? hp)).2.1)

theorem invoked_child {D : Deps} {F : Cid → Bytes → Prop} (hF : Functional F) {c c' : Chain} (h : Sound D (fun _ => True) F c)
    (h' : Sound D (fun _ => True) F c') (hw : ∀ q, Invokes D F c.ucan q → Invokes D F c'.ucan q) (k : Nat) (p : Chain) (hk : k ∉ c.redel)
    (hp : c.proofs[k]? = some p) : ∃ k', k' ∉ c'.redel ∧ c'.proofs[k']? = some p := by
  have hs := Sound.all h
  have hs' := Sound.all h'
  have hlt : k < (c.ucan.payload.prf.getD []).length := by
    rw [← (SoundAll.entry hs.2.1).1]; exact (List.getElem?_eq_some_iff.1 hp).1
  have hr := (SoundAll.entry hs.2.1).2 k _ p (List.getElem?_eq_getElem hlt) hp
  obtain ⟨i, hi, s, hsi, hri⟩ := hw p.ucan ⟨k, fun e => hk ((hs.2.2.claimed k).2 e), _, List.getElem?_eq_getElem hlt, hr⟩
  have hlt' : i < c'.proofs.length := by
    rw [(SoundAll.entry hs'.2.1).1]; exact (List.getElem?_eq_some_iff.1 hsi).1
  have hr' := (SoundAll.entry hs'.2.1).2 i s _ hsi (List.getElem?_eq_getElem hlt')
  refine ⟨i, fun e => hi ((hs'.2.2.claimed i).1 e), ?_⟩
  rw [List.getElem?_eq_getElem hlt']
  exact congrArg some (Sound.unique hF _ _ (Resolves.unique hF hr' hri) (SoundAll.mem hs'.2.1 _ (List.getElem_mem hlt')).2.1
    (SoundAll.mem hs.2.1 _ (List.mem_of_getElem? hp)).2.1)

theorem inherits_mono {D : Deps} {sem : Semantics S A} {F : Cid → Bytes → Prop} (hF : Functional F) {c c' : Chain} (h : Sound D (fun _ => True) F c)
    (h' : Sound D (fun _ => True) F c') (hi : ∀ q, Invokes D F c.ucan q → Invokes D F c'.ucan q) {v : View S A} {o : String}
    (hv : Inherits D sem c v o) : Inherits D sem c' v o := by
  obtain ⟨k, p, v', hp, hk, hg, he⟩ := hv
  obtain ⟨k', hk', hp'⟩ := invoked_child hF h h' hi k p hk hp
  exact ⟨k', p, v', hp', hk', hg, he⟩

theorem granted_mono {D : Deps} {sem : Semantics S A} {F : Cid → Bytes → Prop} (hF : Functional F) {c c' : Chain} (h : Sound D (fun _ => True) F c)
    (h' : Sound D (fun _ => True) F c') (hiss : c.ucan.payload.iss = c'.ucan.payload.iss)
    (hcl : ∀ v, Claimed D sem c.ucan v ↔ Claimed D sem c'.ucan v)
    (hw : ∀ q, HandsOnWhole D F c.ucan q ↔ HandsOnWhole D F c'.ucan q) (hi : ∀ q, Invokes D F c.ucan q ↔ Invokes D F c'.ucan q)
    {v : View S A} {o : String} (hg : Granted D sem c v o) : Granted D sem c' v o := by
  rw [granted_iff] at hg ⊢
  rcases hg with ⟨hc, hin | ⟨ho, hn⟩⟩ | ⟨k, p, hk, hp, hg⟩
  · exact Or.inl ⟨(hcl v).1 hc, Or.inl (inherits_mono hF h h' (fun q => (hi q).1) hin)⟩
  · exact Or.inl ⟨(hcl v).1 hc, Or.inr ⟨ho.trans hiss, fun ⟨o', e⟩ => hn ⟨o', inherits_mono hF h' h (fun q => (hi q).2) e⟩⟩⟩
  · obtain ⟨k', hk', hp'⟩ := whole_child hF h h' (fun q => (hw q).1) k p hk hp
    exact Or.inr ⟨k', p, hk', hp', hg⟩

theorem sorted_gather (sem : Semantics S A) (v : View S A) (l : List (Info S A)) : ∀ acc : BSet String, BSet.Sorted acc → BSet.Sorted (gather sem v acc l) := by
  induction l with
  | nil => intro acc h; exact h
  | cons i l ih =>
    intro acc h
    unfold gather
    split
    · exact ih _ (BSet.sorted_extend h _)
    · exact ih _ h

theorem sorted_originators (sem : Semantics S A) (u : Ucan) (anc : List (Info S A)) (v : View S A) : BSet.Sorted (originators sem u anc v) := by
  unfold originators
  split
  · simp [BSet.Sorted]
  · exact sorted_gather sem v anc [] (by simp [BSet.Sorted])

theorem originators_congr (sem : Semantics S A) (u u' : Ucan) (hiss : u.payload.iss = u'.payload.iss) (anc anc' : List (Info S A))
    (h : ∀ x, x ∈ anc ↔ x ∈ anc') (v : View S A) : originators sem u anc v = originators sem u' anc' v := by
  refine BSet.ext (sorted_originators _ _ _ _) (sorted_originators _ _ _ _) fun o => ?_
  have e : u.issuer = u'.issuer := hiss
  simp only [mem_originators, h, e]

theorem selfInfos_eq (D : Deps) (sem : Semantics S A) (u : Ucan) (n : Nat) (anc : List (Info S A)) (hn : n = 0 → anc = []) :
    selfInfos D sem u n anc = (mapWhile (sem.parseCapability D) u.capabilities.iter).map fun v =>
      ⟨originators sem u anc v, u.notBefore, u.expiresAt, v⟩ := by
  unfold selfInfos
  split
  · rename_i h
    rw [hn h]; rfl
  · rfl

theorem reduce_invoking {D : Deps} {sem : Semantics S A} {c : Chain} {out : List (Info S A)} (hr : c.redel = []) (h : reduce D sem c = .ok out) :
    ∃ anc, Collected D sem c anc (selfInfos D sem c.ucan c.proofs.length anc) ∧ out = merge sem (selfInfos D sem c.ucan c.proofs.length anc) ∧
      (c.proofs.length = 0 → anc = []) := by
  obtain ⟨u, ps, r⟩ := c
  cases (show r = [] from hr)
  rw [reduce] at h
  unfold combine at h
  split at h
  · cases h
  · rename_i anc hanc
    have hlen : (reduceAll D sem ps).length = ps.length := by rw [reduceAll_eq]; simp
    have hz : ps.length = 0 → anc = [] := by
      intro e
      rw [List.length_eq_zero_iff.1 e] at hanc
      cases hanc; rfl
    have h : Except.ok (merge sem (selfInfos D sem u (reduceAll D sem ps).length anc ++ [])) = Except.ok out := h
    rw [hlen, List.append_nil] at h
    injection h with h
    obtain ⟨a1, a2⟩ := mem_ancestral [] _ 0 anc hanc
    rw [reduceAll_eq] at a1 a2
    refine ⟨anc, ⟨fun x => ?_, fun x => ?_, fun k p hp => ?_⟩, h.symm, hz⟩
    · rw [a1]
      constructor
      · rintro ⟨k, lk, hk, hn, hx⟩
        rw [List.getElem?_map] at hk
        obtain ⟨p, hp, he⟩ := Option.map_eq_some_iff.1 hk
        exact ⟨k, p, lk, hp, by simp [Chain.redel], he, hx⟩
      · rintro ⟨k, p, lp, hp, _, he, hx⟩
        refine ⟨k, lp, ?_, by simp, hx⟩
        rw [List.getElem?_map, show ps[k]? = some p from hp]
        exact congrArg some he
    · rw [show (Chain.mk u ps []).ucan = u from rfl, show (Chain.mk u ps []).proofs.length = ps.length from rfl, mem_selfInfos D sem u _ anc hz]
      constructor
      · exact Or.inl
      · rintro (h | ⟨k, _, _, _, hk, _⟩)
        · exact h
        · cases hk
    · have hp : ps[k]? = some p := hp
      obtain ⟨lk, e⟩ := a2 k (reduce D sem p) (by rw [List.getElem?_map, hp]; rfl) (by simp)
      exact ⟨lk, e⟩

end Depends

/-- C81: neither the order of proofs nor repetitions matter for authority. Chains over one store whose roots have one issuer and the same
claims, hand on the same tokens whole and list the same others, offer the same, granted by the same, and all that either reports is covered by a
report of the other that lists all who granted it. -/
theorem C81_sets (D : Deps) (sem : Semantics S A) (hl : Lawful sem) (E : Env) (hst : StoreFixed E) (nowTime nowTime' : Option UInt64) (w1 w2 w1' w2' : World)
    (hc : Coherent w1.parser) (hc' : Coherent w1'.parser) (c c' : Chain) (h : Built D E nowTime w1 w2 c) (h' : Built D E nowTime' w1' w2' c')
    (hiss : c.ucan.payload.iss = c'.ucan.payload.iss) (hcl : ∀ v, Claimed D sem c.ucan v ↔ Claimed D sem c'.ucan v)
    (hw : ∀ q, HandsOnWhole D (Holds E) c.ucan q ↔ HandsOnWhole D (Holds E) c'.ucan q)
    (hi : ∀ q, Invokes D (Holds E) c.ucan q ↔ Invokes D (Holds E) c'.ucan q) :
    (∀ v, Offers D sem c v ↔ Offers D sem c' v) ∧ (∀ v o, Granted D sem c v o ↔ Granted D sem c' v o) ∧
    ∀ out out', reduce D sem c = .ok out → reduce D sem c' = .ok out' → ∀ i ∈ out,
      (∃ i' ∈ out', CoveredBy sem i'.capability i.capability) ∧
      ∀ o, Granted D sem c i.capability o → ∃ i' ∈ out', CoveredBy sem i'.capability i.capability ∧ o ∈ i'.originators := by
  have hs := built_holds hst hc h
  have hs' := built_holds hst hc' h'
  have hF := holds_functional E
  have hg : ∀ v o, Granted D sem c v o ↔ Granted D sem c' v o := fun v o =>
    ⟨granted_mono hF hs hs' hiss hcl hw hi, granted_mono hF hs' hs hiss.symm (fun v => (hcl v).symm) (fun q => (hw q).symm) (fun q => (hi q).symm)⟩
  have ho : ∀ v, Offers D sem c v ↔ Offers D sem c' v := by
    intro v
    constructor
    · intro e; obtain ⟨o, e⟩ := offers_granted D sem e; exact granted_offers D sem _ _ o ((hg v o).1 e)
    · intro e; obtain ⟨o, e⟩ := offers_granted D sem e; exact granted_offers D sem _ _ o ((hg v o).2 e)
  refine ⟨ho, hg, fun out out' hr hr' i hm => ⟨?_, fun o e => ?_⟩⟩
  · exact C33_offered_covered D sem hl c' out' hr' _ ((ho _).1 (C28_offered D sem c out hr i hm))
  · exact C33_covered D sem hl c' out' hr' _ o ((hg _ o).1 e)

/-- C81: and if nothing is handed on whole, the reports are the very same list. -/
theorem C81_report (D : Deps) (sem : Semantics S A) (E : Env) (hst : StoreFixed E) (nowTime nowTime' : Option UInt64) (w1 w2 w1' w2' : World)
    (hc : Coherent w1.parser) (hc' : Coherent w1'.parser) (c c' : Chain) (h : Built D E nowTime w1 w2 c) (h' : Built D E nowTime' w1' w2' c')
    (hiss : c.ucan.payload.iss = c'.ucan.payload.iss) (hcap : c.ucan.payload.cap = c'.ucan.payload.cap) (hnbf : c.ucan.payload.nbf = c'.ucan.payload.nbf)
    (hexp : c.ucan.payload.exp = c'.ucan.payload.exp) (hno : ∀ x ∈ c.ucan.payload.cap.iter, ∀ i, ¬ Redelegates D x i)
    (hset : ∀ s, s ∈ c.ucan.payload.prf.getD [] ↔ s ∈ c'.ucan.payload.prf.getD []) : reduce D sem c = reduce D sem c' := by
  have hs := built_holds hst hc h
  have hs' := built_holds hst hc' h'
  have hF := holds_functional E
  have hi : ∀ (u u' : Ucan), u.payload.cap = u'.payload.cap → (∀ x ∈ u.payload.cap.iter, ∀ i, ¬ Redelegates D x i) →
      (∀ s, s ∈ u.payload.prf.getD [] → s ∈ u'.payload.prf.getD []) → ∀ q, Invokes D (Holds E) u q → Invokes D (Holds E) u' q := by
    rintro u u' hcap hno hset q ⟨i, _, s, hs, hr⟩
    obtain ⟨j, hj⟩ := List.getElem?_of_mem (hset s (List.mem_of_getElem? hs))
    exact ⟨j, fun ⟨x, hx, e⟩ => hno x (hcap ▸ hx) j e, s, hj, hr⟩
  have hno' : ∀ x ∈ c'.ucan.payload.cap.iter, ∀ i, ¬ Redelegates D x i := hcap ▸ hno
  have h1 := hi c.ucan c'.ucan hcap hno (fun s => (hset s).1)
  have h2 := hi c'.ucan c.ucan hcap.symm hno' (fun s => (hset s).2)
  have nil : ∀ {c : Chain}, Sound D (fun _ => True) (Holds E) c → (∀ x ∈ c.ucan.payload.cap.iter, ∀ i, ¬ Redelegates D x i) → c.redel = [] := by
    intro c hs hno
    refine List.eq_nil_iff_forall_not_mem.2 fun k hk => ?_
    obtain ⟨x, hx, e⟩ := ((Sound.all hs).2.2.claimed k).1 hk
    exact hno x hx k e
  obtain ⟨out, ho⟩ := reduce_total D sem c (sound_inRange hs)
  obtain ⟨out', ho'⟩ := reduce_total D sem c' (sound_inRange hs')
  obtain ⟨anc, hcol, e, hz⟩ := reduce_invoking (nil hs hno) ho
  obtain ⟨anc', hcol', e', hz'⟩ := reduce_invoking (nil hs' hno') ho'
  have hanc : ∀ x, x ∈ anc ↔ x ∈ anc' := by
    intro x
    rw [hcol.ancestors, hcol'.ancestors]
    constructor
    · rintro ⟨k, p, lp, hp, hk, hr, hx⟩
      obtain ⟨k', hk', hp'⟩ := invoked_child hF hs hs' h1 k p hk hp
      exact ⟨k', p, lp, hp', hk', hr, hx⟩
    · rintro ⟨k, p, lp, hp, hk, hr, hx⟩
      obtain ⟨k', hk', hp'⟩ := invoked_child hF hs' hs h2 k p hk hp
      exact ⟨k', p, lp, hp', hk', hr, hx⟩
  rw [ho, ho', e, e', selfInfos_eq D sem _ _ _ hz, selfInfos_eq D sem _ _ _ hz']
  have hor : ∀ v, originators sem c.ucan anc v = originators sem c'.ucan anc' v := originators_congr sem _ _ hiss anc anc' hanc
  have e1 : c.ucan.capabilities = c'.ucan.capabilities := hcap
  have e2 : c.ucan.notBefore = c'.ucan.notBefore := hnbf
  have e3 : c.ucan.expiresAt = c'.ucan.expiresAt := hexp
  simp only [hor, e1, e2, e3]

namespace Ex

/-- All mail. -/
def capAll : Capabilities := capsOf [("mailto:*", ["m/1"])]
/-- The first two proofs as a whole. -/
def capBoth : Capabilities := capsOf [("prf:0", ["ucan/DELEGATE"]), ("prf:1", ["ucan/DELEGATE"])]

/-- Key 1 grants key 3 one address, key 2 grants key 3 all mail. -/
def narrow (D : Deps) : Ucan := ucan D 1 (did 3) (some 20) (some 5) none capA
def broad (D : Deps) : Ucan := ucan D 2 (did 3) (some 20) (some 5) none capAll
/-- A token of key 3 with these proofs and claims. -/
def holder (D : Deps) (prf : List String) (cap : Capabilities) : Ucan := ucan D 3 (did 4) (some 20) (some 5) (some prf) cap

def pairDags (D : Deps) : Store.Dags := fun c =>
  if c = cid 1 then some (strBytes ((narrow D).encode D)) else if c = cid 2 then some (strBytes ((broad D).encode D)) else none

def pairEnv (D : Deps) : Env := still (pairDags D) 7

theorem capAll_plain : Plain capAll := ⟨by unfold BMap.Sorted; decide, by unfold BMap.Sorted; decide, by decide⟩
theorem capAll_noRedel : NoRedel capAll := by unfold NoRedel; decide
theorem capBoth_plain : Plain capBoth := ⟨by unfold BMap.Sorted; decide, by unfold BMap.Sorted; decide, by decide⟩

theorem narrow_resolves (D : Deps) : Resolves D (Holds (pairEnv D)) (cid 1).toStr (narrow D) := by
  refine ⟨cid 1, (narrow D).encode D, cid_parse D 1, rfl, ?_, parses' D 1 (did 3) _ _ _ capA_plain⟩
  exact memRead_bytes.2 (by show (if cid 1 = cid 1 then _ else _) = _; rw [if_pos rfl])

theorem broad_resolves (D : Deps) : Resolves D (Holds (pairEnv D)) (cid 2).toStr (broad D) := by
  refine ⟨cid 2, (broad D).encode D, cid_parse D 2, rfl, ?_, parses' D 2 (did 3) _ _ _ capAll_plain⟩
  exact memRead_bytes.2 (by
    show (if cid 2 = cid 1 then _ else if cid 2 = cid 2 then _ else _) = _
    rw [if_neg (by decide), if_pos rfl])

theorem both_redel (D : Deps) (i : Nat) : (∃ c ∈ capBoth.iter, Redelegates D c i) ↔ i = 0 ∨ i = 1 := by
  have h0 : SelectsProof D "prf:0" 0 := by
    have : Redelegates D ⟨"prf:" ++ asciiStr (Json.decBytes 0), "ucan/DELEGATE", .obj []⟩ 0 := by
      rw [← C19_index_iff]; exact ⟨_, C19_decimal D 0 (by decide) _, rfl⟩
    exact this.2
  have h1 : SelectsProof D "prf:1" 1 := by
    have : Redelegates D ⟨"prf:" ++ asciiStr (Json.decBytes 1), "ucan/DELEGATE", .obj []⟩ 1 := by
      rw [← C19_index_iff]; exact ⟨_, C19_decimal D 1 (by decide) _, rfl⟩
    exact this.2
  constructor
  · rintro ⟨c, hc, hr⟩
    have : c = ⟨"prf:0", "ucan/DELEGATE", .obj []⟩ ∨ c = ⟨"prf:1", "ucan/DELEGATE", .obj []⟩ := by
      simpa [capBoth, capsOf, Capabilities.iter] using hc
    rcases this with rfl | rfl
    · exact Or.inl (C19_unique D _ _ _ hr.2 h0)
    · exact Or.inr (C19_unique D _ _ _ hr.2 h1)
  · rintro (rfl | rfl)
    · exact ⟨⟨"prf:0", "ucan/DELEGATE", .obj []⟩, by simp [capBoth, capsOf, Capabilities.iter], rfl, h0⟩
    · exact ⟨⟨"prf:1", "ucan/DELEGATE", .obj []⟩, by simp [capBoth, capsOf, Capabilities.iter], rfl, h1⟩

/-- The chain of a token of key 3 with the two proofs in either order. -/
def pairChain (D : Deps) (swap : Bool) (cap : Capabilities) (redel : BSet Nat) : Chain :=
  if swap then .mk (holder D [(cid 2).toStr, (cid 1).toStr] cap) [.mk (broad D) [] [], .mk (narrow D) [] []] redel
  else .mk (holder D [(cid 1).toStr, (cid 2).toStr] cap) [.mk (narrow D) [] [], .mk (broad D) [] []] redel

theorem pair_built (D : Deps) (swap : Bool) {cap : Capabilities} (hp : Plain cap) (redel : BSet Nat)
    (hr : ∀ prf, RedelOk D (holder D prf cap) 2 redel) : ∃ w', Built D (pairEnv D) none world w' (pairChain D swap cap redel) := by
  have hd : ∀ k : UInt8, ∀ prf prf' : Option (List String), ∀ cap cap' : Capabilities,
      Delegates (ucan D k (did 3) (some 20) (some 5) prf cap) (ucan D 3 (did 4) (some 20) (some 5) prf' cap') := by
    intro k prf prf' cap cap'
    exact ⟨rfl, fun n hn => ⟨n, hn, UInt64.le_refl _⟩, fun n hn => ⟨n, hn, UInt64.le_refl _⟩⟩
  have hv : ∀ k : UInt8, ∀ aud prf cap, ValidAt none exCtors 7 (ucan D k aud (some 20) (some 5) prf cap) := fun k aud prf cap =>
    valid D k aud 20 5 prf cap 7 (by decide) (by decide)
  have hs : Ucan.fromStr D ((pairChain D swap cap redel).ucan.encode D) = .ok (pairChain D swap cap redel).ucan ∧
      Sound D (ValidAt none exCtors 7) (Holds (pairEnv D)) (pairChain D swap cap redel) := by
    cases swap with
    | false =>
      refine ⟨parses' D 3 (did 4) _ _ _ hp, ?_⟩
      show Sound _ _ _ (.mk _ _ _)
      simp only [Sound, SoundAll]
      exact ⟨hv _ _ _ _, ⟨_, _, rfl, narrow_resolves D, hd _ _ _ _ _, ⟨hv _ _ _ _, rfl, redelOk D _ _ capA_noRedel⟩,
        _, _, rfl, broad_resolves D, hd _ _ _ _ _, ⟨hv _ _ _ _, rfl, redelOk D _ _ capAll_noRedel⟩, rfl⟩, hr _⟩
    | true =>
      refine ⟨parses' D 3 (did 4) _ _ _ hp, ?_⟩
      show Sound _ _ _ (.mk _ _ _)
      simp only [Sound, SoundAll]
      exact ⟨hv _ _ _ _, ⟨_, _, rfl, broad_resolves D, hd _ _ _ _ _, ⟨hv _ _ _ _, rfl, redelOk D _ _ capAll_noRedel⟩,
        _, _, rfl, narrow_resolves D, hd _ _ _ _ _, ⟨hv _ _ _ _, rfl, redelOk D _ _ capA_noRedel⟩, rfl⟩, hr _⟩
  obtain ⟨fuel, h⟩ := (C24_complete D (pairEnv D) none 7 (fun _ => rfl) (fun _ _ _ => rfl) _ world world_coherent (pairChain D swap cap redel)).2 hs
  exact ⟨_, .ofToken fuel _ (Prod.ext h rfl)⟩

theorem pair_both (D : Deps) (swap : Bool) : ∃ w', Built D (pairEnv D) none world w' (pairChain D swap capBoth [0, 1]) :=
  pair_built D swap capBoth_plain [0, 1] fun prf => by
    refine ⟨by simp [BSet.Sorted, OrdKey.lt], fun i => ?_, by simp⟩
    show _ ↔ ∃ c ∈ capBoth.iter, Redelegates D c i
    rw [both_redel]
    simp

theorem pair_invoke (D : Deps) (swap : Bool) : ∃ w', Built D (pairEnv D) none world w' (pairChain D swap capA []) :=
  pair_built D swap capA_plain [] fun _ => redelOk D _ _ capA_noRedel

theorem pair_reports (D : Deps) : reduce D mailSem (pairChain D false capBoth [0, 1]) =
    .ok [⟨[did 2], some 5, some 20, mailAll 1⟩, ⟨[did 1], some 5, some 20, mail "a@b" 1⟩] := rfl

theorem pair_reports_swapped (D : Deps) : reduce D mailSem (pairChain D true capBoth [0, 1]) =
    .ok [⟨[did 1, did 2], some 5, some 20, mailAll 1⟩] := rfl

end Ex
open Ex

/-- C81 cannot be had for the reports themselves once proofs are handed on whole: the same two tokens in another order are reported otherwise, even
with other originators for the same capability. -/
theorem C81_order_matters (D : Deps) : ∃ (E : Env) (w w1 w2 : World) (c c' : Chain) (out out' : List (Info String Nat)), StoreFixed E ∧
    Coherent w.parser ∧ Built D E none w w1 c ∧ Built D E none w w2 c' ∧ Lawful mailSem ∧ c.ucan.payload.cap = c'.ucan.payload.cap ∧
    c.ucan.payload.iss = c'.ucan.payload.iss ∧ c'.ucan.payload.prf.getD [] = (c.ucan.payload.prf.getD []).reverse ∧
    (∀ q, HandsOnWhole D (Holds E) c.ucan q ↔ HandsOnWhole D (Holds E) c'.ucan q) ∧ (∀ q, Invokes D (Holds E) c.ucan q ↔ Invokes D (Holds E) c'.ucan q) ∧
    reduce D mailSem c = .ok out ∧ reduce D mailSem c' = .ok out' ∧ out.length ≠ out'.length ∧
    ∃ i ∈ out, ∃ i' ∈ out', i.capability = i'.capability ∧ i.originators ≠ i'.originators := by
  obtain ⟨w1, h1⟩ := pair_both D false
  obtain ⟨w2, h2⟩ := pair_both D true
  refine ⟨pairEnv D, world, w1, w2, _, _, _, _, fun _ _ _ => rfl, world_coherent, h1, h2, mailSem_lawful, rfl, rfl, rfl, fun q => ?_, fun q => ?_,
    pair_reports D, pair_reports_swapped D, by decide, _, List.mem_cons_self, _, List.mem_cons_self, rfl,
    by show ¬ [did 2] = [did 1, did 2]; simp⟩
  · constructor
    · rintro ⟨i, hi, s, hs, hr⟩
      rcases (both_redel D i).1 hi with rfl | rfl
      · exact ⟨1, (both_redel D 1).2 (Or.inr rfl), s, hs, hr⟩
      · exact ⟨0, (both_redel D 0).2 (Or.inl rfl), s, hs, hr⟩
    · rintro ⟨i, hi, s, hs, hr⟩
      rcases (both_redel D i).1 hi with rfl | rfl
      · exact ⟨1, (both_redel D 1).2 (Or.inr rfl), s, hs, hr⟩
      · exact ⟨0, (both_redel D 0).2 (Or.inl rfl), s, hs, hr⟩
  · have no : ∀ a b : String, ∀ i, (¬ ∃ c ∈ capBoth.iter, Redelegates D c i) → [a, b][i]? = none := by
      intro a b i h
      rw [both_redel] at h
      exact List.getElem?_eq_none (by simp only [List.length_cons, List.length_nil]; omega)
    constructor
    · rintro ⟨i, hi, s, hs, _⟩
      rw [show ((pairChain D false capBoth [0, 1]).ucan.payload.prf.getD [])[i]? = none from no _ _ i hi] at hs
      cases hs
    · rintro ⟨i, hi, s, hs, _⟩
      rw [show ((pairChain D true capBoth [0, 1]).ucan.payload.prf.getD [])[i]? = none from no _ _ i hi] at hs
      cases hs

/-- Beside `C81_report`: a claim with the two proofs in either order. -/
example (D : Deps) : reduce D mailSem (pairChain D false capA []) = reduce D mailSem (pairChain D true capA []) := by
  obtain ⟨w1, h1⟩ := pair_invoke D false
  obtain ⟨w2, h2⟩ := pair_invoke D true
  exact C81_report D mailSem (pairEnv D) (fun _ _ _ => rfl) none none world w1 world w2 world_coherent world_coherent _ _ h1 h2 rfl rfl rfl rfl
    (fun x hx i hr => capA_noRedel x hx hr.1) fun s => by
      show s ∈ [_, _] ↔ s ∈ [_, _]
      simp only [List.mem_cons, List.not_mem_nil, or_false]
      exact Or.comm

example (D : Deps) : reduce D mailSem (pairChain D false capA []) = .ok [⟨[did 1, did 2], some 5, some 20, mail "a@b" 1⟩] := rfl

/-- Beside C80: a process that has stored more and knows more key types gets the same from the redelegation of the example. -/
example (D : Deps) (fuel : Nat) (extra : Bytes) (other : KeyCtor) :
    (Chain.fromUcan D (env D) none fuel (root D) world).1 =
    (Chain.fromUcan D (still (fun c => if c = cid 9 then some extra else dags D c) 7) none fuel (root D)
      ⟨0, ⟨BMap.insert exCtors [0x12, 0x34] other, []⟩⟩).1 := by
  have hk : ∀ k : UInt8, SameKeyType exCtors (BMap.insert exCtors [0x12, 0x34] other) (did k) := by
    intro k b0 b1 r h
    have e : strBytes (did k) = strBytes "did:key:z" ++ Base58.encode [0xed, 1, k] := by
      rw [did, strBytes_append, strBytes_asciiStr (Base58.encode_ascii _)]
    rw [e] at h
    have h := congrArg Base58.decode (List.append_cancel_left h)
    rw [Base58.decode_encode, Base58.decode_encode] at h
    cases h
    rw [BMap.get?_insert, if_neg (by decide)]
  have hleaf : Alike D (env D) (still (fun c => if c = cid 9 then some extra else dags D c) 7) exCtors
      (BMap.insert exCtors [0x12, 0x34] other) (leaf D) := ⟨fun s hs => by (cases hs), hk 1⟩
  have hroot : Alike D (env D) (still (fun c => if c = cid 9 then some extra else dags D c) 7) exCtors
      (BMap.insert exCtors [0x12, 0x34] other) (root D) := by
    refine ⟨fun s hs c hc i => ?_, hk 2⟩
    rw [List.mem_singleton.1 hs, cid_parse] at hc
    cases hc
    simp only [env, still, Store.memRead, if_neg (show ¬ cid 1 = cid 9 by decide)]
  refine C80_ucan D (env D) (still (fun c => if c = cid 9 then some extra else dags D c) 7) rfl none fuel (root D) world
    ⟨0, ⟨BMap.insert exCtors [0x12, 0x34] other, []⟩⟩ rfl world_coherent (DidParser.coherent_fresh _) fun v hv => ?_
  cases hv with
  | self => exact hroot
  | step hs hr hx =>
    rename_i v' s
    obtain rfl : s = (cid 1).toStr := List.mem_singleton.1 hs
    obtain ⟨c, t, h1, h2, ⟨i, h3⟩, h4⟩ := hr
    obtain rfl : v' = leaf D := Resolves.unique (holds_functional (env D)) ⟨c, t, h1, h2, h3, h4⟩ (leaf_resolves D)
    cases hx with
    | self => exact hleaf
    | step hs _ _ => cases hs

end Verif
