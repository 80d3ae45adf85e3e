import Verif.Props.Check

/-! # Property C103: whose claims are reported as whose -/

namespace Verif
open Spec Chain Reduce EndToEnd Fixtures
open Builder (Op)

variable {S A : Type}

/-- Some proof that is cited for what the token claims, rather than handed on, offers something that enables the capability. -/
def Spec.Anticipated (D : Deps) (sem : Semantics S A) (c : Chain) (v : View S A) : Prop :=
  ∃ (k : Nat) (p : Chain) (v' : View S A), c.proofs[k]? = some p ∧ k ∉ c.redel ∧ Offers D sem p v' ∧ sem.enables v' v = true

/-- The party has signed none of the proofs below the token. -/
def Spec.OnlyAtTop (c : Chain) (o : String) : Prop := ∀ p ∈ c.proofs, ∀ d, Sub d p → d.ucan.payload.iss ≠ o

/-- The calls that claim a capability and cite a token. -/
def Spec.citeCalls (k : Key) (aud : String) (exp : UInt64) (c : Capability) (u : Ucan) : List Op :=
  [.issuedBy k, .forAudience aud, .withExpiration exp, .claimingCapability c, .witnessedBy u none]

namespace Owner

theorem anticipated_iff {D : Deps} {sem : Semantics S A} (hl : Lawful sem) {c : Chain} {anc l : List (Info S A)} (hc : Collected D sem c anc l) (v : View S A) :
    (∃ o, ∃ i ∈ anc, sem.enables i.capability v = true ∧ o ∈ i.originators) ↔ Anticipated D sem c v := by
  constructor
  · rintro ⟨o, i, hi, he, _⟩
    obtain ⟨k, p, lp, hp, hk, hr, hm⟩ := (hc.ancestors i).1 hi
    exact ⟨k, p, _, hp, hk, C28_offered D sem p lp hr i hm, he⟩
  · rintro ⟨k, p, v', hp, hk, ho, he⟩
    obtain ⟨lp, hr⟩ := hc.proofsOk k p hp
    obtain ⟨i, hi, hcov⟩ := C33_offered_covered D sem hl p lp hr v' ho
    obtain ⟨o, hoi⟩ := C30_nonempty D sem p lp hr i hi
    refine ⟨o, i, (hc.ancestors i).2 ⟨k, p, lp, hp, hk, hr, hi⟩, ?_, hoi⟩
    rcases hcov with h | h
    · rw [h]; exact he
    · exact enablesTrans_of_lawful hl _ _ _ h he

end Owner
open Owner

/-- C103 (partial): what a token claims is reported with its issuer among the originators, if no proof cited for it enables it. The full claim, for
all claims, is refuted by `C103_disowned`. -/
theorem C103_listed_partial (D : Deps) (sem : Semantics S A) (hl : Lawful sem) (c : Chain) (out : List (Info S A)) (h : reduce D sem c = .ok out)
    (v : View S A) (hv : Claimed D sem c.ucan v) (ha : ¬ Anticipated D sem c v) :
    ∃ i ∈ out, CoveredBy sem i.capability v ∧ c.ucan.payload.iss ∈ i.originators := by
  obtain ⟨anc, l, hc, hm⟩ := reduce_ok h
  have hx := (hc.members ⟨originators sem c.ucan anc v, c.ucan.payload.nbf, c.ucan.payload.exp, v⟩).2 (.inl ⟨hv, rfl, rfl, rfl⟩)
  have ho : c.ucan.payload.iss ∈ originators sem c.ucan anc v := by
    rw [mem_originators]
    exact .inr ⟨rfl, fun h => ha ((anticipated_iff hl hc v).1 h)⟩
  obtain ⟨i, hi, h1, h2⟩ := hm.cover (R := CoveredBy sem) (fun _ => Or.inl rfl) (coveredBy_trans (enablesTrans_of_lawful hl)) (fun _ _ _ _ h => Or.inr h) _ hx
  exact ⟨i, hi, h1, h2 _ ho⟩

/-- C103, exactly: a party that has signed none of the proofs is named in some report exactly if no proof cited enables one of its claims. -/
theorem C103_iff (D : Deps) (sem : Semantics S A) (hl : Lawful sem) (c : Chain) (out : List (Info S A)) (h : reduce D sem c = .ok out)
    (ht : OnlyAtTop c c.ucan.payload.iss) :
    (∃ i ∈ out, c.ucan.payload.iss ∈ i.originators) ↔ ∃ v, Claimed D sem c.ucan v ∧ ¬ Anticipated D sem c v := by
  constructor
  · rintro ⟨i, hi, ho⟩
    obtain ⟨anc, l, hc, hm⟩ := reduce_ok h
    obtain ⟨x, hx, _, ho⟩ := hm.origin (R := fun _ _ => True) (fun _ => trivial) (fun _ _ _ _ _ => trivial) (fun _ _ _ _ _ => trivial) i hi _ ho
    have no : ∀ (k : Nat) (p : Chain) (lp : List (Info S A)) (y : Info S A), c.proofs[k]? = some p → reduce D sem p = .ok lp → y ∈ lp →
        c.ucan.payload.iss ∉ y.originators := by
      intro k p lp y hp hr hy ho
      obtain ⟨d, hd, e⟩ := C30_issuer D sem p lp hr y hy _ ho
      exact ht p (mem_of_getElem?' hp) d hd e
    rcases (hc.members x).1 hx with ⟨hcl, _, _, ho'⟩ | ⟨k, p, lp, y, hk, hp, hr, hy, rfl⟩
    · rw [ho', mem_originators] at ho
      rcases ho with ⟨j, hj, _, ho⟩ | ⟨_, hno⟩
      · obtain ⟨k, p, lp, hp, _, hr, hj⟩ := (hc.ancestors j).1 hj
        exact absurd ho (no k p lp j hp hr hj)
      · exact ⟨_, hcl, fun h => hno ((anticipated_iff hl hc _).2 h)⟩
    · exact absurd ho (no k p lp y hp hr hy)
  · rintro ⟨v, hv, ha⟩
    obtain ⟨i, hi, _, ho⟩ := C103_listed_partial D sem hl c out h v hv ha
    exact ⟨i, hi, ho⟩

namespace Owner

theorem cited {D : Deps} (hD : ShortDigests D) {E : Env} {g : Nat} {l : Nat → List Store.Op} (hE : Served D E g l)
    (hl : ∀ i j, i ≤ j → l i <:+ l j) (hn : ∀ i, NoCollision D g (l i)) (w : World) (hc : Coherent w.parser) {kA kB : Key} {a b z : String}
    (ha : kA.did = .ok a) (hb : kB.did = .ok b) {c d : Capability} (hc' : ∀ i, ¬ Redelegates D c i) (hd' : ∀ i, ¬ Redelegates D d i)
    {e f : UInt64} (hef : f ≤ e) {uA uB : Ucan}
    (hA : SignedBy D w.parser.ctors (grantCalls kA b e c) uA) (hB : SignedBy D w.parser.ctors (citeCalls kB z f d uA) uB)
    (hstored : Written g (strBytes (uA.encode D)) (l w.tick)) (hclock : ∀ i, E.clock i ≤ f) :
    ∃ w', (∃ N, ∀ fuel, N ≤ fuel → ofToken D E none fuel (uB.encode D) w = (.ok (.mk uB [.mk uA [] []] []), w')) ∧
      uA.payload.iss = a ∧ uB.payload.iss = b ∧ uA.payload.cap.iter = [c] ∧ uB.payload.cap.iter = [d] ∧ uB.payload.nbf = none ∧ uB.payload.exp = some f := by
  have hlA : (grantCalls kA b e c).length < 2 ^ 64 := by simp [grantCalls]
  have hlB : (citeCalls kB z f d uA).length < 2 ^ 64 := by simp [citeCalls]
  obtain ⟨iA, aA, eA, nA⟩ := signed_fields (k := kA) (a := b) (e := e) hlA hA rfl rfl rfl
  obtain ⟨iB, aB, eB, nB⟩ := signed_fields (k := kB) (a := z) (e := f) hlB hB rfl rfl rfl
  have nA : uA.payload.nbf = none := nA
  have nB : uB.payload.nbf = none := nB
  have iA : a = uA.payload.iss := by rw [ha] at iA; cases iA; rfl
  have iB : b = uB.payload.iss := by rw [hb] at iB; cases iB; rfl
  obtain ⟨prfA, capA, parA, _⟩ := signed_payload hlA hA
  obtain ⟨prfB, capB, parB, _⟩ := signed_payload hlB hB
  have capA : uA.payload.cap.iter = [c] := List.perm_singleton.1 capA
  have capB : uB.payload.cap.iter = [d] := List.perm_singleton.1 capB
  have tA : Timely E none w.tick uA := by
    refine fun i _ => ⟨fun e' he' => ?_, fun n hn' => ?_⟩
    · rw [eA] at he'; cases he'
      exact UInt64.le_trans (hclock i) hef
    · rw [nA] at hn'; cases hn'
  have tB : Timely E none w.tick uB := by
    refine fun i _ => ⟨fun e' he' => ?_, fun n hn' => ?_⟩
    · rw [eB] at he'; cases he'
      exact hclock i
    · rw [nB] at hn'; cases hn'
  have dAB : Delegates uA uB := by
    refine ⟨aA.trans iB, fun n hn' => by (rw [nA] at hn'; cases hn'), fun e' he' => ?_⟩
    rw [eA] at he'
    cases he'
    exact ⟨f, eB, hef⟩
  have hF : ∀ b, Written g b (l w.tick) → (fun c b => c = Store.blockCid D b ∧ Written g b (l w.tick)) (Store.blockCid D b) b := fun b hb => ⟨rfl, hb⟩
  have sA : Sound D (fun u => Timely E none w.tick u ∧ Authentic w.parser.ctors u) (fun c b => c = Store.blockCid D b ∧ Written g b (l w.tick)) (.mk uA [] []) := by
    rw [Sound, SoundAll, prfA]
    refine ⟨⟨tA, (signed_payload hlA hA).2.2.2⟩, rfl, by simp [BSet.Sorted], fun i => ?_, by simp⟩
    rw [capA]
    simpa using hc' i
  have sB : Sound D (fun u => Timely E none w.tick u ∧ Authentic w.parser.ctors u) (fun c b => c = Store.blockCid D b ∧ Written g b (l w.tick))
      (.mk uB [.mk uA [] []] []) := by
    rw [Sound, SoundAll, prfB]
    refine ⟨⟨tB, (signed_payload hlB hB).2.2.2⟩, ⟨_, [], rfl, ?_, dAB, sA, by rw [SoundAll]⟩, by simp [BSet.Sorted], fun i => ?_, by simp⟩
    · exact reference_resolves hD hF parA hstored
    · rw [capB]
      simpa using hd' i
  have hena := timely_enables hE hl hn none w.parser.ctors w.tick
  obtain ⟨w', hw'⟩ := ofToken_complete hena (Spec.levels (.mk uB [.mk uA [] []] [])) (uB.encode D) w (.mk uB [.mk uA [] []] []) hc rfl (Nat.le_refl _) (Nat.le_refl _) parB sB
  refine ⟨w', ⟨Spec.levels (.mk uB [.mk uA [] []] []), fun fuel hfuel => ?_⟩, iA.symm, iB.symm, capA, capB, nB, eB⟩
  · rw [← hw']
    exact ofToken_fuel hfuel _ _ (by rw [hw']; simp)

theorem reduce_cited {D : Deps} {sem : Semantics S A} {uA uB : Ucan} {c d : Capability} {x v : View S A} (capA : uA.payload.cap.iter = [c])
    (capB : uB.payload.cap.iter = [d]) (hx : sem.parseCapability D c = some x) (hv : sem.parseCapability D d = some v) (hen : sem.enables x v = true) :
    reduce D sem (.mk uB [.mk uA [] []] []) = .ok [⟨[uA.payload.iss], uB.payload.nbf, uB.payload.exp, v⟩] := by
  have h1 : reduce D sem (.mk uA [] []) = .ok [⟨[uA.payload.iss], uA.payload.nbf, uA.payload.exp, x⟩] := by
    rw [reduce, reduceAll]
    unfold combine
    simp only [ancestral, redelegated, selfInfos, Ucan.capabilities, capA, mapWhile, hx, List.map_cons, List.map_nil, List.append_nil, Ucan.issuer,
      Ucan.notBefore, Ucan.expiresAt]
    rfl
  rw [reduce, reduceAll, reduceAll, h1]
  unfold combine
  simp only [ancestral, redelegated, selfInfos, Ucan.capabilities, capB, mapWhile, hv, Ucan.notBefore, Ucan.expiresAt,
    List.append_nil, List.map_cons, List.map_nil, List.not_mem_nil, if_false]
  simp [originators, gather, hen, merge, mergeLoop, absorb, BSet.extend, BSet.insert]

theorem reduce_unread {D : Deps} {sem : Semantics S A} {uA uB : Ucan} {c d : Capability} {v : View S A} (capA : uA.payload.cap.iter = [c])
    (capB : uB.payload.cap.iter = [d]) (hx : sem.parseCapability D c = none) (hv : sem.parseCapability D d = some v) :
    reduce D sem (.mk uB [.mk uA [] []] []) = .ok [⟨[uB.payload.iss], uB.payload.nbf, uB.payload.exp, v⟩] := by
  have h1 : reduce D sem (.mk uA [] []) = .ok [] := by
    rw [reduce, reduceAll]
    unfold combine
    simp only [ancestral, redelegated, selfInfos, Ucan.capabilities, capA, mapWhile, hx, List.map_nil, List.append_nil]
    rfl
  rw [reduce, reduceAll, reduceAll, h1]
  unfold combine
  simp only [ancestral, redelegated, selfInfos, Ucan.capabilities, capB, mapWhile, hv, Ucan.notBefore, Ucan.expiresAt,
    List.append_nil, List.map_cons, List.map_nil, List.not_mem_nil, if_false]
  simp [originators, gather, merge, mergeLoop, absorb, Ucan.issuer]

end Owner

/-- C103: A, whoever they are, addresses a token to B that claims `c`. B claims `d`, which `c` enables, and cites the token. The only report names A. -/
theorem C103_report (D : Deps) (hD : ShortDigests D) (sem : Semantics S A) (E : Env) (g : Nat) (l : Nat → List Store.Op) (hE : Served D E g l)
    (hl : ∀ i j, i ≤ j → l i <:+ l j) (hn : ∀ i, NoCollision D g (l i)) (w : World) (hc : Coherent w.parser) (kA kB : Key) (a b z : String)
    (ha : kA.did = .ok a) (hb : kB.did = .ok b) (c d : Capability) (x v : View S A) (hx : sem.parseCapability D c = some x)
    (hv : sem.parseCapability D d = some v) (hen : sem.enables x v = true) (hc' : ∀ i, ¬ Redelegates D c i) (hd' : ∀ i, ¬ Redelegates D d i)
    (e f : UInt64) (hef : f ≤ e) (uA uB : Ucan)
    (hA : SignedBy D w.parser.ctors (grantCalls kA b e c) uA) (hB : SignedBy D w.parser.ctors (citeCalls kB z f d uA) uB)
    (hstored : Written g (strBytes (uA.encode D)) (l w.tick)) (hclock : ∀ i, E.clock i ≤ f) :
    ∃ w', (∃ N, ∀ fuel, N ≤ fuel → ofToken D E none fuel (uB.encode D) w = (.ok (.mk uB [.mk uA [] []] []), w')) ∧
      uA.payload.iss = a ∧ uB.payload.iss = b ∧ Claimed D sem uB v ∧
      reduce D sem (.mk uB [.mk uA [] []] []) = .ok [⟨[a], none, some f, v⟩] := by
  obtain ⟨w', h1, h2, h3, capA, capB, hnb, hex⟩ := cited hD hE hl hn w hc ha hb hc' hd' hef hA hB hstored hclock
  refine ⟨w', h1, h2, h3, ⟨[], d, [], by rw [capB]; rfl, by simp, hv⟩, ?_⟩
  rw [reduce_cited capA capB hx hv hen, h2, hnb, hex]

/-- C103 is violated: so B, who signed the claim, is not named for it, nor for anything else; A, who signed nothing but a claim of their own making, is. -/
theorem C103_disowned (D : Deps) (hD : ShortDigests D) (sem : Semantics S A) (E : Env) (g : Nat) (l : Nat → List Store.Op) (hE : Served D E g l)
    (hl : ∀ i j, i ≤ j → l i <:+ l j) (hn : ∀ i, NoCollision D g (l i)) (w : World) (hc : Coherent w.parser) (kA kB : Key) (a b z : String)
    (ha : kA.did = .ok a) (hb : kB.did = .ok b) (hab : a ≠ b) (c d : Capability) (x v : View S A) (hx : sem.parseCapability D c = some x)
    (hv : sem.parseCapability D d = some v) (hen : sem.enables x v = true) (hself : sem.enables v v = true)
    (hc' : ∀ i, ¬ Redelegates D c i) (hd' : ∀ i, ¬ Redelegates D d i)
    (e f : UInt64) (hef : f ≤ e) (uA uB : Ucan)
    (hA : SignedBy D w.parser.ctors (grantCalls kA b e c) uA) (hB : SignedBy D w.parser.ctors (citeCalls kB z f d uA) uB)
    (hstored : Written g (strBytes (uA.encode D)) (l w.tick)) (hclock : ∀ i, E.clock i ≤ f) :
    ∃ ch w' out, (∃ N, ∀ fuel, N ≤ fuel → ofToken D E none fuel (uB.encode D) w = (.ok ch, w')) ∧ reduce D sem ch = .ok out ∧
      ch.ucan.payload.iss = b ∧ Claimed D sem ch.ucan v ∧ (∀ i ∈ out, b ∉ i.originators) ∧ ¬ Listed sem out b v ∧ Listed sem out a v := by
  obtain ⟨w', h1, _, h3, h4, h5⟩ := C103_report D hD sem E g l hE hl hn w hc kA kB a b z ha hb c d x v hx hv hen hc' hd' e f hef uA uB hA hB hstored hclock
  refine ⟨_, w', _, h1, h5, h3, h4, ?_, ?_, ?_⟩
  · simpa using Ne.symm hab
  · rintro ⟨i, hi, ho, _⟩
    cases List.mem_singleton.1 hi
    exact hab (List.mem_singleton.1 ho).symm
  · exact ⟨_, List.mem_singleton.2 rfl, List.mem_singleton.2 rfl, hself⟩

namespace Ex

theorem toy_cite (D : Deps) (u : Ucan) : ∃ u', SignedBy D toyCtors (citeCalls (toyKey 2) "did:key:z3" 10 sendOne u) u' := by
  have hst := C51_state D (citeCalls (toyKey 2) "did:key:z3" 10 sendOne u) (by simp [citeCalls])
  have hcap : (Builder.run D (citeCalls (toyKey 2) "did:key:z3" 10 sendOne u)).capabilities = [sendOne] := hst.capabilities
  have hb : (Builder.run D (citeCalls (toyKey 2) "did:key:z3" 10 sendOne u)).build ⟨fun _ => 0, fun _ _ => .ok none⟩ true ⟨0, ⟨[], []⟩⟩ =
      (.ok ⟨toyKey 2, "did:key:z3", [sendOne], some 10, none, [], references D (citeCalls (toyKey 2) "did:key:z3" 10 sendOne u), false⟩,
        ⟨0, ⟨[], []⟩⟩) := by
    rw [Builder.build_eq (k := toyKey 2) (a := "did:key:z3") hst.issuer hst.audience,
      M.bind_of_ok (Builder.impliedExpiration_explicit (t := 10) hst.expiration _), hcap, hst.notBefore, hst.facts, hst.proofs, hst.addNonce]
    rfl
  exact ⟨_, toy_signed D 2 _ _ _ _ _ _ hb rfl rfl (plain_ok D _ rfl (by
    intro y hy
    cases List.mem_singleton.1 hy
    rfl))⟩

/-- Beside C103: key 1 lets key 2 send as anybody; key 2 claims its own address, citing that. The service finds key 1 named, not key 2. -/
example (D : Deps) (hD : ShortDigests D) : ∃ (a b : String) (E : Env) (w w' : World) (t : String) (fuel : Nat) (ch : Chain) (out : List (Info EmailAddress EmailAction)),
    ofToken D E none fuel t w = (.ok ch, w') ∧ reduce D emailSemantics ch = .ok out ∧ ch.ucan.payload.iss = b ∧ Claimed D emailSemantics ch.ucan viewOne ∧
    ¬ Listed emailSemantics out b viewOne ∧ Listed emailSemantics out a viewOne := by
  obtain ⟨a, _, ha, _⟩ := toy_denotes 1
  obtain ⟨b, _, hb, _⟩ := toy_denotes 2
  have hab : a ≠ b := by
    have h1 : (toyKey 1).did ≠ (toyKey 2).did := by decide +kernel
    rintro rfl
    exact h1 (ha.trans hb.symm)
  obtain ⟨uA, hA⟩ := toy_grant D b sendAll (Or.inr rfl)
  obtain ⟨uB, hB⟩ := toy_cite D uA
  obtain ⟨ch, w', out, ⟨N, h1⟩, h2, h3, h4, _, h5, h6⟩ := C103_disowned D hD emailSemantics (env1 D uA) 0 (fun _ => log1 D uA) (fun _ _ => rfl)
    (fun _ _ _ => List.suffix_refl _) (fun _ b b' hb hb' _ => (written_one hb).trans (written_one hb').symm) ⟨0, ⟨toyCtors, []⟩⟩ (DidParser.coherent_fresh _)
    (toyKey 1) (toyKey 2) a b "did:key:z3" ha hb hab sendAll sendOne viewAll viewOne (sendAll_view D) (sendOne_view D) (by decide) (by decide)
    (one_not_redelegating D _ (Or.inr rfl)) (one_not_redelegating D _ (Or.inl rfl)) 20 10 (by decide) uA uB hA hB (.here 0 rfl) clock_le
  exact ⟨a, b, _, _, w', _, N, ch, out, h1 N (Nat.le_refl _), h2, h3, h4, h5, h6⟩

/-- Beside `C103_iff` and `C103_listed_partial`: key 3 has signed none of the proofs of its token; the claim of key 1 is not anticipated. -/
example (D : Deps) : OnlyAtTop (chain3 D capSend capSend capSend) (did 3) ∧ ¬ Anticipated D emailSemantics (.mk (tok1 D capSend) [] []) viewOne := by
  constructor
  · intro p hp d hd
    cases List.mem_singleton.1 hp
    cases hd with
    | self => exact (by decide +kernel : did 2 ≠ did 3)
    | proof hp hd =>
      cases List.mem_singleton.1 hp
      cases hd with
      | self => exact (by decide +kernel : did 1 ≠ did 3)
      | proof hp _ => exact nomatch hp
  · rintro ⟨k, p, _, hp, _⟩
    exact nomatch hp

end Ex

end Verif
