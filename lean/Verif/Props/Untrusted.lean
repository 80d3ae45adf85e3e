import Verif.Spec.Untrusted
import Verif.Props.Check

/-! # Property C96: what a store can make of a token -/

namespace Verif
open Spec Chain Reduce EndToEnd Fixtures

variable {S A : Type}

/-- C96, for faithful stores: in an accepted chain every proof has the hash with which it was referred to. -/
theorem C96_pinned_partial {D : Deps} {E : Env} (hf : Faithful D E) {nowTime : Option UInt64} {w w' : World} {c : Chain} (hc : Coherent w.parser)
    (h : Built D E nowTime w w' c) : Pinned D E w.tick w'.tick c :=
  Sound.mono (fun _ _ => trivial) (fun cid b h => ⟨h, by obtain ⟨i, _, _, h⟩ := h; exact hf i cid b h⟩) c (built_sound hc h)

/-- C96, for faithful stores: two chains with the same first token are equal, whatever the stores, the hash functions in the references, the times
and the keys, unless two texts that were read have the same hash. -/
theorem C96_determined_partial {D : Deps} {E E' : Env} (hf : Faithful D E) (hf' : Faithful D E')
    (hn : ∀ i j cid b b', (E.read i cid = .ok (some (.bytes b)) ∨ E'.read i cid = .ok (some (.bytes b))) →
      (E.read j cid = .ok (some (.bytes b')) ∨ E'.read j cid = .ok (some (.bytes b'))) → D.digest cid.hashCode b = D.digest cid.hashCode b' → b = b')
    {nowTime nowTime' : Option UInt64} {w v w' v' : World} {c c' : Chain} (hc : Coherent w.parser) (hc' : Coherent v.parser)
    (h : Built D E nowTime w w' c) (h' : Built D E' nowTime' v v' c') (hu : c.ucan = c'.ucan) : c = c' := by
  let F : Cid → Bytes → Prop := fun cid b => ∃ i, E.read i cid = .ok (some (.bytes b)) ∨ E'.read i cid = .ok (some (.bytes b))
  have hF : Chain.Functional F := by
    rintro cid b b' ⟨i, h1⟩ ⟨j, h2⟩
    refine hn i j cid b b' h1 h2 ?_
    have e1 : D.digest cid.hashCode b = cid.digest := h1.elim (hf i cid b) (hf' i cid b)
    have e2 : D.digest cid.hashCode b' = cid.digest := h2.elim (hf j cid b') (hf' j cid b')
    rw [e1, e2]
  refine Sound.unique (D := D) (V := fun _ => True) hF c c' hu ?_ ?_
  · exact Sound.mono (fun _ _ => trivial) (fun cid b ⟨i, _, _, h⟩ => ⟨i, Or.inl h⟩) c (built_sound hc h)
  · exact Sound.mono (fun _ _ => trivial) (fun cid b ⟨i, _, _, h⟩ => ⟨i, Or.inr h⟩) c' (built_sound hc' h')

namespace Untrusted

/-- The store answers with these bytes between two ticks, whatever it is asked for. -/
def Gives (A : Nat → Bytes) (lo hi : Nat) (r : Nat → Cid → Res (Option Ipld)) : Prop :=
  ∀ i, lo ≤ i → i < hi → ∀ cid, r i cid = .ok (some (.bytes (A i)))

mutual
theorem serve {D : Deps} {nowTime : Option UInt64} {ctors : BMap Bytes KeyCtor} {t : UInt64} : ∀ c : Chain,
    Sound D (ValidAt nowTime ctors t) (fun _ _ => True) c → ∀ w : World, Coherent w.parser → w.parser.ctors = ctors →
    ∃ A w', Keeps w w' ∧ ∀ r, Gives A w.tick w'.tick r → ∀ fuel, levelsAll c.proofs ≤ fuel →
      fromUcan D (answering t r) nowTime fuel c.ucan w = (.ok c, w')
  | .mk u cs redel, h, w, hc, hct => by
    simp only [Sound] at h
    obtain ⟨hv, ha, hr⟩ := h
    obtain ⟨w1, h1⟩ := validate_ok_of_validAt (E := answering t fun _ _ => .ok none) (fun _ => rfl) hc (by rw [hct]; exact hv)
    obtain ⟨k1, k2, k3⟩ := validate_world hc h1
    obtain ⟨A, w2, hk, hA⟩ := serveAll u cs _ ha w1 k1 (k2.trans hct)
    refine ⟨A, w2, ⟨hk.coherent, hk.ctors.trans k2, Nat.le_trans k3 hk.tick⟩, fun r hg fuel hf => ?_⟩
    have h1' : u.validate (answering t r) nowTime w = (.ok (), w1) := h1
    have h2 := hA r (fun i hi => hg i (Nat.le_trans k3 hi)) fuel hf
    show fromUcanWith D (answering t r) nowTime _ u w = _
    unfold fromUcanWith
    rw [M.bind_of_ok h1']
    refine (M.bind_of_ok h2).trans ?_
    rw [(redelegations_iff D _ u redel).2 hr]
    rfl
theorem serveAll {D : Deps} {nowTime : Option UInt64} {ctors : BMap Bytes KeyCtor} {t : UInt64} (u : Ucan) : ∀ (cs : List Chain) (ss : List String),
    SoundAll D (ValidAt nowTime ctors t) (fun _ _ => True) u ss cs → ∀ w : World, Coherent w.parser → w.parser.ctors = ctors →
    ∃ A w', Keeps w w' ∧ ∀ r, Gives A w.tick w'.tick r → ∀ fuel, levelsAll cs ≤ fuel →
      proofsLoop D (answering t r) (ofToken D (answering t r) nowTime fuel) u ss w = (.ok cs, w')
  | [], ss, h, w, hc, _ => by
    simp only [SoundAll] at h
    subst h
    exact ⟨fun _ => [], w, .refl hc, fun _ _ _ _ => rfl⟩
  | c :: cs, ss, h, w, hc, hct => by
    simp only [SoundAll] at h
    obtain ⟨s, ss', rfl, ⟨cid, tok, hp, hcodec, _, hfs⟩, hd, hs, ha⟩ := h
    obtain ⟨A1, w2, hk1, hA1⟩ := serve c hs { w with tick := w.tick + 1 } hc hct
    obtain ⟨A2, w3, hk2, hA2⟩ := serveAll u cs ss' ha w2 hk1.coherent (hk1.ctors.trans hct)
    have t1 : w.tick + 1 ≤ w2.tick := hk1.tick
    have t2 : w2.tick ≤ w3.tick := hk2.tick
    refine ⟨fun i => if i = w.tick then strBytes tok else if i < w2.tick then A1 i else A2 i, w3,
      ⟨hk2.coherent, hk2.ctors.trans hk1.ctors, by omega⟩, fun r hg fuel hf => ?_⟩
    have hl : Spec.levels c ≤ fuel ∧ levelsAll cs ≤ fuel := by simp only [levelsAll] at hf; omega
    have e2 := requireToken_of_read (E := answering t r) (w := w) (s := tok) hcodec (by
      have := hg w.tick (Nat.le_refl _) (by omega) cid
      simp only [if_true] at this; exact this)
    have e3 : ofToken D (answering t r) nowTime fuel tok { w with tick := w.tick + 1 } = (.ok c, w2) := by
      match fuel, hl.1 with
      | 0, h0 => obtain ⟨_, _, _⟩ := c; simp [Spec.levels] at h0
      | fuel + 1, h0 =>
        unfold ofToken
        rw [hfs]
        refine (M.bind_of_ok (x := M.lift (.ok c.ucan)) (a := c.ucan) (w1 := { w with tick := w.tick + 1 }) rfl).trans ?_
        refine hA1 r (fun i hi hi' => ?_) fuel (by obtain ⟨_, _, _⟩ := c; simp only [Spec.levels, Chain.proofs] at h0 ⊢; omega)
        have hi : w.tick + 1 ≤ i := hi
        intro cid
        have := hg i (by omega) (by omega) cid
        simp only [if_neg (show ¬ i = w.tick by omega), if_pos hi'] at this
        exact this
    have e5 := hA2 r (fun i hi hi' => by
      intro cid
      have := hg i (by omega) hi' cid
      simp only [if_neg (show ¬ i = w.tick by omega), if_neg (show ¬ i < w2.tick by omega)] at this
      exact this) fuel hl.2
    unfold proofsLoop
    rw [hp]
    refine (M.bind_of_ok (x := M.lift (orErr .cidText (some cid))) (a := cid) (w1 := w) rfl).trans ?_
    rw [M.bind_of_ok e2, M.bind_of_ok e3]
    rw [(validateLink_iff _ _).2 hd]
    refine (M.bind_of_ok (x := M.lift (.ok ())) (a := ()) (w1 := w2) rfl).trans ?_
    rw [M.bind_of_ok e5]
    rfl
end

end Untrusted

/-- C96: exactly what a store can make of a token. It may answer each reading as it likes, so every tree of valid tokens that delegate to one
another can be had, if only the proof lists have the right lengths and contain texts of raw CIDs; which CIDs makes no difference. -/
theorem C96_power (D : Deps) (nowTime : Option UInt64) (t : UInt64) (token : String) (w : World) (hc : Coherent w.parser) (c : Chain) :
    (∃ r fuel, (ofToken D (answering t r) nowTime fuel token w).1 = .ok c) ↔
      Ucan.fromStr D token = .ok c.ucan ∧ Sound D (ValidAt nowTime w.parser.ctors t) (fun _ _ => True) c := by
  constructor
  · rintro ⟨r, fuel, h⟩
    obtain ⟨h1, h2⟩ := ofToken_sound D _ nowTime fuel token w c _ hc (Prod.ext h rfl)
    exact ⟨h1, Sound.mono (fun u => validIn_fixed (E := answering t r) (fun _ => rfl) u) (fun _ _ _ => trivial) c h2⟩
  · rintro ⟨h1, h2⟩
    obtain ⟨A, w', hk, hA⟩ := Untrusted.serve c h2 w hc rfl
    refine ⟨fun i _ => .ok (some (.bytes (A i))), levelsAll c.proofs + 1, ?_⟩
    unfold ofToken
    rw [h1]
    have := hA (fun i _ => .ok (some (.bytes (A i)))) (fun _ _ _ _ => rfl) _ (Nat.le_refl _)
    have e : (M.lift (.ok c.ucan) >>= fromUcanWith D (answering t _) nowTime (ofToken D (answering t _) nowTime (levelsAll c.proofs))) w = _ :=
      (M.bind_of_ok (x := M.lift (.ok c.ucan)) (a := c.ucan) (w1 := w) rfl).trans this
    rw [e]

/-- C96 fails: A grants B two capabilities in two tokens, and B hands on the first. A store that answers the reference to the first with the
second makes the chain report the second as granted by A, whatever it is. -/
theorem C96_substitution (D : Deps) (hD : ShortDigests D) (sem : Semantics S A) (w : World) (hc : Coherent w.parser) (kA kB : Key) (a b z : String)
    (ha : kA.did = .ok a) (hb : kB.did = .ok b) (c1 c2 : Capability) (v : View S A) (hv : sem.parseCapability D c2 = some v)
    (h2' : ∀ i, ¬ Redelegates D c2 i) (hsem : sem.parseCapability D (delegation 0) = none) (e1 e2 f t : UInt64) (hef : f ≤ e2) (htf : t ≤ f)
    (u1 u2 u3 : Ucan) (h1 : SignedBy D w.parser.ctors (grantCalls kA b e1 c1) u1) (h2 : SignedBy D w.parser.ctors (grantCalls kA b e2 c2) u2)
    (h3 : SignedBy D w.parser.ctors (passCalls kB z f u1) u3) :
    ∃ ch w' out E, (∃ N, ∀ fuel, N ≤ fuel → ofToken D E none fuel (u3.encode D) w = (.ok ch, w')) ∧ reduce D sem ch = .ok out ∧
      out = [⟨[a], none, some f, v⟩] ∧
      (D.digest Cid.blake3 (strBytes (u2.encode D)) ≠ D.digest Cid.blake3 (strBytes (u1.encode D)) → ¬ Pinned D E w.tick w'.tick ch) := by
  have hl1 : (grantCalls kA b e1 c1).length < 2 ^ 64 := by simp [grantCalls]
  have hl2 : (grantCalls kA b e2 c2).length < 2 ^ 64 := by simp [grantCalls]
  have hl3 : (passCalls kB z f u1).length < 2 ^ 64 := by simp [passCalls]
  obtain ⟨i2, a2, x2, n2⟩ := signed_fields (k := kA) (a := b) (e := e2) hl2 h2 rfl rfl rfl
  obtain ⟨i3, a3, x3, n3⟩ := signed_fields (k := kB) (a := z) (e := f) hl3 h3 rfl rfl rfl
  have n2 : u2.payload.nbf = none := n2
  have n3 : u3.payload.nbf = none := n3
  have i2 : a = u2.payload.iss := by rw [ha] at i2; cases i2; rfl
  have i3 : b = u3.payload.iss := by rw [hb] at i3; cases i3; rfl
  obtain ⟨_, _, par1, _⟩ := signed_payload hl1 h1
  obtain ⟨prf2, cap2, par2, au2⟩ := signed_payload hl2 h2
  obtain ⟨prf3, cap3, par3, au3⟩ := signed_payload hl3 h3
  have cap2 : u2.payload.cap.iter = [c2] := List.perm_singleton.1 cap2
  have cap3 : u3.payload.cap.iter = [delegation 0] := List.perm_singleton.1 cap3
  have prf3 : u3.payload.prf.getD [] = [reference D u1 0x1e] := prf3
  have prf2 : u2.payload.prf.getD [] = [] := prf2
  have r0 : Redelegates D (delegation 0) 0 := (C19_index_iff D _ _).1 ⟨_, C19_decimal D 0 (by decide) _, rfl⟩
  have d23 : Delegates u2 u3 := by
    refine ⟨a2.trans i3, fun n hn' => by (rw [n2] at hn'; cases hn'), fun e' he' => ?_⟩
    rw [x2] at he'
    cases he'
    exact ⟨f, x3, hef⟩
  have v2 : ValidAt none w.parser.ctors t u2 := by
    refine ⟨au2, fun e' he' => ?_, fun n hn' => by (rw [n2] at hn'; cases hn')⟩
    rw [x2] at he'; cases he'
    exact UInt64.le_trans htf hef
  have v3 : ValidAt none w.parser.ctors t u3 := by
    refine ⟨au3, fun e' he' => ?_, fun n hn' => by (rw [n3] at hn'; cases hn')⟩
    rw [x3] at he'; cases he'
    exact htf
  have hcid : Cid.parse D (reference D u1 0x1e) = some (Store.blockCid D (strBytes (u1.encode D))) := C56_round_trip D _ rfl (hD _ _)
  let E : Env := ⟨fun _ => t, fun _ cid => .ok (if cid = Store.blockCid D (strBytes (u1.encode D)) then some (.bytes (strBytes (u2.encode D))) else none)⟩
  have hread : ∀ i cid b, E.read i cid = .ok (some (.bytes b)) → cid = Store.blockCid D (strBytes (u1.encode D)) ∧ b = strBytes (u2.encode D) := by
    intro i cid b h
    by_cases hcc : cid = Store.blockCid D (strBytes (u1.encode D))
    · simp only [E, hcc, if_true, Except.ok.injEq, Option.some.injEq, Ipld.bytes.injEq] at h
      exact ⟨hcc, h.symm⟩
    · simp only [E, if_neg hcc, Except.ok.injEq, reduceCtorEq] at h
  have s2 : Sound D (ValidAt none w.parser.ctors t) (Holds E) (.mk u2 [] []) := by
    rw [Sound, SoundAll, prf2]
    refine ⟨v2, rfl, by simp [BSet.Sorted], fun i => ?_, by simp⟩
    rw [cap2]
    simpa using h2' i
  have s3 : Sound D (ValidAt none w.parser.ctors t) (Holds E) (.mk u3 [.mk u2 [] []] [0]) := by
    rw [Sound, SoundAll, prf3]
    refine ⟨v3, ⟨_, [], rfl, ⟨_, u2.encode D, hcid, rfl, ?_, par2⟩, d23, s2, by rw [SoundAll]⟩, by simp [BSet.Sorted], fun i => ?_, by simp⟩
    · simp [Holds, E]
    · rw [cap3]
      constructor
      · intro hi
        cases List.mem_singleton.1 hi
        exact ⟨_, by simp, r0⟩
      · rintro ⟨y, hy, hi⟩
        cases List.mem_singleton.1 hy
        cases C19_unique D _ i 0 hi.2 r0.2
        simp
  have hena := enables_fixed (E := E) (nowTime := none) (t := t) (fun _ => rfl) (fun _ _ _ => rfl) w.parser.ctors
  obtain ⟨w', hw'⟩ := ofToken_complete hena (Spec.levels (.mk u3 [.mk u2 [] []] [0])) (u3.encode D) w (.mk u3 [.mk u2 [] []] [0]) hc rfl (Nat.zero_le _)
    (Nat.le_refl _) par3 s3
  refine ⟨.mk u3 [.mk u2 [] []] [0], w', _, E, ⟨Spec.levels (.mk u3 [.mk u2 [] []] [0]), fun fuel hfuel => ?_⟩, ?_, rfl, ?_⟩
  · rw [← hw']
    exact ofToken_fuel hfuel _ _ (by rw [hw']; simp)
  · have hr2 : reduce D sem (.mk u2 [] []) = .ok [⟨[a], none, some e2, v⟩] := by
      rw [reduce, reduceAll]
      unfold combine
      simp only [ancestral, redelegated, selfInfos, Ucan.capabilities, cap2, mapWhile, hv, List.map_cons, List.map_nil, List.append_nil, Ucan.issuer, ← i2,
        Ucan.notBefore, Ucan.expiresAt, n2, x2]
      rfl
    rw [reduce, reduceAll, reduceAll, hr2]
    unfold combine
    simp only [ancestral, redelegated, selfInfos, Ucan.capabilities, cap3, mapWhile, hsem, relifetime, Ucan.notBefore, Ucan.expiresAt, n3, x3,
      List.mem_singleton, if_true, List.getElem?_cons_zero, List.append_nil, List.map_cons, List.map_nil]
    rfl
  · intro hne hp
    unfold Pinned at hp
    rw [Sound, SoundAll, prf3] at hp
    obtain ⟨_, ⟨s, ss', es, ⟨cid, tok, _, _, ⟨⟨i, _, _, hr⟩, hcont⟩, _⟩, _⟩, _⟩ := hp
    obtain ⟨rfl, hb'⟩ := hread i cid _ hr
    rw [hb'] at hcont
    exact hne hcont

namespace Ex

theorem toy_pass (D : Deps) (u : Ucan) : ∃ u', SignedBy D toyCtors (passCalls (toyKey 2) "did:key:z3" 10 u) u' :=
  ⟨_, toy_signed D 2 _ _ _ ⟨fun _ => 0, fun _ _ => .ok none⟩ ⟨0, ⟨[], []⟩⟩ ⟨0, ⟨[], []⟩⟩ rfl rfl rfl
    (plain_ok D _ rfl (by intro y hy; cases List.mem_singleton.1 hy; rfl))⟩

/-- Beside `C96_substitution`: B hands on the right to send as `a@b` and the store makes it the right to send as anybody. -/
theorem substituted (D : Deps) (hD : ShortDigests D) (a b : String) (ha : (toyKey 1).did = .ok a) (hb : (toyKey 2).did = .ok b) :
    ∃ (u1 u2 u3 : Ucan) (ch : Chain) (w' : World) (E : Env), SignedBy D toyCtors (grantCalls (toyKey 1) b 20 sendOne) u1 ∧
      SignedBy D toyCtors (grantCalls (toyKey 1) b 20 sendAll) u2 ∧ SignedBy D toyCtors (passCalls (toyKey 2) "did:key:z3" 10 u1) u3 ∧
      Built D E none ⟨0, ⟨toyCtors, []⟩⟩ w' ch ∧ reduce D emailSemantics ch = .ok [⟨[a], none, some 10, viewAll⟩] ∧
      (D.digest Cid.blake3 (strBytes (u2.encode D)) ≠ D.digest Cid.blake3 (strBytes (u1.encode D)) → ¬ Pinned D E 0 w'.tick ch) := by
  obtain ⟨u1, h1⟩ := toy_grant D b sendOne (Or.inl rfl)
  obtain ⟨u2, h2⟩ := toy_grant D b sendAll (Or.inr rfl)
  obtain ⟨u3, h3⟩ := toy_pass D u1
  obtain ⟨ch, w', out, E, ⟨N, hN⟩, hr, rfl, hp⟩ := C96_substitution D hD emailSemantics ⟨0, ⟨toyCtors, []⟩⟩ (DidParser.coherent_fresh _) (toyKey 1) (toyKey 2)
    a b "did:key:z3" ha hb sendOne sendAll viewAll (sendAll_view D) (one_not_redelegating D _ (Or.inr rfl)) rfl 20 20 10 0 (by decide) (by decide)
    u1 u2 u3 h1 h2 h3
  exact ⟨u1, u2, u3, ch, w', E, h1, h2, h3, .ofToken N _ (hN N (Nat.le_refl _)), hr, hp⟩

/-- Beside the partial theorems: a store that holds nothing but what it is asked for. -/
example (D : Deps) (t : UInt64) (b : Bytes) : Faithful D (answering t fun _ cid => .ok (if cid = Store.blockCid D b then some (.bytes b) else none)) := by
  intro i cid b' h
  by_cases hcc : cid = Store.blockCid D b
  · simp only [answering, hcc, if_true, Except.ok.injEq, Option.some.injEq, Ipld.bytes.injEq] at h
    rw [hcc, ← h]; rfl
  · simp only [answering, if_neg hcc, Except.ok.injEq, reduceCtorEq] at h

end Ex

end Verif
