import Verif.Model.ReduceLemmas
import Verif.Props.Chain

/-! # Reported capabilities: C27 to C35

Concrete chains and the witnesses of violated claims are in `Verif.Props.ReduceExamples`. -/

namespace Verif
open Spec Chain Reduce

variable {S A : Type}

/-! ## C27 Reducing a chain never panics -/

theorem Chain.sound_inRange {D : Deps} {V : Ucan → Prop} {F : Cid → Bytes → Prop} {c : Chain} (h : Sound D V F c) : InRange c :=
  fun _ hd => (Sound.all (Sound.sub hd h)).2.2.inRange

/-- C27: capabilities of every constructed chain can be computed, for every semantics. -/
theorem C27_no_panic (D : Deps) (E : Env) (nowTime : Option UInt64) (w w' : World) (c : Chain) (hc : Coherent w.parser)
    (h : Built D E nowTime w w' c) (sem : Semantics S A) : ∃ out, reduce D sem c = .ok out :=
  reduce_total D sem c (Chain.sound_inRange (Chain.built_sound hc h))

/-- C27: and of every chain inside it. -/
theorem C27_no_panic_inside (D : Deps) (E : Env) (nowTime : Option UInt64) (w w' : World) (c d : Chain) (hc : Coherent w.parser)
    (h : Built D E nowTime w w' c) (hd : Sub d c) (sem : Semantics S A) : ∃ out, reduce D sem d = .ok out :=
  reduce_total D sem d (Chain.sound_inRange (Sound.sub hd (Chain.built_sound hc h)))

/-- C27: the invariant is needed — with an index that points nowhere the computation does panic. -/
theorem C27_index_matters (D : Deps) (sem : Semantics S A) (u : Ucan) : reduce D sem (.mk u [] [0]) = .error (.panic .unwrapProof) := by
  rw [reduce]
  rfl

/-! ## C28 No capability from nowhere -/

/-- C28, one level: a report is a claim of the token or a report of a redelegated proof. -/
theorem C28_step (D : Deps) (sem : Semantics S A) (c : Chain) (out : List (Info S A)) (h : reduce D sem c = .ok out) :
    ∀ i ∈ out, Claimed D sem c.ucan i.capability ∨
      ∃ (k : Nat) (p : Chain) (lp : List (Info S A)) (y : Info S A), k ∈ c.redel ∧ c.proofs[k]? = some p ∧ reduce D sem p = .ok lp ∧ y ∈ lp ∧
        y.capability = i.capability := by
  intro i hi
  obtain ⟨anc, l, hc, hm⟩ := reduce_ok h
  obtain ⟨x, hx, h1, _⟩ := hm.source i hi
  rcases (hc.members x).1 hx with ⟨h2, _⟩ | ⟨k, p, lp, y, hk, hp, hr, hy, rfl⟩
  · exact Or.inl (h1 ▸ h2)
  · exact Or.inr ⟨k, p, lp, y, hk, hp, hr, hy, h1.symm⟩

/-- C28: whatever is reported is offered by the chain. -/
theorem C28_offered (D : Deps) (sem : Semantics S A) : ∀ (c : Chain) (out : List (Info S A)), reduce D sem c = .ok out →
    ∀ i ∈ out, Offers D sem c i.capability := by
  intro c
  induction c using Chain.indAux with
  | h u ps r ih =>
    intro out h i hi
    rcases C28_step D sem _ out h i hi with h1 | ⟨k, p, lp, y, hk, hp, hr, hy, e⟩
    · exact .claim h1
    · exact .redelegated k hk hp (e ▸ ih p (mem_of_getElem?' hp) lp hr y hy)

/-- C28: a chain without redelegations reports only claims of its own token. -/
theorem C28_own (D : Deps) (sem : Semantics S A) (c : Chain) (out : List (Info S A)) (h : reduce D sem c = .ok out) (hr : c.redel = []) :
    ∀ i ∈ out, ∃ cl ∈ c.ucan.payload.cap.iter, sem.parseCapability D cl = some i.capability := by
  intro i hi
  rcases C28_step D sem c out h i hi with ⟨pre, cl, post, e, _, h2⟩ | ⟨k, _, _, _, hk, _⟩
  · exact ⟨cl, by rw [e]; simp, h2⟩
  · rw [hr] at hk; cases hk

theorem Reduce.collected_offers {D : Deps} {sem : Semantics S A} {c : Chain} {anc l : List (Info S A)} (hc : Collected D sem c anc l) :
    ∀ x ∈ l, Offers D sem c x.capability := by
  intro x hx
  rcases (hc.members x).1 hx with ⟨h, _⟩ | ⟨k, p, lp, y, hk, hp, hr, hy, rfl⟩
  · exact .claim h
  · exact .redelegated k hk hp (C28_offered D sem p lp hr y hy)

/-! ## C29 Reported lifetime -/

/-- C29: every report carries the bounds of the token at the root of the chain. -/
theorem C29_lifetime (D : Deps) (sem : Semantics S A) (c : Chain) (out : List (Info S A)) (h : reduce D sem c = .ok out) :
    ∀ i ∈ out, i.notBefore = c.ucan.payload.nbf ∧ i.expiresAt = c.ucan.payload.exp := by
  intro i hi
  obtain ⟨anc, l, hc, hm⟩ := reduce_ok h
  obtain ⟨x, hx, _, h2, h3, _⟩ := hm.source i hi
  rcases (hc.members x).1 hx with ⟨_, h4, h5, _⟩ | ⟨_, _, _, y, _, _, _, _, rfl⟩
  · exact ⟨h2.trans h4, h3.trans h5⟩
  · exact ⟨h2, h3⟩

/-! ## C30 Originators are issuers in the chain -/

/-- C30: the originators of a report are a non-empty set. -/
theorem C30_nonempty (D : Deps) (sem : Semantics S A) : ∀ (c : Chain) (out : List (Info S A)), reduce D sem c = .ok out →
    ∀ i ∈ out, ∃ o, o ∈ i.originators := by
  intro c
  induction c using Chain.indAux with
  | h u ps r ih =>
    intro out h i hi
    obtain ⟨anc, l, hc, hm⟩ := reduce_ok h
    obtain ⟨x, hx, _, _, _, hsub⟩ := hm.source i hi
    rcases (hc.members x).1 hx with ⟨_, _, _, ho⟩ | ⟨k, p, lp, y, hk, hp, hr, hy, rfl⟩
    · by_cases hex : ∃ o', ∃ i ∈ anc, sem.enables i.capability x.capability = true ∧ o' ∈ i.originators
      · obtain ⟨o', ho'⟩ := hex
        exact ⟨o', hsub o' (by rw [ho, mem_originators]; exact Or.inl ho')⟩
      · exact ⟨_, hsub _ (by rw [ho, mem_originators]; exact Or.inr ⟨rfl, hex⟩)⟩
    · obtain ⟨o, ho⟩ := ih p (mem_of_getElem?' hp) lp hr y hy
      exact ⟨o, hsub o ho⟩

/-- C30: each originator issued a UCAN of the chain. -/
theorem C30_issuer (D : Deps) (sem : Semantics S A) : ∀ (c : Chain) (out : List (Info S A)), reduce D sem c = .ok out →
    ∀ i ∈ out, ∀ o ∈ i.originators, ∃ d, Sub d c ∧ d.ucan.payload.iss = o := by
  intro c
  induction c using Chain.indAux with
  | h u ps r ih =>
    intro out h i hi o ho
    obtain ⟨anc, l, hc, hm⟩ := reduce_ok h
    obtain ⟨x, hx, _, ho⟩ := hm.origin (R := fun _ _ => True) (fun _ => trivial) (fun _ _ _ _ _ => trivial) (fun _ _ _ _ _ => trivial) i hi o ho
    have sub : ∀ (k : Nat) (p : Chain) (lp : List (Info S A)) (y : Info S A), ps[k]? = some p → reduce D sem p = .ok lp → y ∈ lp → o ∈ y.originators →
        ∃ d, Sub d (.mk u ps r) ∧ d.ucan.payload.iss = o := by
      intro k p lp y hp hr hy ho
      obtain ⟨d, hd, e⟩ := ih p (mem_of_getElem?' hp) lp hr y hy o ho
      exact ⟨d, .proof (mem_of_getElem?' hp) hd, e⟩
    rcases (hc.members x).1 hx with ⟨_, _, _, ho'⟩ | ⟨k, p, lp, y, hk, hp, hr, hy, rfl⟩
    · rw [ho', mem_originators] at ho
      rcases ho with ⟨j, hj, _, ho⟩ | ⟨rfl, _⟩
      · obtain ⟨k, p, lp, hp, _, hr, hj⟩ := (hc.ancestors j).1 hj
        exact sub k p lp j hp hr hj ho
      · exact ⟨_, .self _, rfl⟩
    · exact sub k p lp y hp hr hy ho

/-- C30: in a constructed chain each originator is the issuer of an authentic token. -/
theorem C30_authentic (D : Deps) (E : Env) (nowTime : Option UInt64) (w w' : World) (c : Chain) (hc : Coherent w.parser)
    (h : Built D E nowTime w w' c) (sem : Semantics S A) (out : List (Info S A)) (ho : reduce D sem c = .ok out) :
    ∀ i ∈ out, ∀ o ∈ i.originators, ∃ d, Sub d c ∧ d.ucan.payload.iss = o ∧ Authentic w.parser.ctors d.ucan := by
  intro i hi o hio
  obtain ⟨d, hd, e⟩ := C30_issuer D sem c out ho i hi o hio
  exact ⟨d, hd, e, (Sound.all (Sound.sub hd (Chain.built_sound hc h))).1.authentic⟩

/-! ## C33 No authority is lost -/

theorem Spec.coveredBy_trans {sem : Semantics S A} (ht : EnablesTrans sem) (a b c : View S A) (h1 : CoveredBy sem a b) (h2 : CoveredBy sem b c) :
    CoveredBy sem a c := by
  rcases h1 with rfl | h1
  · exact h2
  · rcases h2 with rfl | h2
    · exact Or.inr h1
    · exact Or.inr (ht _ _ _ h1 h2)

/-- C33, under transitivity of enabling alone. -/
theorem C33_covered_trans (D : Deps) (sem : Semantics S A) (ht : EnablesTrans sem) : ∀ (c : Chain) (out : List (Info S A)),
    reduce D sem c = .ok out → ∀ (v : View S A) (o : String), Granted D sem c v o → ∃ i ∈ out, CoveredBy sem i.capability v ∧ o ∈ i.originators := by
  intro c
  induction c using Chain.indAux with
  | h u ps r ih =>
    intro out h v o hg
    obtain ⟨anc, l, hc, hm⟩ := reduce_ok h
    have cover := hm.cover (R := CoveredBy sem) (fun _ => Or.inl rfl) (coveredBy_trans ht) (fun _ _ _ _ h => Or.inr h)
    rw [granted_iff] at hg
    rcases hg with ⟨hcl, ho⟩ | ⟨k, p, hk, hp, hg⟩
    · have hx : (⟨originators sem u anc v, u.payload.nbf, u.payload.exp, v⟩ : Info S A) ∈ l := (hc.members _).2 (Or.inl ⟨hcl, rfl, rfl, rfl⟩)
      obtain ⟨i, hi, h1, h2⟩ := cover _ hx
      refine ⟨i, hi, h1, h2 o ?_⟩
      show o ∈ originators sem u anc v
      rw [mem_originators]
      rcases ho with ⟨k, p, v', hp, hk, hg, he⟩ | ⟨rfl, hno⟩
      · obtain ⟨lp, hlp⟩ := hc.proofsOk k p hp
        obtain ⟨j, hj, hcov, hoj⟩ := ih p (mem_of_getElem?' hp) lp hlp v' o hg
        refine Or.inl ⟨j, (hc.ancestors j).2 ⟨k, p, lp, hp, hk, hlp, hj⟩, ?_, hoj⟩
        rcases hcov with e | hcov
        · rw [e]; exact he
        · exact ht _ _ _ hcov he
      · refine Or.inr ⟨rfl, ?_⟩
        rintro ⟨o', j, hj, he, _⟩
        obtain ⟨k, p, lp, hp, hk, hlp, hj⟩ := (hc.ancestors j).1 hj
        obtain ⟨o'', hg⟩ := offers_granted D sem (C28_offered D sem p lp hlp j hj)
        exact hno ⟨o'', k, p, j.capability, hp, hk, hg, he⟩
    · obtain ⟨lp, hlp⟩ := hc.proofsOk k p hp
      obtain ⟨y, hy, h1, h2⟩ := ih p (mem_of_getElem?' hp) lp hlp v o hg
      obtain ⟨i, hi, h3, h4⟩ := cover _ ((hc.members _).2 (Or.inr ⟨k, p, lp, y, hk, hp, hlp, hy, rfl⟩))
      exact ⟨i, hi, coveredBy_trans ht _ _ _ h3 h1, h4 o h2⟩

/-- C33: whatever was granted, by whomever, is covered by a report that lists that originator. -/
theorem C33_covered (D : Deps) (sem : Semantics S A) (hl : Lawful sem) (c : Chain) (out : List (Info S A)) (h : reduce D sem c = .ok out)
    (v : View S A) (o : String) (hg : Granted D sem c v o) : ∃ i ∈ out, CoveredBy sem i.capability v ∧ o ∈ i.originators :=
  C33_covered_trans D sem (enablesTrans_of_lawful hl) c out h v o hg

/-- C33: in particular everything offered is covered. -/
theorem C33_offered_covered (D : Deps) (sem : Semantics S A) (hl : Lawful sem) (c : Chain) (out : List (Info S A)) (h : reduce D sem c = .ok out)
    (v : View S A) (hv : Offers D sem c v) : ∃ i ∈ out, CoveredBy sem i.capability v := by
  obtain ⟨o, ho⟩ := offers_granted D sem hv
  obtain ⟨i, hi, h, _⟩ := C33_covered D sem hl c out h v o ho
  exact ⟨i, hi, h⟩

theorem Chain.offers_iff_token {D : Deps} {sem : Semantics S A} {V : Ucan → Prop} {F : Cid → Bytes → Prop} (hF : Functional F) :
    ∀ (c : Chain), Sound D V F c → ∀ v, Offers D sem c v ↔ TokenOffers D sem F c.ucan v := by
  intro c hs v
  constructor
  · intro h
    induction h with
    | claim h => exact .claim h
    | @redelegated c p v k hk hp _ ih =>
      obtain ⟨_, ha, hr⟩ := Sound.all hs
      have he := SoundAll.entry ha
      have hlt := (List.getElem?_eq_some_iff.1 hp).1
      obtain ⟨s, hss⟩ : ∃ s, (c.ucan.payload.prf.getD [])[k]? = some s := ⟨_, List.getElem?_eq_getElem (by rw [← he.1]; exact hlt)⟩
      exact .redelegated k s ((hr.claimed k).1 hk) hss (he.2 k s p hss hp) (ih (Sound.sub (.proof (List.mem_of_getElem? hp) (.self p)) hs))
  · intro h
    generalize hu : c.ucan = u at h
    induction h generalizing c with
    | claim h => subst hu; exact .claim h
    | @redelegated u q v i s hc hp hq _ ih =>
      subst hu
      obtain ⟨_, ha, hr⟩ := Sound.all hs
      have hi := (hr.claimed i).2 hc
      have hlt := hr.inRange i hi
      have hp' : c.proofs[i]? = some c.proofs[i] := List.getElem?_eq_getElem hlt
      have he := SoundAll.entry ha
      exact .redelegated i hi hp' (ih _ (Sound.sub (.proof (List.mem_of_getElem? hp') (.self _)) hs)
        (Resolves.unique hF (he.2 i s _ hp hp') hq))

theorem Chain.built_holds {D : Deps} {E : Env} (hst : StoreFixed E) {nowTime : Option UInt64} {w w' : World} {c : Chain} (hc : Coherent w.parser)
    (h : Built D E nowTime w w' c) : Sound D (fun _ => True) (Holds E) c := by
  refine Sound.mono (fun _ _ => trivial) (fun cid b hb => ?_) c (Chain.built_sound hc h)
  obtain ⟨i, _, _, h3⟩ := hb
  rw [hst i 0] at h3
  exact h3

/-- C28 and C33 in terms of tokens alone: with fixed store content the capabilities reported are among those the token offers, and cover them all. -/
theorem C28_token (D : Deps) (E : Env) (hst : StoreFixed E) (nowTime : Option UInt64) (w w' : World) (c : Chain) (hc : Coherent w.parser)
    (h : Built D E nowTime w w' c) (sem : Semantics S A) (out : List (Info S A)) (ho : reduce D sem c = .ok out) :
    ∀ i ∈ out, TokenOffers D sem (Holds E) c.ucan i.capability := fun i hi =>
  (Chain.offers_iff_token (holds_functional E) c (Chain.built_holds hst hc h) _).1 (C28_offered D sem c out ho i hi)

/-- C33 in terms of tokens alone. -/
theorem C33_token (D : Deps) (E : Env) (hst : StoreFixed E) (nowTime : Option UInt64) (w w' : World) (c : Chain) (hc : Coherent w.parser)
    (h : Built D E nowTime w w' c) (sem : Semantics S A) (hl : Lawful sem) (out : List (Info S A)) (ho : reduce D sem c = .ok out) (v : View S A)
    (hv : TokenOffers D sem (Holds E) c.ucan v) : ∃ i ∈ out, CoveredBy sem i.capability v :=
  C33_offered_covered D sem hl c out ho v ((Chain.offers_iff_token (holds_functional E) c (Chain.built_holds hst hc h) v).2 hv)

/-! ## C31 Originators really granted the capability -/

/-- C31 (partial): when no token of the chain offers two comparable capabilities, the reports list exactly those who granted. The
full claim, without that condition, is refuted by `C31_escalation`. -/
theorem C31_exact_partial (D : Deps) (sem : Semantics S A) : ∀ c : Chain, Separate D sem c → ∀ out : List (Info S A), reduce D sem c = .ok out →
    ∀ (v : View S A) (o : String), (∃ i ∈ out, i.capability = v ∧ o ∈ i.originators) ↔ Granted D sem c v o := by
  intro c
  induction c using Chain.indAux with
  | h u ps r ih =>
    intro hs out h v o
    obtain ⟨anc, l, hc, hm⟩ := reduce_ok h
    have hR : ∀ x ∈ l, ∀ y ∈ l, sem.enables x.capability y.capability = true → x.capability = y.capability :=
      fun x hx y hy he => hs _ (.self _) _ _ (collected_offers hc x hx) (collected_offers hc y hy) he
    have origin := hm.origin (R := Eq) (fun _ => rfl) (fun _ _ _ => Eq.trans) hR
    have cover := hm.cover (R := Eq) (fun _ => rfl) (fun _ _ _ => Eq.trans) hR
    have inherits : ∀ v o, (∃ j ∈ anc, sem.enables j.capability v = true ∧ o ∈ j.originators) ↔ Inherits D sem (.mk u ps r) v o := by
      intro v o
      constructor
      · rintro ⟨j, hj, he, ho⟩
        obtain ⟨k, p, lp, hp, hk, hlp, hj⟩ := (hc.ancestors j).1 hj
        exact ⟨k, p, j.capability, hp, hk,
          (ih p (mem_of_getElem?' hp) (hs.proof (mem_of_getElem?' hp)) lp hlp _ o).1 ⟨j, hj, rfl, ho⟩, he⟩
      · rintro ⟨k, p, v', hp, hk, hg, he⟩
        obtain ⟨lp, hlp⟩ := hc.proofsOk k p hp
        obtain ⟨j, hj, rfl, ho⟩ := (ih p (mem_of_getElem?' hp) (hs.proof (mem_of_getElem?' hp)) lp hlp v' o).2 hg
        exact ⟨j, (hc.ancestors j).2 ⟨k, p, lp, hp, hk, hlp, hj⟩, he, ho⟩
    rw [granted_iff]
    constructor
    · rintro ⟨i, hi, rfl, ho⟩
      obtain ⟨x, hx, e, ho⟩ := origin i hi o ho
      rw [e]
      rcases (hc.members x).1 hx with ⟨hcl, _, _, ho'⟩ | ⟨k, p, lp, y, hk, hp, hlp, hy, rfl⟩
      · rw [ho', mem_originators] at ho
        simp only [inherits] at ho
        exact Or.inl ⟨hcl, ho⟩
      · exact Or.inr ⟨k, p, hk, hp, (ih p (mem_of_getElem?' hp) (hs.proof (mem_of_getElem?' hp)) lp hlp _ o).1 ⟨y, hy, rfl, ho⟩⟩
    · rintro (⟨hcl, ho⟩ | ⟨k, p, hk, hp, hg⟩)
      · obtain ⟨i, hi, e, hsub⟩ := cover ⟨originators sem u anc v, u.payload.nbf, u.payload.exp, v⟩ ((hc.members _).2 (Or.inl ⟨hcl, rfl, rfl, rfl⟩))
        refine ⟨i, hi, e, hsub o ?_⟩
        show o ∈ originators sem u anc v
        rw [mem_originators]
        simp only [inherits]
        exact ho
      · obtain ⟨lp, hlp⟩ := hc.proofsOk k p hp
        obtain ⟨y, hy, rfl, ho⟩ := (ih p (mem_of_getElem?' hp) (hs.proof (mem_of_getElem?' hp)) lp hlp v o).2 hg
        obtain ⟨i, hi, e, hsub⟩ := cover _ ((hc.members _).2 (Or.inr ⟨k, p, lp, y, hk, hp, hlp, hy, rfl⟩))
        exact ⟨i, hi, e, hsub o ho⟩

/-! ## C32 A sole originator is trustworthy -/

/-- C32: a sole originator is at the start of an unbroken chain of attenuations, for every semantics. -/
theorem C32_sole_flows (D : Deps) (sem : Semantics S A) : ∀ (c : Chain) (out : List (Info S A)), reduce D sem c = .ok out →
    ∀ i ∈ out, ∀ o, (∀ o' ∈ i.originators, o' = o) → Flows D sem c i.capability o := by
  intro c
  induction c using Chain.indAux with
  | h u ps r ih =>
    intro out h i hi o hsole
    obtain ⟨anc, l, hc, hm⟩ := reduce_ok h
    obtain ⟨x, hx, e, _, _, hsub⟩ := hm.source i hi
    rw [e]
    rcases (hc.members x).1 hx with ⟨hcl, _, _, ho⟩ | ⟨k, p, lp, y, hk, hp, hlp, hy, rfl⟩
    · have hmem : ∀ o', o' ∈ x.originators → o' = o := fun o' h => hsole o' (hsub o' h)
      rw [ho] at hmem
      by_cases hex : ∃ o', ∃ j ∈ anc, sem.enables j.capability x.capability = true ∧ o' ∈ j.originators
      · obtain ⟨_, j, hj, he, _⟩ := hex
        obtain ⟨k, p, lp, hp, hk, hlp, hjl⟩ := (hc.ancestors j).1 hj
        refine .attenuated k hcl hk hp (ih p (mem_of_getElem?' hp) lp hlp j hjl o (fun o' ho' => hmem o' ?_)) he
        rw [mem_originators]
        exact Or.inl ⟨j, hj, he, ho'⟩
      · have : u.payload.iss = o := hmem _ ((mem_originators sem u anc _ _).2 (Or.inr ⟨rfl, hex⟩))
        subst this
        exact .origin hcl
    · exact .redelegated k hk hp (ih p (mem_of_getElem?' hp) lp hlp y hy o (fun o' ho' => hsole o' (hsub o' ho')))

/-- C32: and, when enabling composes, is exactly one who granted it. -/
theorem C32_sole_granted_trans (D : Deps) (sem : Semantics S A) (ht : EnablesTrans sem) : ∀ (c : Chain) (out : List (Info S A)), reduce D sem c = .ok out →
    ∀ i ∈ out, ∀ o, (∀ o' ∈ i.originators, o' = o) → Granted D sem c i.capability o := by
  intro c
  induction c using Chain.indAux with
  | h u ps r ih =>
    intro out h i hi o hsole
    obtain ⟨anc, l, hc, hm⟩ := reduce_ok h
    obtain ⟨x, hx, e, _, _, hsub⟩ := hm.source i hi
    rw [e, granted_iff]
    rcases (hc.members x).1 hx with ⟨hcl, _, _, ho⟩ | ⟨k, p, lp, y, hk, hp, hlp, hy, rfl⟩
    · have hmem : ∀ o', o' ∈ x.originators → o' = o := fun o' h => hsole o' (hsub o' h)
      rw [ho] at hmem
      refine Or.inl ⟨hcl, ?_⟩
      by_cases hex : ∃ o', ∃ j ∈ anc, sem.enables j.capability x.capability = true ∧ o' ∈ j.originators
      · obtain ⟨_, j, hj, he, _⟩ := hex
        obtain ⟨k, p, lp, hp, hk, hlp, hjl⟩ := (hc.ancestors j).1 hj
        refine Or.inl ⟨k, p, j.capability, hp, hk, ih p (mem_of_getElem?' hp) lp hlp j hjl o (fun o' ho' => hmem o' ?_), he⟩
        rw [mem_originators]
        exact Or.inl ⟨j, hj, he, ho'⟩
      · refine Or.inr ⟨(hmem _ ((mem_originators sem u anc _ _).2 (Or.inr ⟨rfl, hex⟩))).symm, ?_⟩
        rintro ⟨o', k, p, v', hp, hk, hg, he⟩
        obtain ⟨lp, hlp⟩ := hc.proofsOk k p hp
        obtain ⟨j, hj, hcov, hoj⟩ := C33_covered_trans D sem ht p lp hlp v' o' hg
        refine hex ⟨o', j, (hc.ancestors j).2 ⟨k, p, lp, hp, hk, hlp, hj⟩, ?_, hoj⟩
        rcases hcov with e | hcov
        · rw [e]; exact he
        · exact ht _ _ _ hcov he
    · exact Or.inr ⟨k, p, hk, hp, ih p (mem_of_getElem?' hp) lp hlp y hy o (fun o' ho' => hsole o' (hsub o' ho'))⟩

theorem C32_sole_granted (D : Deps) (sem : Semantics S A) (hl : Lawful sem) (c : Chain) (out : List (Info S A)) (h : reduce D sem c = .ok out)
    (i : Info S A) (hi : i ∈ out) (o : String) (ho : i.originators = [o]) : Granted D sem c i.capability o :=
  C32_sole_granted_trans D sem (enablesTrans_of_lawful hl) c out h i hi o (by rw [ho]; simp)

/-- C32: what a flow of authority means at its start: `o` issued a token of the chain that claims a capability, and each step up to
the root enables the next. In particular, when enabling composes, `o` claimed something that covers the capability. -/
theorem C32_flow_origin (D : Deps) (sem : Semantics S A) (ht : EnablesTrans sem) {c : Chain} {v : View S A} {o : String} (h : Flows D sem c v o) :
    ∃ d, Sub d c ∧ d.ucan.payload.iss = o ∧ ∃ v', Claimed D sem d.ucan v' ∧ CoveredBy sem v' v := by
  induction h with
  | origin hc => exact ⟨_, .self _, rfl, _, hc, Or.inl rfl⟩
  | attenuated k _ _ hp _ he ih =>
    obtain ⟨d, hd, e, v', hv', hcov⟩ := ih
    exact ⟨d, .proof (mem_of_getElem?' hp) hd, e, v', hv', coveredBy_trans ht _ _ _ hcov (Or.inr he)⟩
  | redelegated k _ hp _ ih =>
    obtain ⟨d, hd, e, v', hv', hcov⟩ := ih
    exact ⟨d, .proof (mem_of_getElem?' hp) hd, e, v', hv', hcov⟩

/-! ## C34 Foreign capabilities do not hide others -/

/-- C34 (partial): when the claims foreign to the semantics come last, every claim it understands is covered. The full claim, without
the condition on the order, is refuted by `C34_hidden`. -/
theorem C34_foreign_last_partial (D : Deps) (sem : Semantics S A) (hl : Lawful sem) (c : Chain) (out : List (Info S A)) (h : reduce D sem c = .ok out)
    (good bad : List Capability) (he : c.ucan.payload.cap.iter = good ++ bad) (hg : ∀ x ∈ good, sem.parseCapability D x ≠ none)
    (hb : ∀ x ∈ bad, sem.parseCapability D x = none) (v : View S A) (hv : ClaimedAnywhere D sem c.ucan v) :
    ∃ i ∈ out, CoveredBy sem i.capability v := by
  refine C33_offered_covered D sem hl c out h v (.claim ?_)
  obtain ⟨cl, hcl, hp⟩ := hv
  rw [he] at hcl
  rcases List.mem_append.1 hcl with hcl | hcl
  · obtain ⟨pre, post, rfl⟩ := List.append_of_mem hcl
    exact ⟨pre, cl, post ++ bad, by rw [he]; simp, fun x hx => hg x (by simp [hx]), hp⟩
  · rw [hb cl hcl] at hp; cases hp

/-! ## C35 Redundant capabilities are merged -/

/-- C35 (partial): nothing reported is enabled by a later report. Full irredundancy, in both directions, is refuted by `C35_redundant`. -/
theorem C35_half_partial (D : Deps) (sem : Semantics S A) (c : Chain) (out : List (Info S A)) (h : reduce D sem c = .ok out) :
    out.Pairwise fun a b => sem.enables b.capability a.capability = false := by
  obtain ⟨anc, l, _, hm⟩ := reduce_ok h
  exact hm.pairwise

/-- C35: no capability is reported twice (a capability whose caveat is an object enables itself). -/
theorem C35_distinct (D : Deps) (sem : Semantics S A) (hl : Lawful sem) (c : Chain) (out : List (Info S A)) (h : reduce D sem c = .ok out) :
    out.Pairwise fun a b => ObjCaveat a.capability → a.capability ≠ b.capability := by
  refine (C35_half_partial D sem c out h).imp ?_
  intro a b hab hobj e
  rw [← e, C15_refl sem hl _ hobj] at hab
  cases hab

end Verif
