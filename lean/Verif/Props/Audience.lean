import Verif.Props.Wildcard

/-! # Property C99: the audience of the presented token -/

namespace Verif
open Spec Chain Reduce

variable {S A : Type}

/-- Same issuer, lifetime, claims and proofs; audience, nonce, facts, version and header may differ. -/
def Spec.SameGrant (u u' : Ucan) : Prop :=
  u.payload.iss = u'.payload.iss ∧ u.payload.exp = u'.payload.exp ∧ u.payload.nbf = u'.payload.nbf ∧ u.payload.cap = u'.payload.cap ∧
    u.payload.prf = u'.payload.prf

/-- The same chain for another presented token. -/
def Spec.Presented (u : Ucan) (r : Res Chain × World) : Res Chain × World :=
  (match r.1 with
    | .ok c => .ok (.mk u c.proofs c.redel)
    | .error e => .error e, r.2)

namespace Audience

theorem checkSignature_same {u u' : Ucan} {w : World} (hc : Coherent w.parser) (hi : u.payload.iss = u'.payload.iss)
    (ha : Authentic w.parser.ctors u) (ha' : Authentic w.parser.ctors u') : u.checkSignature w = u'.checkSignature w := by
  obtain ⟨w1, h1⟩ := (checkSignature_ok_iff u w hc).2 ha
  obtain ⟨w2, h2⟩ := (checkSignature_ok_iff u' w hc).2 ha'
  obtain ⟨t1, p1⟩ := checkSignature_world h1
  obtain ⟨t2, p2⟩ := checkSignature_world h2
  rw [h1, h2]
  have : w1 = w2 := by
    cases w1; cases w2
    simp only at t1 p1 t2 p2
    rw [t1, t2, p1, p2, hi]
  rw [this]

theorem validate_same {E : Env} {nowTime : Option UInt64} {u u' : Ucan} {w : World} (hc : Coherent w.parser) (hg : SameGrant u u')
    (ha : Authentic w.parser.ctors u) (ha' : Authentic w.parser.ctors u') : u.validate E nowTime w = u'.validate E nowTime w := by
  obtain ⟨hi, he, hn, _, _⟩ := hg
  have e1 : u.isExpired E nowTime = u'.isExpired E nowTime := by unfold Ucan.isExpired; rw [he]
  have e2 : u.isTooEarly E = u'.isTooEarly E := by unfold Ucan.isTooEarly; rw [hn]
  unfold Ucan.validate
  rw [e1, e2]
  show M.bind _ _ w = M.bind _ _ w
  unfold M.bind
  have hw1 : ∀ r w1, u'.isExpired E nowTime w = (r, w1) → w1.parser = w.parser := by
    intro r w1 h
    rw [isExpired_eq] at h
    split at h <;> (cases h; rfl)
  cases hx : u'.isExpired E nowTime w with
  | mk r w1 =>
    have hp := hw1 r w1 hx
    cases r with
    | error e => rfl
    | ok b =>
      simp only []
      cases b with
      | true => rfl
      | false =>
        simp only [Bool.false_eq_true, if_false]
        show M.bind _ _ w1 = M.bind _ _ w1
        unfold M.bind
        have hw2 : ∀ r w2, u'.isTooEarly E w1 = (r, w2) → w2.parser = w1.parser := by
          intro r w2 h
          rw [isTooEarly_eq] at h
          split at h <;> (cases h; rfl)
        cases hy : u'.isTooEarly E w1 with
        | mk r w2 =>
          have hp2 := hw2 r w2 hy
          cases r with
          | error e => rfl
          | ok b =>
            simp only []
            cases b with
            | true => rfl
            | false =>
              simp only [Bool.false_eq_true, if_false]
              rw [hp] at hp2
              exact checkSignature_same (by rw [hp2]; exact hc) hi (by rw [hp2]; exact ha) (by rw [hp2]; exact ha')

theorem proofsLoop_same {D : Deps} {E : Env} {rec : String → M Chain} {u u' : Ucan} (hg : SameGrant u u') (ss : List String) :
    proofsLoop D E rec u ss = proofsLoop D E rec u' ss := by
  have hl : ∀ p, validateLink p u = validateLink p u' := by
    intro p
    unfold validateLink Ucan.issuer Ucan.lifetimeEncompasses Ucan.lifetimeBeginsBefore Ucan.lifetimeEndsAfter
    rw [hg.1, hg.2.1, hg.2.2.1]
  induction ss with
  | nil => rfl
  | cons s ss ih =>
    unfold proofsLoop
    simp only [hl, ih]

end Audience
open Audience

/-- Everything about the presented token but its issuer, lifetime, claims and proofs is ignored: another token that agrees in these and is signed by its
issuer is accepted or rejected alike, and has the same proofs. In particular its audience is compared with nothing. -/
theorem C99_ignored (D : Deps) (E : Env) (nowTime : Option UInt64) (fuel : Nat) (u u' : Ucan) (w : World) (hc : Coherent w.parser) (hg : SameGrant u u')
    (ha : Authentic w.parser.ctors u) (ha' : Authentic w.parser.ctors u') :
    Chain.fromUcan D E nowTime fuel u' w = Presented u' (Chain.fromUcan D E nowTime fuel u w) := by
  have hr : ∀ n, redelegations D n u = redelegations D n u' := by
    intro n
    unfold redelegations Ucan.capabilities
    rw [hg.2.2.2.1]
  have hp : u.proofs = u'.proofs := hg.2.2.2.2
  unfold fromUcan fromUcanWith
  show M.bind _ _ w = Presented u' (M.bind _ _ w)
  unfold M.bind
  rw [validate_same hc hg ha ha']
  cases u'.validate E nowTime w with
  | mk r w1 =>
    cases r with
    | error e => rfl
    | ok _ =>
      simp only []
      show M.bind _ _ w1 = Presented u' (M.bind _ _ w1)
      unfold M.bind
      rw [proofsLoop_same hg, hp]
      cases proofsLoop D E (ofToken D E nowTime fuel) u' (u'.proofs.getD []) w1 with
      | mk r w2 =>
        cases r with
        | error e => rfl
        | ok ps =>
          simp only []
          show M.bind _ _ w2 = Presented u' (M.bind _ _ w2)
          unfold M.bind
          rw [M.lift_apply, M.lift_apply, hr]
          cases redelegations D ps.length u' with
          | error e => rfl
          | ok rd => rfl

/-- The reports are those of the other token. -/
theorem C99_reports (D : Deps) (sem : Semantics S A) (u u' : Ucan) (hg : SameGrant u u') (ps : List Chain) (rd : BSet Nat) :
    reduce D sem (.mk u' ps rd) = reduce D sem (.mk u ps rd) := by
  obtain ⟨hi, he, hn, hc, _⟩ := hg
  have h1 : ∀ n anc, selfInfos D sem u' n anc = selfInfos D sem u n anc := by
    intro n anc
    unfold selfInfos originators Ucan.capabilities Ucan.issuer Ucan.notBefore Ucan.expiresAt
    rw [hi, he, hn, hc]
  have h2 : relifetime (S := S) (A := A) u' = relifetime u := by
    funext i
    unfold relifetime Ucan.notBefore Ucan.expiresAt
    rw [he, hn]
  unfold reduce combine
  simp only [h1, h2]

/-- C99 (partial): all tokens but the presented one are addressed to the issuer of the token they prove. -/
theorem C99_links_partial (D : Deps) (E : Env) (nowTime : Option UInt64) (w w' : World) (c : Chain) (hc : Coherent w.parser) (h : Built D E nowTime w w' c)
    (e : Chain) (he : Sub e c) : e = c ∨ ∃ d, Sub d c ∧ e ∈ d.proofs ∧ e.ucan.payload.aud = d.ucan.payload.iss := by
  have hl := fun d e hd he => (C22_links hc h d e hd he).1
  clear h
  induction he with
  | self => exact Or.inl rfl
  | @proof c x hx _ ih =>
    right
    rcases ih fun d e hd he => hl d e (.proof hx hd) he with rfl | ⟨d, hd, he, ha⟩
    · exact ⟨c, .self c, hx, hl c _ (.self c) hx⟩
    · exact ⟨d, .proof hx hd, he, ha⟩

namespace Ex

/-- The second token, addressed to whomever. -/
def tokTo (D : Deps) (aud : String) : Ucan := ucan D 2 aud (some 20) (some 5) (some [(cid 1).toStr]) capC

theorem built_to (D : Deps) (aud : String) : ∃ w', Built D (still (dags3 D capC capC) 7) none world w' (.mk (tokTo D aud) [.mk (tok1 D capC) [] []] []) := by
  have s1 : Resolves D (Holds (still (dags3 D capC capC) 7)) (cid 1).toStr (tok1 D capC) := by
    refine ⟨cid 1, (tok1 D capC).encode D, cid_parse D 1, rfl, ?_, parses' D 1 (did 2) _ _ _ capC_plain⟩
    exact memRead_bytes.2 (by show (if cid 1 = cid 1 then _ else _) = _; rw [if_pos rfl])
  obtain ⟨fuel, h⟩ := (C24_complete D (still (dags3 D capC capC) 7) none 7 (fun _ => rfl) (fun _ _ _ => rfl)
    ((tokTo D aud).encode D) world world_coherent (.mk (tokTo D aud) [.mk (tok1 D capC) [] []] [])).2
    ⟨parses' D 2 aud _ _ _ capC_plain, by
      simp only [Sound, SoundAll]
      exact ⟨valid D 2 _ 20 5 _ _ 7 (by decide) (by decide),
        ⟨_, _, rfl, s1, ⟨rfl, fun n hn => ⟨n, hn, UInt64.le_refl _⟩, fun n hn => ⟨n, hn, UInt64.le_refl _⟩⟩,
          ⟨valid D 1 _ 20 5 _ _ 7 (by decide) (by decide), rfl, redelOk D _ _ capC_noRedel⟩, rfl⟩, redelOk D _ _ capC_noRedel⟩⟩
  exact ⟨_, .ofToken fuel _ (Prod.ext h rfl)⟩

end Ex
open Ex

/-- C99 is violated: whatever a token is addressed to, even if that is no DID at all, it is accepted and grants the same. -/
theorem C99_violated (D : Deps) : ∃ (E : Env) (w : World), Coherent w.parser ∧ ∀ aud : String, ∃ (w' : World) (c : Chain), Built D E none w w' c ∧
    c.ucan.payload.aud = aud ∧ reduce D mailSem c = .ok [⟨[did 1], some 5, some 20, mail "c@d" 1⟩] := by
  refine ⟨still (dags3 D capC capC) 7, world, world_coherent, fun aud => ?_⟩
  obtain ⟨w', h⟩ := built_to D aud
  exact ⟨w', _, h, rfl, rfl⟩

/-- There are tokens as in `C99_ignored`. -/
example (D : Deps) : SameGrant (tokTo D (did 3)) (tokTo D "nobody") ∧ Authentic world.parser.ctors (tokTo D (did 3)) ∧
    Authentic world.parser.ctors (tokTo D "nobody") ∧ (tokTo D (did 3)).payload.aud ≠ (tokTo D "nobody").payload.aud :=
  ⟨⟨rfl, rfl, rfl, rfl, rfl⟩, authentic D 2 _ _ _ _ _, authentic D 2 _ _ _ _ _, by show did 3 ≠ "nobody"; decide +kernel⟩

end Verif
