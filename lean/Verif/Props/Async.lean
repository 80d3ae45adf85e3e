import Verif.Props.ChainExamples
import Verif.Props.Depends
import Verif.Spec.Async

/-! # C92 Interleaved and abandoned validations -/

namespace Verif
open Spec Chain

namespace Async

variable {D : Deps} {E : Env} {nowTime : Option UInt64}

theorem runIn_add (a b : Nat) (s : Nat × Task) : runIn D E nowTime (a + b) s = runIn D E nowTime b (runIn D E nowTime a s) := by
  induction a generalizing s with
  | zero => rw [Nat.zero_add]; rfl
  | succ a ih =>
    rw [Nat.add_right_comm]
    exact ih _

theorem runIn_done {s : Nat × Task} {r : Res Chain} (h : s.2.result = some r) (k : Nat) : runIn D E nowTime k s = s := by
  induction k with
  | zero => rfl
  | succ k ih =>
    have : stepIn D E nowTime s = s := by
      obtain ⟨n, ctl, stack, p⟩ := s
      unfold Task.result at h
      simp only at h
      split at h
      · rfl
      · cases h
    show runIn D E nowTime k (stepIn D E nowTime s) = s
    rw [this, ih]

/-- The state in which a call ends. -/
def after (K : List Frame) (w : World) (c : Ctl) : Nat × Task := (w.tick, ⟨c, K, w.parser⟩)

theorem early_steps (u : Ucan) (K : List Frame) (n : Nat) (p : DidParser) (R : Res Unit × World)
    (hR : (do
      let early ← Ucan.isTooEarly E u
      if early then M.lift (err .tooEarly) else Ucan.checkSignature u : M Unit) ⟨n, p⟩ = R) :
    ∃ k, runIn D E nowTime k (n, ⟨.early u, K, p⟩) =
      after K R.2 (match R.1 with | .ok _ => .proofs u [] (u.proofs.getD []) | .error e => .ret (.error e)) := by
  have sig : ∀ n : Nat, ∃ k, runIn D E nowTime k (n, ⟨.issuer u, K, p⟩) =
      after K (Ucan.checkSignature u ⟨n, p⟩).2 (match (Ucan.checkSignature u ⟨n, p⟩).1 with | .ok _ => .proofs u [] (u.proofs.getD []) | .error e => .ret (.error e)) := by
    intro n
    cases hp : p.parse u.payload.iss with
    | mk r q =>
      cases r with
      | error e =>
        have hc : Ucan.checkSignature u ⟨n, p⟩ = (.error e, ⟨n, q⟩) := M.bind_of_error (by unfold parseDid; simp only [hp])
        refine ⟨1, ?_⟩
        rw [hc]
        simp only [runIn, stepIn, step, hp, after]
        rfl
      | ok key =>
        have hc : Ucan.checkSignature u ⟨n, p⟩ = (key.verify u.signedData u.signature, ⟨n, q⟩) := M.bind_of_ok (by unfold parseDid; simp only [hp])
        refine ⟨2, ?_⟩
        rw [hc]
        cases hv : key.verify u.signedData u.signature <;> simp only [runIn, stepIn, step, hp, hv, after] <;> rfl
  subst hR
  cases hn : u.payload.nbf with
  | none =>
    obtain ⟨k, hk⟩ := sig n
    refine ⟨k + 1, ?_⟩
    have h0 : Ucan.isTooEarly E u ⟨n, p⟩ = (.ok false, ⟨n, p⟩) := by unfold Ucan.isTooEarly; rw [hn]; rfl
    have h1 : (do
      let early ← Ucan.isTooEarly E u
      if early then M.lift (err .tooEarly) else Ucan.checkSignature u : M Unit) ⟨n, p⟩ = Ucan.checkSignature u ⟨n, p⟩ := M.bind_of_ok h0
    rw [h1, ← hk]
    have : stepIn D E nowTime (n, ⟨.early u, K, p⟩) = (n, ⟨.issuer u, K, p⟩) := by simp only [stepIn, step, hn]; rfl
    show runIn D E nowTime k (stepIn D E nowTime _) = _
    rw [this]
  | some nbf =>
    have h0 : Ucan.isTooEarly E u ⟨n, p⟩ = (.ok (decide (nbf > E.clock n)), ⟨n + 1, p⟩) := by unfold Ucan.isTooEarly; rw [hn]; rfl
    have h1 : (do
      let early ← Ucan.isTooEarly E u
      if early then M.lift (err .tooEarly) else Ucan.checkSignature u : M Unit) ⟨n, p⟩ =
        (if decide (nbf > E.clock n) = true then M.lift (err .tooEarly) else Ucan.checkSignature u : M Unit) ⟨n + 1, p⟩ := M.bind_of_ok h0
    rw [h1]
    by_cases hb : nbf > E.clock n
    · refine ⟨1, ?_⟩
      simp only [runIn, stepIn, step, hn, snapOf, hb, decide_true, if_true, M.lift_apply, after]
      rfl
    · obtain ⟨k, hk⟩ := sig (n + 1)
      refine ⟨k + 1, ?_⟩
      have : stepIn D E nowTime (n, ⟨.early u, K, p⟩) = (n + 1, ⟨.issuer u, K, p⟩) := by
        simp only [stepIn, step, hn, snapOf, hb, if_false]; rfl
      show runIn D E nowTime k (stepIn D E nowTime _) = _
      rw [this, hk]
      simp only [hb, decide_false, Bool.false_eq_true, if_false]

theorem validate_steps (u : Ucan) (K : List Frame) (n : Nat) (p : DidParser) :
    ∃ k, runIn D E nowTime k (n, ⟨.expiry u, K, p⟩) =
      after K (u.validate E nowTime ⟨n, p⟩).2 (match (u.validate E nowTime ⟨n, p⟩).1 with | .ok _ => .proofs u [] (u.proofs.getD []) | .error e => .ret (.error e)) := by
  have go : ∀ n' b, Ucan.isExpired E u nowTime ⟨n, p⟩ = (.ok b, ⟨n', p⟩) →
      stepIn D E nowTime (n, ⟨.expiry u, K, p⟩) = (n', ⟨if b then .ret (err .expired) else .early u, K, p⟩) →
      ∃ k, runIn D E nowTime k (n, ⟨.expiry u, K, p⟩) =
        after K (u.validate E nowTime ⟨n, p⟩).2 (match (u.validate E nowTime ⟨n, p⟩).1 with | .ok _ => .proofs u [] (u.proofs.getD []) | .error e => .ret (.error e)) := by
    intro n' b h1 h2
    have hv : u.validate E nowTime ⟨n, p⟩ = (if b = true then M.lift (err .expired) else do
      let early ← Ucan.isTooEarly E u
      if early then M.lift (err .tooEarly) else Ucan.checkSignature u : M Unit) ⟨n', p⟩ := M.bind_of_ok h1
    cases b with
    | true =>
      refine ⟨1, ?_⟩
      show stepIn D E nowTime _ = _
      rw [h2, hv]
      rfl
    | false =>
      obtain ⟨k, hk⟩ := early_steps (D := D) (E := E) (nowTime := nowTime) u K n' p _ rfl
      refine ⟨k + 1, ?_⟩
      show runIn D E nowTime k (stepIn D E nowTime _) = _
      rw [h2, hv]
      exact hk
  cases he : u.payload.exp with
  | none => exact go n false (by unfold Ucan.isExpired; rw [he]; rfl) (by simp only [stepIn, step, he]; rfl)
  | some exp =>
    cases nowTime with
    | some t =>
      refine go n (decide (exp < t)) (by unfold Ucan.isExpired; rw [he]; rfl) ?_
      simp only [stepIn, step, he, decide_eq_true_eq]; rfl
    | none =>
      refine go (n + 1) (decide (exp < E.clock n)) (by unfold Ucan.isExpired; rw [he]; rfl) ?_
      simp only [stepIn, step, he, decide_eq_true_eq, snapOf]; rfl

theorem fetch_eq (s : String) (n : Nat) (p : DidParser) :
    (do
      let cid ← M.lift (orErr .cidText (Cid.parse D s))
      Store.requireToken E cid : M String) ⟨n, p⟩ =
      ((fetch D (snapOf E n) s).2, ⟨n + (fetch D (snapOf E n) s).1.toNat, p⟩) := by
  unfold fetch
  cases hc : orErr .cidText (Cid.parse D s) with
  | error e => exact M.bind_of_error rfl
  | ok cid =>
    refine (M.bind_of_ok (a := cid) (w1 := ⟨n, p⟩) rfl).trans ?_
    unfold Store.requireToken Store.readToken
    simp only
    by_cases hr : cid.codec ≠ Cid.rawCodec
    · rw [if_pos hr, if_pos hr]
      exact M.bind_of_error rfl
    · rw [if_neg hr, if_neg hr]
      cases hread : E.read n cid with
      | error e =>
        have h1 : E.readM cid ⟨n, p⟩ = (.error e, ⟨n + 1, p⟩) := by unfold Env.readM; rw [hread]
        have : (snapOf E n).read cid = .error e := hread
        rw [this]
        exact M.bind_of_error (M.bind_of_error h1)
      | ok r =>
        have h1 : E.readM cid ⟨n, p⟩ = (.ok r, ⟨n + 1, p⟩) := by unfold Env.readM; rw [hread]
        have : (snapOf E n).read cid = .ok r := hread
        rw [this]
        cases ht : Store.tokenOf r with
        | error e =>
          have h2 : (do
              let r ← E.readM cid
              let s ← M.lift (Store.tokenOf r)
              pure (some s) : M (Option String)) ⟨n, p⟩ = (.error e, ⟨n + 1, p⟩) := by
            refine (M.bind_of_ok h1).trans ?_
            rw [ht]
            exact M.bind_of_error rfl
          simp only [ht]
          exact M.bind_of_error h2
        | ok token =>
          have h2 : (do
              let r ← E.readM cid
              let s ← M.lift (Store.tokenOf r)
              pure (some s) : M (Option String)) ⟨n, p⟩ = (.ok (some token), ⟨n + 1, p⟩) := by
            refine (M.bind_of_ok h1).trans ?_
            rw [ht]
            exact M.bind_of_ok rfl
          simp only [ht]
          exact M.bind_of_ok h2

/-- A call with bounded recursion and the machine agree, or the machine goes on for as many steps as the bound. -/
def Agrees (D : Deps) (E : Env) (nowTime : Option UInt64) (fuel : Nat) (s : Nat × Task) (K : List Frame) (R : Res Chain × World) : Prop :=
  (∃ k, runIn D E nowTime k s = after K R.2 (.ret R.1)) ∨
  (R.1 = .error .diverge ∧ ∃ k, fuel ≤ k ∧ (runIn D E nowTime k s).2.result = none)

theorem Agrees.prepend {fuel : Nat} {s s' : Nat × Task} {K : List Frame} {R : Res Chain × World} {k : Nat} (hk : runIn D E nowTime k s = s')
    (h : Agrees D E nowTime fuel s' K R) : Agrees D E nowTime (fuel + k) s K R := by
  rcases h with ⟨j, hj⟩ | ⟨hd, j, hj, hn⟩
  · exact Or.inl ⟨k + j, by rw [runIn_add, hk, hj]⟩
  · exact Or.inr ⟨hd, k + j, by omega, by rw [runIn_add, hk]; exact hn⟩

theorem Agrees.weaken {fuel fuel' : Nat} {s : Nat × Task} {K : List Frame} {R : Res Chain × World} (hle : fuel' ≤ fuel)
    (h : Agrees D E nowTime fuel s K R) : Agrees D E nowTime fuel' s K R := by
  rcases h with h | ⟨hd, j, hj, hn⟩
  · exact Or.inl h
  · exact Or.inr ⟨hd, j, by omega, hn⟩

/-- The loop over the proofs followed by the rest of `from_ucan`. -/
def finish (D : Deps) (E : Env) (rec : String → M Chain) (u : Ucan) (done : List Chain) (rest : List String) : M Chain := do
  let cs ← proofsLoop D E rec u rest
  let redel ← M.lift (redelegations D (done ++ cs).length u)
  pure (mk u (done ++ cs) redel)

theorem finish_cons (rec : String → M Chain) (u : Ucan) (done : List Chain) (s : String) (ss : List String) (w : World) :
    finish D E rec u done (s :: ss) w = (do
      let token ← (do
        let cid ← M.lift (orErr .cidText (Cid.parse D s))
        Store.requireToken E cid : M String)
      let c ← rec token
      M.lift (validateLink c.ucan u)
      finish D E rec u (done ++ [c]) ss : M Chain) w := by
  have assoc : ∀ {α β γ : Type} (x : M α) (f : α → M β) (g : β → M γ), (x >>= f) >>= g = x >>= fun a => f a >>= g := by
    intro α β γ x f g
    funext w
    show M.bind (M.bind x f) g w = M.bind x (fun a => M.bind (f a) g) w
    unfold M.bind
    cases x w with
    | mk r w1 => cases r <;> rfl
  have hl : proofsLoop D E rec u (s :: ss) = (do
      let cid ← M.lift (orErr .cidText (Cid.parse D s))
      let token ← Store.requireToken E cid
      let c ← rec token
      M.lift (validateLink c.ucan u)
      let cs ← proofsLoop D E rec u ss
      pure (c :: cs)) := rfl
  refine congrFun ?_ w
  unfold finish
  rw [hl]
  simp only [assoc]
  congr 1
  funext cid
  congr 1
  funext token
  congr 1
  funext c
  congr 1
  funext _
  congr 1
  funext cs
  show (do
    let redel ← M.lift (redelegations D (done ++ c :: cs).length u)
    pure (mk u (done ++ c :: cs) redel) : M Chain) = _
  rw [List.append_assoc]
  rfl

theorem finish_agrees {fuel : Nat} {rec : String → M Chain}
    (hrec : ∀ tok n p K, Agrees D E nowTime fuel (n, ⟨.token tok, K, p⟩) K (rec tok ⟨n, p⟩)) (u : Ucan) (rest : List String) :
    ∀ (done : List Chain) (n : Nat) (p : DidParser) (K : List Frame),
      Agrees D E nowTime fuel (n, ⟨.proofs u done rest, K, p⟩) K (finish D E rec u done rest ⟨n, p⟩) := by
  induction rest with
  | nil =>
    intro done n p K
    refine Or.inl ⟨1, ?_⟩
    have : finish D E rec u done [] ⟨n, p⟩ = (match redelegations D done.length u with | .ok r => .ok (mk u done r) | .error e => .error e, ⟨n, p⟩) := by
      unfold finish
      refine (M.bind_of_ok (a := []) (w1 := ⟨n, p⟩) rfl).trans ?_
      rw [List.append_nil]
      cases hr : redelegations D done.length u with
      | error e => exact M.bind_of_error rfl
      | ok r => exact M.bind_of_ok rfl
    rw [this]
    cases hr : redelegations D done.length u <;> simp only [runIn, stepIn, step, hr, after] <;> rfl
  | cons s ss ih =>
    intro done n p K
    rw [finish_cons]
    have hf := fetch_eq (D := D) (E := E) s n p
    cases hx : fetch D (snapOf E n) s with
    | mk b r =>
      rw [hx] at hf
      cases r with
      | error e =>
        refine Or.inl ⟨1, ?_⟩
        rw [M.bind_of_error hf]
        simp only [runIn, stepIn, step, hx, after]
      | ok tok =>
        rw [M.bind_of_ok hf]
        have h1 : runIn D E nowTime 1 (n, ⟨.proofs u done (s :: ss), K, p⟩) = (n + b.toNat, ⟨.token tok, ⟨u, done, ss⟩ :: K, p⟩) := by
          simp only [runIn, stepIn, step, hx]
        refine Agrees.weaken (Nat.le_add_right fuel 1) (Agrees.prepend h1 ?_)
        have h2 := hrec tok (n + b.toNat) p (⟨u, done, ss⟩ :: K)
        cases hr : rec tok ⟨n + b.toNat, p⟩ with
        | mk r w1 =>
          rw [hr] at h2
          rcases h2 with ⟨k, hk⟩ | ⟨hd, k, hk, hn⟩
          · cases r with
            | error e =>
              rw [M.bind_of_error hr]
              refine Or.inl ⟨k + 1, ?_⟩
              rw [runIn_add, hk]
              rfl
            | ok c =>
              rw [M.bind_of_ok hr]
              cases hl : validateLink c.ucan u with
              | error e =>
                rw [M.bind_of_error (show M.lift (Except.error e : Res Unit) w1 = (.error e, w1) from rfl)]
                refine Or.inl ⟨k + 1, ?_⟩
                rw [runIn_add, hk]
                simp only [runIn, stepIn, step, after, hl]
                rfl
              | ok x =>
                rw [M.bind_of_ok (show M.lift (Except.ok x : Res Unit) w1 = (.ok x, w1) from rfl)]
                have h3 : runIn D E nowTime (k + 1) (n + b.toNat, ⟨.token tok, ⟨u, done, ss⟩ :: K, p⟩) =
                    (w1.tick, ⟨.proofs u (done ++ [c]) ss, K, w1.parser⟩) := by
                  rw [runIn_add, hk]
                  simp only [runIn, stepIn, step, after, hl]
                  rfl
                exact Agrees.weaken (Nat.le_add_right fuel _) (Agrees.prepend h3 (ih (done ++ [c]) w1.tick w1.parser K))
          · refine Or.inr ⟨?_, k, hk, hn⟩
            simp only at hd
            rw [hd] at hr
            rw [M.bind_of_error hr]

theorem ofToken_agrees : ∀ (fuel : Nat) (tok : String) (n : Nat) (p : DidParser) (K : List Frame),
    Agrees D E nowTime fuel (n, ⟨.token tok, K, p⟩) K (ofToken D E nowTime fuel tok ⟨n, p⟩) := by
  intro fuel
  induction fuel with
  | zero =>
    intro tok n p K
    exact Or.inr ⟨rfl, 0, Nat.le_refl _, rfl⟩
  | succ fuel ih =>
    intro tok n p K
    unfold ofToken
    cases hu : Ucan.fromStr D tok with
    | error e =>
      rw [M.bind_of_error (show M.lift (Except.error e) (⟨n, p⟩ : World) = (.error e, ⟨n, p⟩) from rfl)]
      refine Or.inl ⟨1, ?_⟩
      simp only [runIn, stepIn, step, hu, after]
      rfl
    | ok u =>
      rw [M.bind_of_ok (show M.lift (Except.ok u) (⟨n, p⟩ : World) = (.ok u, ⟨n, p⟩) from rfl)]
      have h1 : runIn D E nowTime 1 (n, ⟨.token tok, K, p⟩) = (n, ⟨.expiry u, K, p⟩) := by
        simp only [runIn, stepIn, step, hu]
        rfl
      refine Agrees.prepend h1 ?_
      obtain ⟨k, hk⟩ := validate_steps (D := D) (E := E) (nowTime := nowTime) u K n p
      unfold fromUcanWith
      cases hv : u.validate E nowTime ⟨n, p⟩ with
      | mk r w1 =>
        rw [hv] at hk
        cases r with
        | error e =>
          rw [M.bind_of_error hv]
          exact Or.inl ⟨k, hk⟩
        | ok x =>
          rw [M.bind_of_ok hv]
          exact Agrees.weaken (Nat.le_add_right fuel k) (Agrees.prepend hk (finish_agrees ih u _ [] w1.tick w1.parser K))

/-- A step that reads nothing does not depend on what would have been read. -/
theorem step_unread {t : Task} {a : Snap} (h : (step D nowTime a t).1 = false) (b : Snap) : step D nowTime b t = step D nowTime a t := by
  obtain ⟨ctl, stack, p⟩ := t
  cases ctl with
  | token s => rfl
  | expiry u =>
    simp only [step] at h ⊢
    split
    · rfl
    · rename_i exp he
      rw [he] at h
      cases nowTime with
      | some n => rfl
      | none => cases h
  | early u =>
    simp only [step] at h ⊢
    split
    · rfl
    · rename_i nbf hn
      rw [hn] at h
      cases h
  | issuer u => rfl
  | verify u key => rfl
  | ret r => rfl
  | proofs u done rest =>
    cases rest with
    | nil => rfl
    | cons s ss =>
      have hf : (fetch D a s).1 = false → fetch D b s = fetch D a s := by
        unfold fetch
        split
        · intro _; rfl
        · split
          · intro _; rfl
          · split
            · intro h; cases h
            · intro h; cases h
      have h' : (fetch D a s).1 = false := by
        simp only [step] at h
        cases hx : fetch D a s with
        | mk c r =>
          rw [hx] at h
          cases r <;> exact h
      simp only [step, hf h']

theorem step_parser (snap : Snap) (t : Task) :
    (step D nowTime snap t).2.parser = t.parser ∨ ∃ did, (step D nowTime snap t).2.parser = (t.parser.parse did).2 := by
  obtain ⟨ctl, stack, p⟩ := t
  cases ctl with
  | token s => simp only [step]; split <;> exact Or.inl rfl
  | expiry u =>
    simp only [step]
    split
    · exact Or.inl rfl
    · split <;> exact Or.inl rfl
  | early u => simp only [step]; split <;> exact Or.inl rfl
  | issuer u =>
    refine Or.inr ⟨u.payload.iss, ?_⟩
    simp only [step]
    split <;> rename_i h <;> rw [h]
  | verify u key => simp only [step]; split <;> exact Or.inl rfl
  | proofs u done rest =>
    cases rest with
    | nil => simp only [step]; split <;> exact Or.inl rfl
    | cons s ss => simp only [step]; split <;> exact Or.inl rfl
  | ret r =>
    cases stack with
    | nil => exact Or.inl rfl
    | cons f fs =>
      cases r with
      | error e => exact Or.inl rfl
      | ok c => simp only [step]; split <;> exact Or.inl rfl

/-- What one task did is what it does in an environment of its own, which is drawn from the answers that it got. -/
theorem alone (nowTime : Nat → Option UInt64) (G : Nat → Snap) (sched : Nat → Option Nat) (tasks : Nat → Task) (i T : Nat) :
    ∃ (m : Nat) (g : Nat → Nat) (k : Nat), (∀ a b, a < b → b < m → g a < g b) ∧ (∀ a, a < m → g a < T ∧ sched (g a) = some i) ∧
      ∀ E : Env, (∀ a, a < m → E.clock a = (G (g a)).clock ∧ E.read a = (G (g a)).read) →
        runIn D E (nowTime i) k (0, tasks i) = (m, runAll D nowTime G sched tasks T i) := by
  induction T with
  | zero => exact ⟨0, id, 0, fun a b _ h => by omega, fun a h => by omega, fun E _ => rfl⟩
  | succ T ih =>
    obtain ⟨m, g, k, hm, hg, hrun⟩ := ih
    by_cases hs : sched T = some i
    · have hT : runAll D nowTime G sched tasks (T + 1) i = (step D (nowTime i) (G T) (runAll D nowTime G sched tasks T i)).2 := by
        show (if sched T = some i then _ else _) = _
        rw [if_pos hs]
      rw [hT]
      cases hu : (step D (nowTime i) (G T) (runAll D nowTime G sched tasks T i)).1 with
      | false =>
        refine ⟨m, g, k + 1, hm, fun a h => ⟨Nat.lt_succ_of_lt (hg a h).1, (hg a h).2⟩, fun E hE => ?_⟩
        rw [runIn_add, hrun E hE]
        show stepIn D E (nowTime i) _ = _
        unfold stepIn
        simp only
        rw [step_unread hu (snapOf E m)]
        cases hst : step D (nowTime i) (G T) (runAll D nowTime G sched tasks T i) with
        | mk b t =>
          rw [hst] at hu
          cases hu
          rfl
      | true =>
        refine ⟨m + 1, fun a => if a < m then g a else T, k + 1, fun a b hab hb => ?_, fun a ha => ?_, fun E hE => ?_⟩
        · simp only
          rw [if_pos (by omega)]
          split
          · exact hm a b hab ‹_›
          · exact (hg a (by omega)).1
        · simp only
          split
          · exact ⟨Nat.lt_succ_of_lt (hg a ‹_›).1, (hg a ‹_›).2⟩
          · exact ⟨Nat.lt_succ_self _, hs⟩
        · rw [runIn_add, hrun E fun a ha => by have := hE a (by omega); simp only [if_pos ha] at this; exact this]
          have hm' := hE m (Nat.lt_succ_self _)
          simp only [Nat.lt_irrefl, if_false] at hm'
          have hsn : snapOf E m = G T := by
            unfold snapOf
            rw [hm'.1, hm'.2]
          show stepIn D E (nowTime i) _ = _
          unfold stepIn
          simp only [hsn]
          cases hst : step D (nowTime i) (G T) (runAll D nowTime G sched tasks T i) with
          | mk b t =>
            rw [hst] at hu
            cases hu
            rfl
    · refine ⟨m, g, k, hm, fun a h => ⟨Nat.lt_succ_of_lt (hg a h).1, (hg a h).2⟩, fun E hE => ?_⟩
      rw [hrun E hE]
      show _ = (m, if sched T = some i then _ else _)
      rw [if_neg hs]

end Async

open Async

/-- C92: the future of `try_from_token_string`, without any bound on its recursion, finishes with the result of the model. -/
theorem C92_finished (D : Deps) (E : Env) (nowTime : Option UInt64) (token : String) (n : Nat) (p : DidParser) (k : Nat) (r : Res Chain)
    (h : (runIn D E nowTime k (n, start token p)).2.result = some r) (fuel : Nat) (hf : k < fuel) :
    ofToken D E nowTime fuel token ⟨n, p⟩ = (r, ⟨(runIn D E nowTime k (n, start token p)).1, (runIn D E nowTime k (n, start token p)).2.parser⟩) := by
  rcases ofToken_agrees (D := D) (E := E) (nowTime := nowTime) fuel token n p [] with ⟨j, hj⟩ | ⟨_, j, hj, hn⟩
  · have h1 : runIn D E nowTime (k + j) (n, start token p) = runIn D E nowTime k (n, start token p) := by
      rw [runIn_add, runIn_done h]
    have h2 : runIn D E nowTime (j + k) (n, start token p) = after [] (ofToken D E nowTime fuel token ⟨n, p⟩).2 (.ret (ofToken D E nowTime fuel token ⟨n, p⟩).1) := by
      rw [runIn_add]
      show runIn D E nowTime k (runIn D E nowTime j (n, ⟨.token token, [], p⟩)) = _
      rw [hj]
      exact runIn_done (r := (ofToken D E nowTime fuel token ⟨n, p⟩).1) rfl k
    rw [Nat.add_comm j k, h1] at h2
    rw [h2] at h ⊢
    cases h
    rfl
  · exfalso
    have h1 : runIn D E nowTime j (n, start token p) = runIn D E nowTime k (n, start token p) := by
      have : j = k + (j - k) := by omega
      rw [this, runIn_add, runIn_done h]
    have h2 : (runIn D E nowTime j (n, start token p)).2.result = none := hn
    rw [h1, h] at h2
    cases h2

/-- C92, conversely: a result of the model is reached. -/
theorem C92_returns (D : Deps) (E : Env) (nowTime : Option UInt64) (token : String) (w w' : World) (fuel : Nat) (r : Res Chain)
    (h : ofToken D E nowTime fuel token w = (r, w')) (hr : r ≠ .error .diverge) :
    ∃ k, runIn D E nowTime k (w.tick, start token w.parser) = (w'.tick, ⟨.ret r, [], w'.parser⟩) := by
  have ha := ofToken_agrees (D := D) (E := E) (nowTime := nowTime) fuel token w.tick w.parser []
  rw [show (⟨w.tick, w.parser⟩ : World) = w from rfl, h] at ha
  rcases ha with ⟨k, hk⟩ | ⟨hd, _⟩
  · exact ⟨k, hk⟩
  · exact absurd hd hr

/-- C92: that the model diverges for every bound means that the future is never ready. -/
theorem C92_endless (D : Deps) (E : Env) (nowTime : Option UInt64) (token : String) (n : Nat) (p : DidParser) :
    (∀ fuel, (ofToken D E nowTime fuel token ⟨n, p⟩).1 = .error .diverge) ↔
      ∀ k r, (runIn D E nowTime k (n, start token p)).2.result = some r → r = .error .diverge := by
  constructor
  · intro h k r hr
    have := h (k + 1)
    rw [C92_finished D E nowTime token n p k r hr (k + 1) (Nat.lt_succ_self _)] at this
    exact this
  · intro h fuel
    rcases ofToken_agrees (D := D) (E := E) (nowTime := nowTime) fuel token n p [] with ⟨j, hj⟩ | ⟨hd, _⟩
    · have h1 : runIn D E nowTime j (n, start token p) = _ := hj
      exact h j _ (by rw [h1]; rfl)
    · exact hd

/-- C92: whatever else runs, in whatever order, and whoever writes to the store: a validation that finishes has the result that it has by itself
in an environment whose answers are the ones it got, in order. -/
theorem C92_interleaved (D : Deps) (nowTime : Nat → Option UInt64) (G : Nat → Snap) (sched : Nat → Option Nat) (tasks : Nat → Task)
    (i T : Nat) (token : String) (p : DidParser) (hi : tasks i = start token p) (r : Res Chain)
    (h : (runAll D nowTime G sched tasks T i).result = some r) :
    ∃ E m, InOrder E G sched i T m ∧
      ∃ N, ∀ fuel, N ≤ fuel → ofToken D E (nowTime i) fuel token ⟨0, p⟩ = (r, ⟨m, (runAll D nowTime G sched tasks T i).parser⟩) := by
  obtain ⟨m, g, k, hm, hg, hrun⟩ := alone (D := D) nowTime G sched tasks i T
  let g' := fun a => if a < m then g a else T + a
  refine ⟨⟨fun a => (G (g' a)).clock, fun a => (G (g' a)).read⟩, m, ⟨g', fun a b hab => ?_, fun _ => ⟨rfl, rfl⟩, fun a ha => ?_⟩, k + 1, fun fuel hf => ?_⟩
  · show (if a < m then g a else T + a) < (if b < m then g b else T + b)
    split <;> split
    · exact hm a b hab ‹_›
    · have := (hg a ‹_›).1
      omega
    · omega
    · omega
  · show (if a < m then g a else T + a) < T ∧ sched (if a < m then g a else T + a) = some i
    rw [if_pos ha]
    exact hg a ha
  · have hk := hrun ⟨fun a => (G (g' a)).clock, fun a => (G (g' a)).read⟩ fun a ha => by
      show (G (if a < m then g a else T + a)).clock = _ ∧ (G (if a < m then g a else T + a)).read = _
      rw [if_pos ha]
      exact ⟨rfl, rfl⟩
    rw [hi] at hk
    have := C92_finished D ⟨fun a => (G (g' a)).clock, fun a => (G (g' a)).read⟩ (nowTime i) token 0 p k r (by rw [hk]; exact h) fuel hf
    rw [this, hk]

/-- C92: at every moment, finished, in progress or abandoned, a validation leaves its parser as a series of calls of `parse` might. -/
theorem C92_parser (D : Deps) (nowTime : Nat → Option UInt64) (G : Nat → Snap) (sched : Nat → Option Nat) (tasks : Nat → Task)
    (i T : Nat) (ctors : BMap Bytes KeyCtor) (h : Reachable ctors (tasks i).parser) : Reachable ctors (runAll D nowTime G sched tasks T i).parser := by
  induction T with
  | zero => exact h
  | succ T ih =>
    show Reachable ctors (if sched T = some i then _ else _ : Task).parser
    split
    · rcases step_parser (D := D) (nowTime := nowTime i) (G T) (runAll D nowTime G sched tasks T i) with h1 | ⟨did, h1⟩
      · rw [h1]; exact ih
      · rw [h1]; exact ih.parse did
    · exact ih

/-- C92: so a later validation with the same parser has the same result as with a new one, even if the earlier one was abandoned. -/
theorem C92_reuse (D : Deps) (nowTime : Nat → Option UInt64) (G : Nat → Snap) (sched : Nat → Option Nat) (tasks : Nat → Task)
    (i T : Nat) (ctors : BMap Bytes KeyCtor) (h : Reachable ctors (tasks i).parser) (E : Env) (now : Option UInt64) (fuel : Nat) (token : String) (n : Nat) :
    (ofToken D E now fuel token ⟨n, (runAll D nowTime G sched tasks T i).parser⟩).1 = (ofToken D E now fuel token ⟨n, ⟨ctors, []⟩⟩).1 := by
  obtain ⟨hc, hct⟩ := DidParser.coherent_of_reachable (C92_parser D nowTime G sched tasks i T ctors h)
  refine C80_token D E E rfl now fuel token _ _ rfl hc (DidParser.coherent_fresh ctors) fun u _ v _ => ⟨fun _ _ _ _ _ => rfl, ?_⟩
  show SameKeyType (runAll D nowTime G sched tasks T i).parser.ctors ctors _
  rw [hct]
  exact fun _ _ _ _ => rfl

/-- C92: in a quiet environment a validation that has a result gets it, in any schedule that always comes back to it. -/
theorem C92_progress (D : Deps) (nowTime : Nat → Option UInt64) (G : Nat → Snap) (m : Store.Dags) (t : UInt64) (hG : ∀ g, G g = ⟨t, Store.memRead m⟩)
    (sched : Nat → Option Nat) (tasks : Nat → Task) (i : Nat) (hfair : ∀ T, ∃ T', T ≤ T' ∧ sched T' = some i) (token : String) (p : DidParser)
    (hi : tasks i = start token p) (fuel : Nat) (r : Res Chain) (hr : r ≠ .error .diverge)
    (h : (ofToken D (still m t) (nowTime i) fuel token ⟨0, p⟩).1 = r) :
    ∃ T, ∀ T', T ≤ T' → (runAll D nowTime G sched tasks T' i).result = some r := by
  obtain ⟨k, hk⟩ := C92_returns D (still m t) (nowTime i) token ⟨0, p⟩ _ fuel r (Prod.ext h rfl) hr
  -- after as many steps as it was given, the task is where it would be alone
  have key : ∀ T, ∃ c, (runIn D (still m t) (nowTime i) c (0, tasks i)).2 = runAll D nowTime G sched tasks T i := by
    intro T
    induction T with
    | zero => exact ⟨0, rfl⟩
    | succ T ih =>
      obtain ⟨c, hc⟩ := ih
      by_cases hs : sched T = some i
      · refine ⟨c + 1, ?_⟩
        show _ = (if sched T = some i then _ else _)
        rw [if_pos hs, runIn_add, ← hc, hG]
        rfl
      · refine ⟨c, ?_⟩
        show _ = (if sched T = some i then _ else _)
        rw [if_neg hs]
        exact hc
  have more : ∀ c, ∃ T c', c ≤ c' ∧ ∀ T', T ≤ T' → ∃ c'', c' ≤ c'' ∧ (runIn D (still m t) (nowTime i) c'' (0, tasks i)).2 = runAll D nowTime G sched tasks T' i := by
    intro c
    induction c with
    | zero =>
      exact ⟨0, 0, Nat.le_refl _, fun T' _ => by obtain ⟨c'', hc''⟩ := key T'; exact ⟨c'', Nat.zero_le _, hc''⟩⟩
    | succ c ih =>
      obtain ⟨T, c', hle, hT⟩ := ih
      obtain ⟨T1, hT1, hs⟩ := hfair T
      refine ⟨T1 + 1, c + 1, Nat.le_refl _, fun T' hT' => ?_⟩
      induction hT' with
      | refl =>
        obtain ⟨c'', h1, h2⟩ := hT T1 hT1
        refine ⟨c'' + 1, by omega, ?_⟩
        show _ = (if sched T1 = some i then _ else _)
        rw [if_pos hs, runIn_add, ← h2, hG]
        rfl
      | step _ ih =>
        rename_i T2 _
        obtain ⟨c'', h1, h2⟩ := ih
        by_cases hs2 : sched T2 = some i
        · refine ⟨c'' + 1, by omega, ?_⟩
          show _ = (if sched T2 = some i then _ else _)
          rw [if_pos hs2, runIn_add, ← h2, hG]
          rfl
        · refine ⟨c'', h1, ?_⟩
          show _ = (if sched T2 = some i then _ else _)
          rw [if_neg hs2]
          exact h2
  obtain ⟨T, c', hle, hT⟩ := more k
  refine ⟨T, fun T' hT' => ?_⟩
  obtain ⟨c'', h1, h2⟩ := hT T' hT'
  have e : c'' = k + (c'' - k) := by omega
  have hk' : runIn D (still m t) (nowTime i) k (0, start token p) = _ := hk
  rw [← h2, hi, e, runIn_add, hk', runIn_done (r := r) rfl]
  rfl

theorem Async.grows_trans {D : Deps} {a b c : Store.Dags} (h : Grows D a b) (h' : Grows D b c) : Grows D a c := by
  induction h' with
  | refl => exact h
  | write x _ hx ih => exact .write x ih hx

/-- C92: a chain that a validation finishes with, while others read and write the same memory store, is the one found by itself in the store as it
is then or later. -/
theorem C92_shared (D : Deps) (nowTime : Nat → Option UInt64) (G : Nat → Snap) (dags : Nat → Store.Dags) (hd : ∀ g, Grows D (dags g) (dags (g + 1))) (t : UInt64)
    (hG : ∀ g, G g = ⟨t, Store.memRead (dags g)⟩) (sched : Nat → Option Nat) (tasks : Nat → Task) (i T : Nat) (token : String) (p : DidParser)
    (hp : Coherent p) (hi : tasks i = start token p) (c : Chain) (h : (runAll D nowTime G sched tasks T i).result = some (.ok c))
    (j : Nat) (hj : T ≤ j) (v : World) (hv : Coherent v.parser) (hct : v.parser.ctors = p.ctors) :
    ∃ fuel, (ofToken D (still (dags j) t) (nowTime i) fuel token v).1 = .ok c := by
  obtain ⟨E, m, ⟨g, hmono, hE, hbefore⟩, N, hN⟩ := C92_interleaved D nowTime G sched tasks i T token p hi _ h
  have hEq : E = shared (fun k => dags (g k)) t := by
    have h1 : E.clock = fun _ => t := by funext k; rw [(hE k).1, hG]
    have h2 : E.read = fun k c => Store.memRead (dags (g k)) c := by funext k; rw [(hE k).2, hG]
    cases E
    simp only at h1 h2
    rw [h1, h2]
    rfl
  rw [hEq] at hN
  obtain ⟨h1, h2⟩ := ofToken_sound D _ (nowTime i) N token ⟨0, p⟩ c _ hp (hN N (Nat.le_refl _))
  rw [C24_complete D (still (dags j) t) (nowTime i) t (fun _ => rfl) (fun _ _ _ => rfl) token v hv c, hct]
  refine ⟨h1, Sound.mono (fun u => validIn_fixed (fun _ => rfl) u) ?_ c h2⟩
  rintro cid b ⟨k, _, hk, h3⟩
  exact memRead_bytes.2 (grows_le hd (by have := (hbefore k hk).1; omega) cid b (memRead_bytes.1 h3))

namespace Ex

/-- Beside C92: two validations of the same token take turns, and both find the chain; after each step the parser of either may be used again. -/
example (D : Deps) : ∃ T, ∀ T', T ≤ T' → ∀ i, i < 2 →
    (runAll D (fun _ => none) (fun _ => ⟨7, (env D).read 0⟩) (fun g => some (g % 2)) (fun _ => start ((root D).encode D) world.parser) T' i).result =
      some (.ok (chain D)) := by
  obtain ⟨fuel, w', h⟩ := built D
  have go : ∀ i, i < 2 → ∃ T, ∀ T', T ≤ T' → (runAll D (fun _ => none) (fun _ => ⟨7, (env D).read 0⟩) (fun g => some (g % 2))
      (fun _ => start ((root D).encode D) world.parser) T' i).result = some (.ok (chain D)) := by
    intro i hi
    refine C92_progress D _ _ _ 7 (fun _ => rfl) _ _ i (fun T => ⟨2 * T + i, by omega, ?_⟩) _ _ rfl fuel _ (by simp) (by
      show (ofToken D (env D) none fuel ((root D).encode D) world).1 = _
      rw [h])
    show some ((2 * T + i) % 2) = some i
    congr 1
    omega
  obtain ⟨T0, h0⟩ := go 0 (by omega)
  obtain ⟨T1, h1⟩ := go 1 (by omega)
  refine ⟨T0 + T1, fun T' hT' i hi => ?_⟩
  have : i = 0 ∨ i = 1 := by omega
  rcases this with rfl | rfl
  · exact h0 T' (by omega)
  · exact h1 T' (by omega)

end Ex

end Verif
