import Verif.Model.Width
import Verif.Props.Failure
import Verif.Props.Ipld
import Verif.Props.ReduceExamples
import Verif.Spec.Width

/-! # C90 A token means the same on every platform -/

namespace Verif
open Spec Chain

/-! ## The width as a parameter -/

/-- The 64-bit model is the instance with `2 ^ 64`. -/
theorem parseUsizeAt_wide (s : Bytes) : parseUsizeAt usizeBound s = parseUsize s := rfl
theorem proofSemanticsAt_wide : proofSemanticsAt usizeBound = proofSemantics := rfl
theorem redelegationsAt_wide (D : Deps) (n : Nat) (u : Ucan) : redelegationsAt usizeBound D n u = redelegations D n u := rfl

theorem ofTokenAt_wide (D : Deps) (E : Env) (nowTime : Option UInt64) (fuel : Nat) : ofTokenAt usizeBound D E nowTime fuel = ofToken D E nowTime fuel := by
  induction fuel with
  | zero => funext t; rfl
  | succ fuel ih =>
    funext t
    unfold ofTokenAt ofToken
    rw [ih]
    rfl

/-- A narrower target reads the numbers that fit it, as a wider one does. -/
theorem parseUsizeAt_iff (b : Nat) (hb : b ≤ 2 ^ 64) (s : Bytes) (n : Nat) : parseUsizeAt b s = some n ↔ Numeral s n ∧ n < b := by
  rw [← parseUsize_iff]
  have key : ∀ ds : Bytes, (if ds.isEmpty then none else if ds.all Json.isDigit then if Json.decVal ds < b then some (Json.decVal ds) else none else none) = some n ↔
      (if ds.isEmpty then none else if ds.all Json.isDigit then if Json.decVal ds < usizeBound then some (Json.decVal ds) else none else none) = some n ∧ n < b := by
    intro ds
    split
    · simp
    · split
      · by_cases h : Json.decVal ds < b
        · rw [if_pos h, if_pos (show Json.decVal ds < usizeBound from Nat.lt_of_lt_of_le h hb)]
          constructor
          · intro e; cases e; exact ⟨rfl, h⟩
          · exact fun e => e.1
        · rw [if_neg h]
          constructor
          · intro e; cases e
          · rintro ⟨e, hl⟩
            split at e
            · cases e; exact absurd hl h
            · cases e
      · simp
  exact key _

/-- What a target can hold. -/
def Fits (b : Nat) (k : ResourceUri ProofSelection) : Prop := ∀ i, k = .scoped (.index i) → i < b

theorem parseResourceAt_iff (b : Nat) (hb : b ≤ 2 ^ 64) (u : Url) (k : ResourceUri ProofSelection) :
    (proofSemanticsAt b).parseResource u = some k ↔ proofSemantics.parseResource u = some k ∧ Fits b k := by
  unfold Semantics.parseResource
  by_cases hp : u.path = "*"
  · rw [if_pos hp, if_pos hp]
    constructor
    · intro h; cases h; exact ⟨rfl, fun i h => by cases h⟩
    · exact fun h => h.1
  · rw [if_neg hp, if_neg hp]
    simp only [proofSemanticsAt, proofSemantics, ProofSelection.ofUrl, ProofSelection.ofUrlAt, ProofSelection.ofString, ProofSelection.ofStringAt, if_neg hp]
    by_cases hs : u.scheme = "prf"
    · rw [if_pos hs, if_pos hs]
      constructor
      · intro h
        cases hz : parseUsizeAt b (strBytes u.path) with
        | none => rw [hz] at h; cases h
        | some m =>
          rw [hz] at h
          cases h
          obtain ⟨h1, h2⟩ := (parseUsizeAt_iff b hb _ _).1 hz
          rw [(parseUsize_iff _ _).2 h1]
          exact ⟨rfl, fun i h => by cases h; exact h2⟩
      · rintro ⟨h, hf⟩
        cases hz : parseUsize (strBytes u.path) with
        | none => rw [hz] at h; cases h
        | some m =>
          rw [hz] at h
          cases h
          rw [(parseUsizeAt_iff b hb _ _).2 ⟨(parseUsize_iff _ _).1 hz, hf m rfl⟩]
          rfl
    · rw [if_neg hs, if_neg hs]
      simp

theorem map_iff {α β : Type} {x y : Option α} {f : α → β} {p : α → Prop} {q : β → Prop} (hq : ∀ a, q (f a) ↔ p a)
    (h : ∀ a, x = some a ↔ y = some a ∧ p a) (c : β) : x.map f = some c ↔ y.map f = some c ∧ q c := by
  simp only [Option.map_eq_some_iff]
  constructor
  · rintro ⟨a, ha, rfl⟩
    obtain ⟨h1, h2⟩ := (h a).1 ha
    exact ⟨⟨a, h1, rfl⟩, (hq a).2 h2⟩
  · rintro ⟨⟨a, ha, rfl⟩, h2⟩
    exact ⟨a, (h a).2 ⟨ha, (hq a).1 h2⟩, rfl⟩

theorem resourceOfAt_iff (b : Nat) (hb : b ≤ 2 ^ 64) (D : Deps) (r : String) (x : Resource ProofSelection) :
    (proofSemanticsAt b).resourceOf D r = some x ↔ proofSemantics.resourceOf D r = some x ∧ Fits b (kind x) := by
  unfold Semantics.resourceOf
  split
  · simp
  · rename_i uri _
    split
    · exact map_iff (q := fun x => Fits b (kind x)) (fun _ => Iff.rfl) (parseResourceAt_iff b hb uri) x
    · split
      · split
        · simp
        · split
          · simp
          · rename_i u _
            exact map_iff (q := fun x => Fits b (kind x)) (fun _ => Iff.rfl) (parseResourceAt_iff b hb u) x
      · exact map_iff (q := fun x => Fits b (kind x)) (fun _ => Iff.rfl) (parseResourceAt_iff b hb uri) x

theorem parseCapabilityAt_iff (b : Nat) (hb : b ≤ 2 ^ 64) (D : Deps) (c : Capability) (v : View ProofSelection ProofAction) :
    (proofSemanticsAt b).parseCapability D c = some v ↔ proofSemantics.parseCapability D c = some v ∧ Fits b (kind v.resource) := by
  have hr := resourceOfAt_iff b hb D c.resource
  rw [Semantics.parseCapability_default rfl, Semantics.parseCapability_default rfl]
  unfold Semantics.parse
  rw [show (proofSemanticsAt b).parseAction = proofSemantics.parseAction from rfl]
  constructor
  · intro h
    split at h
    · cases h
    · rename_i r hx
      split at h
      · cases h
      · cases h
        exact ⟨by rw [((hr r).1 hx).1], ((hr r).1 hx).2⟩
  · rintro ⟨h, hf⟩
    split at h
    · cases h
    · rename_i r hx
      split at h
      · cases h
      · cases h
        rw [(hr r).2 ⟨hx, hf⟩]

/-- What a target with `usize < b` makes of the redelegation claims of a UCAN. -/
theorem redelegationsAt_iff (b : Nat) (hb : b ≤ 2 ^ 64) (D : Deps) (n : Nat) (u : Ucan) (s : BSet Nat) :
    redelegationsAt b D n u = .ok s ↔ BSet.Sorted s ∧ (∀ i, i ∈ s ↔ i < b ∧ ∃ c ∈ u.payload.cap.iter, Redelegates D c i) ∧ ∀ i ∈ s, i < n := by
  unfold redelegationsAt
  have hsel : ∀ i, selects (u.capabilities.iter.filterMap ((proofSemanticsAt b).parseCapability D)) i ↔
      i < b ∧ ∃ c ∈ u.payload.cap.iter, Redelegates D c i := by
    intro i
    unfold selects
    constructor
    · rintro ⟨v, hv, hr⟩
      obtain ⟨c, hc, hp⟩ := List.mem_filterMap.1 hv
      obtain ⟨h1, h2⟩ := (parseCapabilityAt_iff b hb D c v).1 hp
      exact ⟨h2 i (by rw [hr]; rfl), c, hc, (C19_index_iff D c i).1 ⟨v, h1, hr⟩⟩
    · rintro ⟨hi, c, hc, hr⟩
      obtain ⟨v, hp, hv⟩ := (C19_index_iff D c i).2 hr
      refine ⟨v, List.mem_filterMap.2 ⟨c, hc, (parseCapabilityAt_iff b hb D c v).2 ⟨hp, fun j hj => ?_⟩⟩, hv⟩
      rw [hv] at hj
      have : i = j := by cases hj; rfl
      exact this ▸ hi
  rw [redelLoop_iff n _ _ _ (by simp [BSet.Sorted])]
  · simp only [hsel, List.not_mem_nil, false_or]
    constructor
    · rintro ⟨h1, h2, h3⟩
      exact ⟨h1, h2, fun i hi => h3 i ((h2 i).1 hi)⟩
    · rintro ⟨h1, h2, h3⟩
      exact ⟨h1, h2, fun i hi => h3 i ((h2 i).2 hi)⟩
  · intro v hv
    obtain ⟨c, _, hp⟩ := List.mem_filterMap.1 hv
    exact C19_all_unreachable D c.resource c.ability (some c.caveat) v ((parseCapabilityAt_iff b hb D c v).1 hp).1

theorem redelegations_narrow (b : Nat) (hb : b ≤ 2 ^ 64) (D : Deps) (n : Nat) (hn : n ≤ b) (u : Ucan) (s : BSet Nat) :
    redelegations D n u = .ok s ↔ redelegationsAt b D n u = .ok s ∧ Countable b D u := by
  rw [redelegations_iff, redelegationsAt_iff b hb]
  constructor
  · rintro ⟨h1, h2, h3⟩
    have hc : Countable b D u := fun c hc i hr => Nat.lt_of_lt_of_le (h3 i ((h2 i).2 ⟨c, hc, hr⟩)) hn
    exact ⟨⟨h1, fun i => (h2 i).trans ⟨fun ⟨c, hm, hr⟩ => ⟨hc c hm i hr, c, hm, hr⟩, fun h => h.2⟩, h3⟩, hc⟩
  · rintro ⟨⟨h1, h2, h3⟩, hc⟩
    exact ⟨h1, fun i => (h2 i).trans ⟨fun h => h.2, fun ⟨c, hm, hr⟩ => ⟨hc c hm i hr, c, hm, hr⟩⟩, h3⟩

/-! ## Chains -/

theorem sub_mk {d : Chain} {u : Ucan} {cs : List Chain} {r : BSet Nat} : Sub d (.mk u cs r) ↔ d = .mk u cs r ∨ ∃ e ∈ cs, Sub d e := by
  constructor
  · intro h
    cases h with
    | self => exact Or.inl rfl
    | proof he h => exact Or.inr ⟨_, he, h⟩
  · rintro (rfl | ⟨e, he, h⟩)
    · exact .self _
    · exact .proof he h

theorem proofsLoop_narrow (D : Deps) (E : Env) (rec rec' : String → M Chain) (P Q : Chain → Prop) (u : Ucan)
    (hrec : ∀ t w c w', P c → (rec t w = (.ok c, w') ↔ rec' t w = (.ok c, w') ∧ Q c)) (ss : List String) :
    ∀ (w w' : World) (cs : List Chain), (∀ c ∈ cs, P c) →
      (proofsLoop D E rec u ss w = (.ok cs, w') ↔ proofsLoop D E rec' u ss w = (.ok cs, w') ∧ ∀ c ∈ cs, Q c) := by
  induction ss with
  | nil =>
    intro w w' cs _
    constructor
    · intro h; refine ⟨h, ?_⟩; cases h; simp
    · exact fun h => h.1
  | cons s ss ih =>
    intro w w' cs hP
    unfold proofsLoop
    constructor
    · intro h
      obtain ⟨cid, w1, h1, h⟩ := M.bind_ok.1 h
      obtain ⟨tok, w2, h2, h⟩ := M.bind_ok.1 h
      obtain ⟨c, w3, h3, h⟩ := M.bind_ok.1 h
      obtain ⟨⟨⟩, w4, h4, h⟩ := M.bind_ok.1 h
      obtain ⟨cs', w5, h5, h⟩ := M.bind_ok.1 h
      cases h
      obtain ⟨h3, q3⟩ := (hrec _ _ _ _ (hP c (by simp))).1 h3
      obtain ⟨h5, q5⟩ := (ih _ _ _ (fun c hc => hP c (by simp [hc]))).1 h5
      refine ⟨M.bind_ok.2 ⟨cid, w1, h1, M.bind_ok.2 ⟨tok, w2, h2, M.bind_ok.2 ⟨c, w3, h3, M.bind_ok.2 ⟨(), w4, h4, M.bind_ok.2 ⟨cs', _, h5, rfl⟩⟩⟩⟩⟩, ?_⟩
      intro x hx
      rcases List.mem_cons.1 hx with rfl | hx
      · exact q3
      · exact q5 x hx
    · rintro ⟨h, hQ⟩
      obtain ⟨cid, w1, h1, h⟩ := M.bind_ok.1 h
      obtain ⟨tok, w2, h2, h⟩ := M.bind_ok.1 h
      obtain ⟨c, w3, h3, h⟩ := M.bind_ok.1 h
      obtain ⟨⟨⟩, w4, h4, h⟩ := M.bind_ok.1 h
      obtain ⟨cs', w5, h5, h⟩ := M.bind_ok.1 h
      cases h
      have h3 := (hrec _ _ _ _ (hP c (by simp))).2 ⟨h3, hQ c (by simp)⟩
      have h5 := (ih _ _ _ (fun c hc => hP c (by simp [hc]))).2 ⟨h5, fun x hx => hQ x (by simp [hx])⟩
      exact M.bind_ok.2 ⟨cid, w1, h1, M.bind_ok.2 ⟨tok, w2, h2, M.bind_ok.2 ⟨c, w3, h3, M.bind_ok.2 ⟨(), w4, h4, M.bind_ok.2 ⟨cs', _, h5, rfl⟩⟩⟩⟩⟩

/-- C90: a token is accepted on a 64-bit target exactly if it is accepted, as the same chain and with the same effects, on a target
with `usize < b`, and no UCAN in the chain names a proof that this target cannot count. -/
theorem C90_iff (b : Nat) (hb : b ≤ 2 ^ 64) (D : Deps) (E : Env) (nowTime : Option UInt64) (fuel : Nat) : ∀ (t : String) (w : World) (c : Chain) (w' : World),
    Small b c → (ofToken D E nowTime fuel t w = (.ok c, w') ↔
      ofTokenAt b D E nowTime fuel t w = (.ok c, w') ∧ ∀ d, Sub d c → Countable b D d.ucan) := by
  induction fuel with
  | zero =>
    intro t w c w' _
    constructor
    · intro h; cases h
    · intro h; cases h.1
  | succ fuel ih =>
    intro t w c w' hsm
    unfold ofToken ofTokenAt
    constructor
    · intro h
      obtain ⟨u, w1, h1, h⟩ := M.bind_ok.1 h
      obtain ⟨⟨⟩, w2, h2, h⟩ := M.bind_ok.1 h
      obtain ⟨cs, w3, h3, h⟩ := M.bind_ok.1 h
      obtain ⟨r, w4, h4, h⟩ := M.bind_ok.1 h
      cases h
      obtain ⟨h3, q3⟩ := (proofsLoop_narrow D E _ _ (Small b) _ u ih _ _ _ _
        (fun c hc d hd => hsm d (.proof (e := c) hc hd))).1 h3
      obtain ⟨h4a, rfl⟩ := Prod.mk.inj h4
      obtain ⟨h5, q5⟩ := (redelegations_narrow b hb D _ (hsm _ (.self _)) u r).1 h4a
      refine ⟨M.bind_ok.2 ⟨u, w1, h1, M.bind_ok.2 ⟨(), w2, h2, M.bind_ok.2 ⟨cs, _, h3, M.bind_ok.2 ⟨r, _, ?_, rfl⟩⟩⟩⟩, ?_⟩
      · exact Prod.ext h5 rfl
      · intro d hd
        rcases sub_mk.1 hd with rfl | ⟨e, he, hd⟩
        · exact q5
        · exact q3 e he d hd
    · rintro ⟨h, hc⟩
      obtain ⟨u, w1, h1, h⟩ := M.bind_ok.1 h
      obtain ⟨⟨⟩, w2, h2, h⟩ := M.bind_ok.1 h
      obtain ⟨cs, w3, h3, h⟩ := M.bind_ok.1 h
      obtain ⟨r, w4, h4, h⟩ := M.bind_ok.1 h
      cases h
      have h3 := (proofsLoop_narrow D E _ _ (Small b) (fun c => ∀ d, Sub d c → Countable b D d.ucan) u ih _ _ _ _
        (fun c hc d hd => hsm d (.proof (e := c) hc hd))).2 ⟨h3, fun e he d hd => hc d (.proof (e := e) he hd)⟩
      obtain ⟨h4a, rfl⟩ := Prod.mk.inj h4
      have h5 := (redelegations_narrow b hb D _ (hsm _ (.self _)) u r).2 ⟨h4a, hc _ (.self _)⟩
      refine M.bind_ok.2 ⟨u, w1, h1, M.bind_ok.2 ⟨(), w2, h2, M.bind_ok.2 ⟨cs, _, h3, M.bind_ok.2 ⟨r, _, ?_, rfl⟩⟩⟩⟩
      exact Prod.ext h5 rfl

/-- C90: what a 64-bit target accepts, a narrower target that can hold the chain accepts too, and hence reports the same. -/
theorem C90_accepted (b : Nat) (hb : b ≤ 2 ^ 64) (D : Deps) (E : Env) (nowTime : Option UInt64) (fuel : Nat) (t : String) (w : World) (c : Chain) (w' : World)
    (hsm : Small b c) (h : ofToken D E nowTime fuel t w = (.ok c, w')) : ofTokenAt b D E nowTime fuel t w = (.ok c, w') :=
  ((C90_iff b hb D E nowTime fuel t w c w' hsm).1 h).1

/-- C90 (partial: not for tokens that name a proof beyond the narrower `usize`): a narrower target accepts the same tokens. -/
theorem C90_same_partial (b : Nat) (hb : b ≤ 2 ^ 64) (D : Deps) (E : Env) (nowTime : Option UInt64) (fuel : Nat) (t : String) (w : World) (c : Chain) (w' : World)
    (hsm : Small b c) (hc : ∀ d, Sub d c → Countable b D d.ucan) :
    ofToken D E nowTime fuel t w = (.ok c, w') ↔ ofTokenAt b D E nowTime fuel t w = (.ok c, w') :=
  (C90_iff b hb D E nowTime fuel t w c w' hsm).trans ⟨fun h => h.1, fun h => ⟨h, hc⟩⟩

/-- C90 fails: a valid UCAN without proofs that names only proofs the narrower target cannot count is refused by the 64-bit
target, which finds no such proof; the narrower target takes the claim for something else and accepts the UCAN. -/
theorem C90_differs (b : Nat) (hb : b ≤ 2 ^ 64) (D : Deps) (E : Env) (nowTime : Option UInt64) (fuel : Nat) (t : String) (u : Ucan) (w w' : World)
    (hu : Ucan.fromStr D t = .ok u) (hv : u.validate E nowTime w = (.ok (), w')) (hp : u.payload.prf.getD [] = [])
    (hc : ∀ c ∈ u.payload.cap.iter, ∀ i, Redelegates D c i → b ≤ i) (c : Capability) (hm : c ∈ u.payload.cap.iter) (i : Nat) (hi : Redelegates D c i) :
    ofToken D E nowTime (fuel + 1) t w = (.error (.err .noProofAt), w') ∧ ofTokenAt b D E nowTime (fuel + 1) t w = (.ok (.mk u [] []), w') := by
  have h1 : M.lift (Ucan.fromStr D t) w = (.ok u, w) := by rw [M.lift_apply, hu]
  have hl : ∀ rec : String → M Chain, proofsLoop D E rec u (u.proofs.getD []) w' = (.ok [], w') := by
    intro rec
    rw [show u.proofs.getD [] = [] from hp]
    rfl
  constructor
  · unfold ofToken fromUcanWith
    rw [M.bind_of_ok h1, M.bind_of_ok hv, M.bind_of_ok (hl _)]
    have hr : redelegations D 0 u = .error (.err .noProofAt) := Failure.redel_error.2 ⟨rfl, c, hm, i, hi, Nat.zero_le _⟩
    exact M.bind_of_error (show M.lift (redelegations D 0 u) w' = (.error (.err .noProofAt), w') by rw [M.lift_apply, hr])
  · unfold ofTokenAt fromUcanWithAt
    rw [M.bind_of_ok h1, M.bind_of_ok hv, M.bind_of_ok (hl _)]
    have hr : redelegationsAt b D 0 u = .ok [] := by
      refine (redelegationsAt_iff b hb D 0 u []).2 ⟨by simp [BSet.Sorted], fun i => ?_, by simp⟩
      constructor
      · intro h; cases h
      · rintro ⟨hlt, c, hm, hr⟩
        exact absurd (hc c hm i hr) (Nat.not_le_of_lt hlt)
    exact M.bind_of_ok (show M.lift (redelegationsAt b D 0 u) w' = (.ok [], w') by rw [M.lift_apply, hr])

namespace Ex
open Reduce

/-- A claim of its own, and the redelegation of proof number 2³². -/
def bigCaps : Capabilities := capsOf [("mailto:a@b", ["m/1"]), ("prf:4294967296", ["ucan/DELEGATE"])]
def bigClaim (D : Deps) : Ucan := ucan D 1 (did 2) (some 20) (some 5) none bigCaps

theorem bigCaps_plain : Plain bigCaps := ⟨by unfold BMap.Sorted; decide, by unfold BMap.Sorted; decide, by decide⟩

theorem bigText : "prf:4294967296" = "prf:" ++ asciiStr (Json.decBytes 4294967296) := by decide +kernel

theorem big_redelegates (D : Deps) : Redelegates D ⟨"prf:4294967296", "ucan/DELEGATE", .obj []⟩ 4294967296 := by
  rw [bigText]
  exact (C19_index_iff D _ _).1 ⟨_, C19_decimal D 4294967296 (by decide) _, rfl⟩

theorem big_claims (D : Deps) (c : Capability) (hc : c ∈ (bigClaim D).payload.cap.iter) (i : Nat) (hr : Redelegates D c i) : i = 4294967296 := by
  have : c = ⟨"mailto:a@b", "m/1", .obj []⟩ ∨ c = ⟨"prf:4294967296", "ucan/DELEGATE", .obj []⟩ := by
    simpa [bigClaim, ucan, payload, bigCaps, capsOf, Capabilities.iter] using hc
  rcases this with rfl | rfl
  · exact absurd hr.1 (by decide)
  · obtain ⟨u, h1, _, h2⟩ := hr.2
    obtain ⟨v, h3, _, h4⟩ := (big_redelegates D).2
    rw [h1] at h3
    cases h3
    exact numeral_unique h2 h4

/-- C90 is violated: this token is refused on 64-bit targets; on 32-bit targets it is accepted and reported to grant mail access. -/
theorem C90_violated (D : Deps) : ∃ (E : Env) (w : World) (t : String) (c : Chain),
    (ofToken D E none 1 t w).1 = .error (.err .noProofAt) ∧ (ofTokenAt (2 ^ 32) D E none 1 t w).1 = .ok c ∧
      reduce D mailSem c = .ok [⟨[did 1], some 5, some 20, mail "a@b" 1⟩] := by
  have hval : ((bigClaim D).validate (still (fun _ => none) 7) none world).1 = .ok () := by
    refine (C12_validate_iff _ _ _ _ world_coherent).2 ?_
    have h := valid D 1 (did 2) 20 5 none bigCaps 7 (by decide) (by decide)
    exact ⟨h.unexpired, h.active, h.authentic⟩
  obtain ⟨h1, h2⟩ := C90_differs (2 ^ 32) (by decide) D (still (fun _ => none) 7) none 0 ((bigClaim D).encode D) (bigClaim D) world _
    (parses' D 1 (did 2) _ _ _ bigCaps_plain) (Prod.ext hval rfl) rfl
    (fun c hc i hr => by rw [big_claims D c hc i hr]; decide) ⟨"prf:4294967296", "ucan/DELEGATE", .obj []⟩
    (by simp [bigClaim, ucan, payload, bigCaps, capsOf, Capabilities.iter]) _ (big_redelegates D)
  exact ⟨still (fun _ => none) 7, world, (bigClaim D).encode D, .mk (bigClaim D) [] [], by rw [h1], by rw [h2], rfl⟩

/-- Beside C90: a chain of two levels with a redelegation, accepted on both. -/
example (D : Deps) : ∃ fuel w', ofTokenAt (2 ^ 32) D (env D) none fuel ((root D).encode D) world = (.ok (chain D), w') := by
  obtain ⟨fuel, w', h⟩ := built D
  refine ⟨fuel, w', C90_accepted (2 ^ 32) (by decide) D _ none fuel _ _ _ _ (fun d hd => ?_) h⟩
  rcases sub_mk.1 hd with rfl | ⟨e, he, hd⟩
  · show 1 ≤ 2 ^ 32; decide
  · cases List.mem_singleton.1 he
    rcases sub_mk.1 hd with rfl | ⟨e, he, _⟩
    · show 0 ≤ 2 ^ 32; decide
    · cases he

end Ex

/-! ## Signatures in IPLD -/

/-- What the 32-bit reader of integers returns, the 64-bit reader returns too, up to lost bits. -/
theorem decodeAux32_wide : ∀ (bs : Bytes) (i a a' v : Nat) (r : Bytes), i ≤ 4 → a' % 2 ^ 32 = a → Varint.decodeAux32 i a bs = some (v, r) →
    ∃ v', Varint.decodeAux i a' bs = some (v', r) ∧ v' % 2 ^ 32 = v := by
  intro bs
  induction bs with
  | nil => intro i a a' v r _ _ h; cases h
  | cons x bs ih =>
    intro i a a' v r hi ha h
    unfold Varint.decodeAux32 at h
    unfold Varint.decodeAux
    have hmod : (a' + (x.toNat % 128) * 2 ^ (7 * i)) % 2 ^ 64 % 2 ^ 32 = (a + (x.toNat % 128) * 2 ^ (7 * i)) % 2 ^ 32 := by
      rw [← ha]
      omega
    simp only at h ⊢
    split at h
    · rename_i hx
      rw [if_pos hx]
      split at h
      · cases h
      · rename_i hz
        rw [if_neg hz]
        cases h
        exact ⟨_, rfl, hmod⟩
    · rename_i hx
      rw [if_neg hx]
      split at h
      · cases h
      · rw [if_neg (show ¬ i = 9 by omega)]
        exact ih _ _ _ _ _ (by omega) hmod h

theorem decodeAux32_encodeAux : ∀ (f i n acc : Nat) (rest : Bytes), f + i = 9 → i ≤ 4 → n < 2 ^ (32 - 7 * i) → acc < 2 ^ (7 * i) → (0 < i → 0 < n) →
    Varint.decodeAux32 i acc (Varint.encodeAux f n ++ rest) = some (acc + n * 2 ^ (7 * i), rest) := by
  intro f
  induction f with
  | zero => intro i n acc rest h1 h2; omega
  | succ f ih =>
    intro i n acc rest hi hi4 hn hacc hpos
    have hp : 2 ^ (32 - 7 * i) * 2 ^ (7 * i) = 2 ^ 32 := by
      rw [← Nat.pow_add]; congr 1; omega
    have hpi : 0 < 2 ^ (7 * i) := Nat.pow_pos (by omega)
    have hsum : acc + n * 2 ^ (7 * i) < 2 ^ 32 := by
      have h1 : (n + 1) * 2 ^ (7 * i) ≤ 2 ^ (32 - 7 * i) * 2 ^ (7 * i) := Nat.mul_le_mul_right _ hn
      rw [hp, Nat.add_mul] at h1
      omega
    simp only [Varint.encodeAux]
    split
    · rename_i hlt
      simp only [List.cons_append, List.nil_append, Varint.decodeAux32]
      have e1 : (UInt8.ofNat n).toNat = n := by simp; omega
      rw [e1, if_pos hlt, if_neg (by intro h; have := hpos h.2; omega), Nat.mod_eq_of_lt hlt, Nat.mod_eq_of_lt hsum]
    · rename_i hge
      have hi3 : i ≤ 3 := by
        refine Nat.le_of_not_lt fun h => ?_
        have : i = 4 := by omega
        subst this
        have : n < 16 := hn
        omega
      simp only [List.cons_append, Varint.decodeAux32]
      have e1 : (UInt8.ofNat (n % 128 + 128)).toNat = n % 128 + 128 := by simp; omega
      rw [e1, if_neg (by omega), if_neg (by omega)]
      have e2 : (n % 128 + 128) % 128 = n % 128 := by omega
      have hq : n % 128 * 2 ^ (7 * i) ≤ n * 2 ^ (7 * i) := Nat.mul_le_mul_right _ (Nat.mod_le _ _)
      have hpow : 2 ^ (7 * (i + 1)) = 128 * 2 ^ (7 * i) := by rw [Nat.mul_add, Nat.pow_add, Nat.mul_comm]
      rw [e2, Nat.mod_eq_of_lt (by omega), ih (i + 1) (n / 128) _ rest (by omega) (by omega) ?_ ?_ (by omega)]
      · have : n * 2 ^ (7 * i) = n % 128 * 2 ^ (7 * i) + n / 128 * (128 * 2 ^ (7 * i)) := by
          rw [← Nat.mul_assoc, ← Nat.add_mul]; congr 1; omega
        rw [hpow, this, Nat.add_assoc]
      · have : 2 ^ (32 - 7 * i) = 128 * 2 ^ (32 - 7 * (i + 1)) := by
          rw [show 32 - 7 * i = 7 + (32 - 7 * (i + 1)) by omega, Nat.pow_add]
        omega
      · have : n % 128 * 2 ^ (7 * i) ≤ 127 * 2 ^ (7 * i) := Nat.mul_le_mul_right _ (by omega)
        omega

/-- C90: signatures that the library encodes are read back on a 32-bit target as on a 64-bit target (C44), whatever follows. -/
theorem C90_signature_made (alg : JwtAlg) (sig rest : Bytes) (h : sig.length < 2 ^ 32) :
    IpldSig.decode32 ⟨(IpldSig.ofAlg alg sig).bytes ++ rest⟩ = .ok (alg, sig) := by
  unfold IpldSig.decode32 IpldSig.ofAlg
  simp only [List.append_assoc, Varint.decode_encode, Varsig.ofCode_code, Varsig.toAlg_ofAlg]
  have hl : (UInt64.ofNat sig.length).toNat = sig.length := by simp; omega
  rw [Varint.encode, hl, decodeAux32_encodeAux 9 0 _ _ _ rfl (by omega) h (by decide) (by omega)]
  simp

/-- C90: two targets that both read a signature of less than 4 GiB read the same. -/
theorem C90_signature_agree (s : IpldSig) (alg alg' : JwtAlg) (sig sig' : Bytes) (h : IpldSig.decode s = .ok (alg, sig))
    (h' : IpldSig.decode32 s = .ok (alg', sig')) (hl : sig.length < 2 ^ 32) : alg' = alg ∧ sig' = sig := by
  unfold IpldSig.decode at h
  unfold IpldSig.decode32 at h'
  split at h'
  · cases h'
  · rename_i pre buf hpre
    rw [hpre] at h
    simp only at h
    split at h'
    · cases h'
    · rename_i len rest hlen
      obtain ⟨v, hv, hmod⟩ := decodeAux32_wide buf 0 0 0 len rest (by omega) rfl hlen
      have hd : Varint.decode buf = some (UInt64.ofNat v, rest) := by unfold Varint.decode; rw [hv]; rfl
      rw [hd] at h
      simp only at h
      split at h'
      · cases h'
      · rename_i vs hvs
        rw [hvs] at h
        simp only at h
        split at h'
        · cases h'
        · rename_i al hal
          rw [hal] at h
          simp only at h
          split at h
          · rename_i hle
            split at h'
            · cases h; cases h'
              have : (UInt64.ofNat v).toNat < 2 ^ 32 := by
                rw [List.length_take, Nat.min_eq_left hle] at hl
                exact hl
              have e : len = (UInt64.ofNat v).toNat := by
                rw [← hmod]
                simp at this ⊢
                omega
              rw [e]
              exact ⟨rfl, rfl⟩
            · cases h'
          · cases h

/-- C90: what makes a 32-bit target panic makes a 64-bit target panic, in the same place. -/
theorem C90_signature_panics (s : IpldSig) (q : Panic) (h' : IpldSig.decode32 s = .error (.panic q)) : IpldSig.decode s = .error (.panic q) := by
  unfold IpldSig.decode32 at h'
  unfold IpldSig.decode
  split at h'
  · cases h'
  · rename_i pre buf hpre
    rw [hpre]
    simp only
    split at h'
    · cases h'
    · rename_i len rest hlen
      obtain ⟨v, hv, hmod⟩ := decodeAux32_wide buf 0 0 0 len rest (by omega) rfl hlen
      have hd : Varint.decode buf = some (UInt64.ofNat v, rest) := by unfold Varint.decode; rw [hv]; rfl
      rw [hd]
      simp only
      split at h'
      · cases h'
      · rename_i vs hvs
        rw [hvs]
        simp only
        split at h'
        · cases h'
        · rename_i al hal
          rw [hal]
          simp only
          split at h'
          · cases h'
          · rename_i hle
            have : ¬ (UInt64.ofNat v).toNat ≤ rest.length := by
              simp only [UInt64.toNat_ofNat']
              omega
            rw [if_neg this]
            exact h'

/-- C90 fails for foreign signatures: a length of 2³² + 1 is read as 1 on a 32-bit target and stops a 64-bit target; a length written
with ten bytes is read on a 64-bit target and refused on a 32-bit target. -/
theorem C90_signature_differs :
    (IpldSig.decode ⟨[0xed, 0xa1, 0x03, 0x81, 0x80, 0x80, 0x80, 0x10, 7]⟩ = .error (.panic .sliceVarsig) ∧
      IpldSig.decode32 ⟨[0xed, 0xa1, 0x03, 0x81, 0x80, 0x80, 0x80, 0x10, 7]⟩ = .ok (.EdDSA, [7])) ∧
    (IpldSig.decode ⟨[0xed, 0xa1, 0x03, 0x81, 0x80, 0x80, 0x80, 0x80, 0x80, 0x80, 0x80, 0x80, 0x02, 7]⟩ = .ok (.EdDSA, [7]) ∧
      IpldSig.decode32 ⟨[0xed, 0xa1, 0x03, 0x81, 0x80, 0x80, 0x80, 0x80, 0x80, 0x80, 0x80, 0x80, 0x02, 7]⟩ = .error (.err .varint)) := by decide

end Verif
