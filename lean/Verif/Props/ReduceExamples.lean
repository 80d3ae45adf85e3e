import Verif.Props.ChainExamples
import Verif.Props.Reduce

/-! # Concrete chains beside C27–C35 and witnesses of violated claims -/

namespace Verif
namespace Ex
open Spec Chain Reduce

/-! ## Constructed chains with several claims -/

/-- Sorted maps with empty caveats, as they come out of a parsed token. -/
structure Plain (cap : Capabilities) : Prop where
  sorted : BMap.Sorted cap
  abSorted : ∀ r ∈ cap, BMap.Sorted r.2
  empty : ∀ r ∈ cap, ∀ a ∈ r.2, ∀ c ∈ a.2, c = .obj []

theorem encodable' (D : Deps) (k : UInt8) (aud : String) (exp nbf : Option UInt64) (prf : Option (List String)) {cap : Capabilities} (hp : Plain cap) :
    Codec.Encodable D (payload k aud exp nbf prf cap) := by
  refine ⟨hp.sorted, hp.abSorted, ?_, by simp [payload], ?_⟩
  · intro r hr a ha c hc
    rw [hp.empty r hr a ha c hc]
    exact good_empty D
  · have := Codec.depth_payload (n := 10) (payload k aud exp nbf prf cap) (by
      intro r hr a ha c hc
      rw [hp.empty r hr a ha c hc]
      decide) (by omega) (by simp [payload])
    simp only [Json.depthLimit]
    omega

theorem parses' (D : Deps) (k : UInt8) (aud : String) (exp nbf : Option UInt64) (prf : Option (List String)) {cap : Capabilities} (hp : Plain cap) :
    Ucan.fromStr D ((ucan D k aud exp nbf prf cap).encode D) = .ok (ucan D k aud exp nbf prf cap) :=
  C01_round_trip_general D _ (encodable' D k aud exp nbf prf hp) rfl

/-- No claim is a redelegation. -/
def NoRedel (cap : Capabilities) : Prop := ∀ c ∈ cap.iter, c.ability ≠ "ucan/DELEGATE"

theorem redelOk (D : Deps) (u : Ucan) (n : Nat) (h : NoRedel u.payload.cap) : RedelOk D u n [] := by
  refine ⟨by simp [BSet.Sorted], fun i => ?_, by simp⟩
  constructor
  · intro h; cases h
  · rintro ⟨c, hc, ha, _⟩
    exact absurd ha (h c hc)

/-- A token without proofs is a chain. -/
theorem built_leaf (D : Deps) (k : UInt8) (aud : String) {cap : Capabilities} (hp : Plain cap) (hr : NoRedel cap) :
    ∃ w', Built D (still (fun _ => none) 7) none world w' (.mk (ucan D k aud (some 20) (some 5) none cap) [] []) := by
  obtain ⟨fuel, h⟩ := (C24_complete D (still (fun _ => none) 7) none 7 (fun _ => rfl) (fun _ _ _ => rfl)
    ((ucan D k aud (some 20) (some 5) none cap).encode D) world world_coherent (.mk (ucan D k aud (some 20) (some 5) none cap) [] [])).2
    ⟨parses' D k aud _ _ _ hp, by
      simp only [Sound, SoundAll]
      exact ⟨valid D k aud 20 5 _ _ 7 (by decide) (by decide), rfl, redelOk D _ _ hr⟩⟩
  exact ⟨_, .ofToken fuel _ (Prod.ext h rfl)⟩

/-- A token with one proof, which has one proof: keys 1, 2 and 3. -/
def capsOf (l : List (String × List String)) : Capabilities := l.map fun r => (r.1, r.2.map fun a => (a, [.obj []]))

def tok1 (D : Deps) (c1 : Capabilities) : Ucan := ucan D 1 (did 2) (some 20) (some 5) none c1
def tok2 (D : Deps) (c2 : Capabilities) : Ucan := ucan D 2 (did 3) (some 20) (some 5) (some [(cid 1).toStr]) c2
def tok3 (D : Deps) (c3 : Capabilities) : Ucan := ucan D 3 (did 4) (some 20) (some 5) (some [(cid 2).toStr]) c3

def dags3 (D : Deps) (c1 c2 : Capabilities) : Store.Dags := fun c =>
  if c = cid 1 then some (strBytes ((tok1 D c1).encode D)) else if c = cid 2 then some (strBytes ((tok2 D c2).encode D)) else none

def chain3 (D : Deps) (c1 c2 c3 : Capabilities) : Chain := .mk (tok3 D c3) [.mk (tok2 D c2) [.mk (tok1 D c1) [] []] []] []

theorem built3 (D : Deps) {c1 c2 c3 : Capabilities} (h1 : Plain c1) (h2 : Plain c2) (h3 : Plain c3) (r1 : NoRedel c1) (r2 : NoRedel c2)
    (r3 : NoRedel c3) : ∃ w', Built D (still (dags3 D c1 c2) 7) none world w' (chain3 D c1 c2 c3) := by
  have hd : ∀ k k' : UInt8, ∀ prf prf' : Option (List String), ∀ cap cap' : Capabilities,
      Delegates (ucan D k (did k') (some 20) (some 5) prf cap) (ucan D k' (did (k' + 1)) (some 20) (some 5) prf' cap') := by
    intro k k' prf prf' cap cap'
    exact ⟨rfl, fun n hn => ⟨n, hn, UInt64.le_refl _⟩, fun n hn => ⟨n, hn, UInt64.le_refl _⟩⟩
  have s1 : Resolves D (Holds (still (dags3 D c1 c2) 7)) (cid 1).toStr (tok1 D c1) := by
    refine ⟨cid 1, (tok1 D c1).encode D, cid_parse D 1, rfl, ?_, parses' D 1 (did 2) _ _ _ h1⟩
    exact memRead_bytes.2 (by show (if cid 1 = cid 1 then _ else _) = _; rw [if_pos rfl])
  have s2 : Resolves D (Holds (still (dags3 D c1 c2) 7)) (cid 2).toStr (tok2 D c2) := by
    refine ⟨cid 2, (tok2 D c2).encode D, cid_parse D 2, rfl, ?_, parses' D 2 (did 3) _ _ _ h2⟩
    exact memRead_bytes.2 (by
      show (if cid 2 = cid 1 then _ else if cid 2 = cid 2 then _ else _) = _
      rw [if_neg (by decide), if_pos rfl])
  obtain ⟨fuel, h⟩ := (C24_complete D (still (dags3 D c1 c2) 7) none 7 (fun _ => rfl) (fun _ _ _ => rfl)
    ((tok3 D c3).encode D) world world_coherent (chain3 D c1 c2 c3)).2
    ⟨parses' D 3 (did 4) _ _ _ h3, by
      unfold chain3
      simp only [Sound, SoundAll]
      exact ⟨valid D 3 _ 20 5 _ _ 7 (by decide) (by decide), ⟨_, [], rfl, s2, hd 2 3 _ _ _ _,
        ⟨valid D 2 _ 20 5 _ _ 7 (by decide) (by decide), ⟨_, [], rfl, s1, hd 1 2 _ _ _ _,
          ⟨valid D 1 _ 20 5 _ _ 7 (by decide) (by decide), rfl, redelOk D _ _ r1⟩, rfl⟩, redelOk D _ _ r2⟩, rfl⟩, redelOk D _ _ r3⟩⟩
  exact ⟨_, .ofToken fuel _ (Prod.ext h rfl)⟩

/-! ## A semantics for mail -/

/-- Resources `mailto:…`, abilities `msg/send`, `m/1` and `m/2`, from weakest to strongest. -/
def mailSem : Semantics String Nat where
  parseScope u := if u.scheme = "mailto" then some u.path else none
  parseAction a := if a = "m/1" then some 1 else if a = "m/2" then some 2 else if a = "msg/send" then some 0 else none
  scopeStr s := "mailto:" ++ s
  actionStr a := if a = 0 then "msg/send" else if a = 1 then "m/1" else "m/2"
  contains s t := decide (s = t)
  ge a b := decide (b ≤ a)

theorem mailSem_lawful : Lawful mailSem where
  containsRefl s := by simp [mailSem]
  containsTrans s t u := by simp only [mailSem, decide_eq_true_eq]; exact Eq.trans
  geRefl s := by simp [mailSem]
  geTrans a b c := by simp only [mailSem, decide_eq_true_eq]; omega

/-- A view of the mail semantics with an empty caveat. -/
def mail (s : String) (a : Nat) : View String Nat := ⟨.resource (.scoped s), a, .obj []⟩
def mailAll (a : Nat) : View String Nat := ⟨.resource .unscoped, a, .obj []⟩

def capA : Capabilities := capsOf [("mailto:a@b", ["m/1"])]
def capB : Capabilities := capsOf [("mailto:*", ["m/1"]), ("mailto:a@b", ["m/1"])]
def capC : Capabilities := capsOf [("mailto:c@d", ["m/1"])]

theorem capA_plain : Plain capA := ⟨by unfold BMap.Sorted; decide, by unfold BMap.Sorted; decide, by decide⟩
theorem capB_plain : Plain capB := ⟨by unfold BMap.Sorted; decide, by unfold BMap.Sorted; decide, by decide⟩
theorem capC_plain : Plain capC := ⟨by unfold BMap.Sorted; decide, by unfold BMap.Sorted; decide, by decide⟩
theorem capA_noRedel : NoRedel capA := by unfold NoRedel; decide
theorem capB_noRedel : NoRedel capB := by unfold NoRedel; decide
theorem capC_noRedel : NoRedel capC := by unfold NoRedel; decide

theorem escalation_reduce (D : Deps) : reduce D mailSem (chain3 D capA capB capC) = .ok [⟨[did 1, did 2], some 5, some 20, mail "c@d" 1⟩] := rfl

theorem sub3 {D : Deps} {c1 c2 c3 : Capabilities} {d : Chain} (h : Sub d (chain3 D c1 c2 c3)) :
    d = chain3 D c1 c2 c3 ∨ d = .mk (tok2 D c2) [.mk (tok1 D c1) [] []] [] ∨ d = .mk (tok1 D c1) [] [] := by
  have inv : ∀ {d e : Chain}, Sub d e → d = e ∨ ∃ f ∈ e.proofs, Sub d f := by
    intro d e h
    cases h with
    | self => exact Or.inl rfl
    | proof hf hs => exact Or.inr ⟨_, hf, hs⟩
  rcases inv h with h | ⟨f, hf, h⟩
  · exact Or.inl h
  · obtain rfl : f = .mk (tok2 D c2) [.mk (tok1 D c1) [] []] [] := by simpa [chain3, Chain.proofs] using hf
    rcases inv h with h | ⟨f, hf, h⟩
    · exact Or.inr (Or.inl h)
    · obtain rfl : f = .mk (tok1 D c1) [] [] := by simpa [Chain.proofs] using hf
      rcases inv h with h | ⟨f, hf, _⟩
      · exact Or.inr (Or.inr h)
      · simp [Chain.proofs] at hf

/-- Beside C27, C28, C29, C30, C32 and C33: the redelegated grant is reported with its originator and the bounds of the redelegation. -/
theorem redelegated_reduce (D : Deps) : reduce D mailSem (chain D) = .ok [⟨[did 1], some 6, some 10, mail "a@b" 0⟩] := rfl

/-- Beside C33: the root token claims nothing but a redelegation, and offers what the redelegated token claims. -/
example (D : Deps) : TokenOffers D mailSem (Holds (env D)) (root D) (mail "a@b" 0) :=
  .redelegated 0 (cid 1).toStr ((root_redel D 0).2 rfl) rfl (leaf_resolves D) (.claim ⟨[], ⟨"mailto:a@b", "msg/send", .obj []⟩, [], rfl, by simp, rfl⟩)

example (D : Deps) : Offers D mailSem (chain D) (mail "a@b" 0) := C28_offered D mailSem _ _ (redelegated_reduce D) _ (List.mem_singleton.2 rfl)
example (D : Deps) : Granted D mailSem (chain D) (mail "a@b" 0) (did 1) :=
  C32_sole_granted D mailSem mailSem_lawful _ _ (redelegated_reduce D) _ (List.mem_singleton.2 rfl) _ rfl

/-- Beside C31, C32 and C33: a capability passed through three tokens. -/
theorem passed_reduce (D : Deps) : reduce D mailSem (chain3 D capA capA capA) = .ok [⟨[did 1], some 5, some 20, mail "a@b" 1⟩] := rfl

theorem passed_separate (D : Deps) : Separate D mailSem (chain3 D capA capA capA) := by
  have claimed : ∀ u : Ucan, u.payload.cap = capA → ∀ v, Claimed D mailSem u v → v = mail "a@b" 1 := by
    rintro u hu v ⟨pre, c, post, e, _, hp⟩
    have hc : c ∈ u.payload.cap.iter := by rw [e]; simp
    rw [hu] at hc
    have : c = ⟨"mailto:a@b", "m/1", .obj []⟩ := by simpa [capA, capsOf, Capabilities.iter] using hc
    subst this
    exact (Option.some.inj hp).symm
  have offers : ∀ d v, Sub d (chain3 D capA capA capA) → Offers D mailSem d v → v = mail "a@b" 1 := by
    intro d v hd ho
    have : d.redel = [] ∧ d.ucan.payload.cap = capA := by
      rcases sub3 hd with rfl | rfl | rfl <;> exact ⟨rfl, rfl⟩
    cases ho with
    | claim h => exact claimed _ this.2 _ h
    | redelegated k hk => rw [this.1] at hk; cases hk
  intro d hd v v' hv hv' _
  rw [offers d v hd hv, offers d v' hd hv']

example (D : Deps) : Granted D mailSem (chain3 D capA capA capA) (mail "a@b" 1) (did 1) :=
  (C31_exact_partial D mailSem _ (passed_separate D) _ (passed_reduce D) _ _).1 ⟨_, List.mem_singleton.2 rfl, rfl, List.mem_singleton.2 rfl⟩

def capHidden : Capabilities := capsOf [("data:x", ["m/1"]), ("mailto:a@b", ["m/1"])]
def capTwo : Capabilities := capsOf [("mailto:a@b", ["m/1", "m/2"])]
def capLast : Capabilities := capsOf [("mailto:a@b", ["m/1"]), ("xdata:x", ["m/1"])]

theorem capHidden_plain : Plain capHidden := ⟨by unfold BMap.Sorted; decide, by unfold BMap.Sorted; decide, by decide⟩
theorem capHidden_noRedel : NoRedel capHidden := by unfold NoRedel; decide
theorem capTwo_plain : Plain capTwo := ⟨by unfold BMap.Sorted; decide, by unfold BMap.Sorted; decide, by decide⟩
theorem capTwo_noRedel : NoRedel capTwo := by unfold NoRedel; decide

/-- A semantics that replaces `parse_capability`: it reads claims about one address, without caveats, and nothing else. -/
def picky : Semantics String Nat :=
  { mailSem with overridden := some fun c => if c.resource = "mailto:a@b" ∧ c.caveat = .obj [] then some (mail "a@b" 2) else none }

/-- Beside C28 and C33: the reports are in terms of what such a semantics reads. -/
example (D : Deps) : Lawful picky ∧ reduce D picky (chain3 D capA capB capC) = .ok [] ∧
    reduce D picky (chain3 D capA capA capA) = .ok [⟨[did 1], some 5, some 20, mail "a@b" 2⟩] :=
  ⟨⟨mailSem_lawful.1, mailSem_lawful.2, mailSem_lawful.3, mailSem_lawful.4⟩, rfl, rfl⟩

/-- Beside C34 (partial): a foreign claim that sorts last does no harm. -/
example (D : Deps) : ∃ out, reduce D mailSem (.mk (tok1 D capLast) [] []) = .ok out ∧ ∃ i ∈ out, CoveredBy mailSem i.capability (mail "a@b" 1) := by
  refine ⟨_, rfl, C34_foreign_last_partial D mailSem mailSem_lawful (.mk (tok1 D capLast) [] []) _ rfl [⟨"mailto:a@b", "m/1", .obj []⟩]
    [⟨"xdata:x", "m/1", .obj []⟩] rfl ?_ ?_ _ ⟨⟨"mailto:a@b", "m/1", .obj []⟩, List.mem_cons_self, rfl⟩⟩
  · intro x hx
    rw [List.mem_singleton.1 hx]
    show some (mail "a@b" 1) ≠ none
    simp
  · intro x hx
    rw [List.mem_singleton.1 hx]
    rfl

end Ex

open Spec Chain Reduce Ex

/-- C31 is violated: in a constructed chain, an identity is listed as originator of a capability though nothing it claimed covers it.
Key 2 claims all mail for itself and passes on one address from key 1; key 3 then uses another address. -/
theorem C31_escalation (D : Deps) : ∃ (E : Env) (w w' : World) (c : Chain) (out : List (Info String Nat)), Coherent w.parser ∧ Built D E none w w' c ∧
    Lawful mailSem ∧ reduce D mailSem c = .ok out ∧
    ∃ i ∈ out, ∃ o ∈ i.originators, ¬ Granted D mailSem c i.capability o ∧
      ∀ d, Sub d c → d.ucan.payload.iss = o → ∀ v, Claimed D mailSem d.ucan v → ¬ CoveredBy mailSem v i.capability := by
  obtain ⟨w', hb⟩ := built3 D capA_plain capB_plain capC_plain capA_noRedel capB_noRedel capC_noRedel
  have key : ∀ d, Sub d (chain3 D capA capB capC) → d.ucan.payload.iss = did 1 → ∀ v, Claimed D mailSem d.ucan v →
      ¬ CoveredBy mailSem v (mail "c@d" 1) := by
    intro d hd hi v hv
    rcases sub3 hd with rfl | rfl | rfl
    · exact absurd hi (by show ¬ did 3 = did 1; decide +kernel)
    · exact absurd hi (by show ¬ did 2 = did 1; decide +kernel)
    · obtain ⟨pre, c, post, e, _, hp⟩ := hv
      have hc : c ∈ capA.iter := by
        have : c ∈ (tok1 D capA).payload.cap.iter := by
          rw [show (tok1 D capA).payload.cap.iter = _ from e]; simp
        exact this
      have : c = ⟨"mailto:a@b", "m/1", .obj []⟩ := by simpa [capA, capsOf, Capabilities.iter] using hc
      subst this
      have : v = mail "a@b" 1 := (Option.some.inj hp).symm
      subst this
      show ¬ (mail "a@b" 1 = mail "c@d" 1 ∨ mailSem.enables (mail "a@b" 1) (mail "c@d" 1) = true)
      decide
  refine ⟨_, world, w', _, _, world_coherent, hb, mailSem_lawful, escalation_reduce D, _, List.mem_singleton.2 rfl, did 1, by simp, ?_, key⟩
  intro hg
  obtain ⟨d, hd, he, v', hv', hcov⟩ := C32_flow_origin D mailSem (enablesTrans_of_lawful mailSem_lawful) (granted_flows D mailSem _ _ _ hg)
  exact key d hd he v' hv' hcov

/-- C34 is violated: a claim of another semantics hides one that the semantics understands. -/
theorem C34_hidden (D : Deps) : ∃ (E : Env) (w w' : World) (c : Chain) (v : View String Nat), Coherent w.parser ∧ Built D E none w w' c ∧
    ClaimedAnywhere D mailSem c.ucan v ∧ reduce D mailSem c = .ok [] := by
  obtain ⟨w', hb⟩ := built_leaf D 1 (did 2) capHidden_plain capHidden_noRedel
  exact ⟨_, world, w', _, mail "a@b" 1, world_coherent, hb, ⟨⟨"mailto:a@b", "m/1", .obj []⟩, List.mem_cons_of_mem _ List.mem_cons_self, rfl⟩, rfl⟩

/-- C35 is violated in full: a report is listed beside a broader one, from the same token. -/
theorem C35_redundant (D : Deps) : ∃ (E : Env) (w w' : World) (c : Chain) (i j : Info String Nat), Coherent w.parser ∧ Built D E none w w' c ∧
    reduce D mailSem c = .ok [i, j] ∧ mailSem.enables i.capability j.capability = true ∧ i.originators = j.originators := by
  obtain ⟨w', hb⟩ := built_leaf D 1 (did 2) capTwo_plain capTwo_noRedel
  exact ⟨_, world, w', _, ⟨[did 1], some 5, some 20, mail "a@b" 2⟩, ⟨[did 1], some 5, some 20, mail "a@b" 1⟩, world_coherent, hb, rfl, rfl, rfl⟩

end Verif
