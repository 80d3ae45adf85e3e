import Verif.Props.EndToEnd
import Verif.Props.Fixtures
import Verif.Spec.Views

/-! # Property C89: claiming more never grants less -/

namespace Verif
open Spec Chain Reduce EndToEnd
open Builder (Op)

variable {S A : Type}

namespace Views

theorem keyLe_not_lt {c d : Capability} (h : KeyLe c d) : ¬ KeyLt d c := by
  rintro (h' | ⟨e, h'⟩)
  · rcases h with h | ⟨e, _⟩
    · have := OrdKey.trans h h'
      rw [OrdKey.irrefl] at this
      cases this
    · rw [e, OrdKey.irrefl] at h'
      cases h'
  · rcases h with h | ⟨_, h | h⟩
    · rw [e, OrdKey.irrefl] at h
      cases h
    · have := OrdKey.trans h h'
      rw [OrdKey.irrefl] at this
      cases this
    · rw [h, OrdKey.irrefl] at h'
      cases h'

theorem keyLt_or {c d : Capability} : KeyLt c d ∨ KeyLe d c := by
  unfold KeyLt KeyLe
  cases h1 : OrdKey.lt c.resource d.resource
  · cases h2 : OrdKey.lt d.resource c.resource
    · have e := OrdKey.tri h1 h2
      cases h3 : OrdKey.lt c.ability d.ability
      · cases h4 : OrdKey.lt d.ability c.ability
        · exact Or.inr (Or.inr ⟨e.symm, Or.inr (OrdKey.tri h4 h3)⟩)
        · exact Or.inr (Or.inr ⟨e.symm, Or.inl rfl⟩)
      · exact Or.inl (Or.inr ⟨e, rfl⟩)
    · exact Or.inr (Or.inl rfl)
  · exact Or.inl (Or.inl rfl)

/-- Whether a claim is understood depends on its resource and its ability only. -/
theorem parse_none {D : Deps} {sem : Semantics S A} (hd : sem.overridden = none) {c d : Capability} (hr : c.resource = d.resource) (ha : c.ability = d.ability)
    (h : sem.parseCapability D c = none) : sem.parseCapability D d = none := by
  rw [Semantics.parseCapability_default hd] at *
  unfold Semantics.parse at *
  rw [hr, ha] at h
  cases h1 : sem.resourceOf D d.resource with
  | none => rfl
  | some r =>
    cases h2 : sem.parseAction d.ability with
    | none => rfl
    | some a => rw [h1, h2] at h; cases h

theorem calls_iter {D : Deps} {ops : List Op} {u : Ucan} (hl : ops.length < 2 ^ 64) (h : FromCalls D ops u) :
    u.payload.cap.iter.Perm (claimed 0 ops) ∧ u.payload.cap.iter.Pairwise KeyLe := by
  obtain ⟨E, checked, w, w', s, rnd, hb, hs⟩ := h
  obtain ⟨_, _, hcap, _⟩ := C51_built D E checked ops hl w w' s hb
  have hc := (ucanPayload_ok (sign_ok hs).1).2.1
  exact ⟨hcap ▸ C16_permutation hc, C16_ordered hc⟩

end Views
open Views

/-- C89: exactly what a recipient understands of a token, in terms of the calls that made it and whatever their order: the claims that the semantics understands
and whose resource and ability come before those of every claim that it does not understand. -/
theorem C89_exact (D : Deps) (sem : Semantics S A) (hd : sem.overridden = none) (ops : List Op) (u : Ucan) (hl : ops.length < 2 ^ 64) (h : FromCalls D ops u) (v : View S A) :
    Claimed D sem u v ↔
      ∃ c ∈ claimed 0 ops, sem.parseCapability D c = some v ∧ ∀ x ∈ claimed 0 ops, sem.parseCapability D x = none → KeyLt c x := by
  obtain ⟨hp, ho⟩ := calls_iter hl h
  constructor
  · rintro ⟨pre, c, post, e, hpre, hc⟩
    refine ⟨c, hp.mem_iff.1 (by rw [e]; simp), hc, fun x hx hn => ?_⟩
    have hx := hp.mem_iff.2 hx
    rw [e] at hx ho
    rcases List.mem_append.1 hx with hx | hx
    · exact absurd hn (hpre x hx)
    · rcases List.mem_cons.1 hx with rfl | hx
      · rw [hn] at hc; cases hc
      · have hle : KeyLe c x := (List.pairwise_cons.1 (List.pairwise_append.1 ho).2.1).1 x hx
        rcases hle with h1 | ⟨e1, h1 | e2⟩
        · exact Or.inl h1
        · exact Or.inr ⟨e1, h1⟩
        · rw [parse_none hd e1.symm e2.symm hn] at hc; cases hc
  · rintro ⟨c, hc, hv, hb⟩
    obtain ⟨pre, post, e⟩ := List.append_of_mem (hp.mem_iff.2 hc)
    refine ⟨pre, c, post, e, fun x hx hn => ?_, hv⟩
    have hle : KeyLe x c := by
      rw [e] at ho
      exact (List.pairwise_append.1 ho).2.2 x hx c (by simp)
    exact keyLe_not_lt hle (hb x (hp.mem_iff.1 (by rw [e]; simp [hx])) hn)

/-- C89: claims made with typed views that survive their text (C20 says which do) are exactly what a recipient with the same semantics understands. -/
theorem C89_views (D : Deps) (sem : Semantics S A) (hd : sem.overridden = none) (ops : List Op) (u : Ucan) (hl : ops.length < 2 ^ 64) (h : FromCalls D ops u) (vs : List (View S A))
    (hc : claimed 0 ops = vs.map sem.toCapability) (hs : ∀ v ∈ vs, sem.parseCapability D (sem.toCapability v) = some v) (v : View S A) :
    Claimed D sem u v ↔ v ∈ vs := by
  rw [C89_exact D sem hd ops u hl h, hc]
  constructor
  · rintro ⟨c, hc, hv, _⟩
    obtain ⟨x, hx, rfl⟩ := List.mem_map.1 hc
    rw [hs x hx] at hv
    cases hv
    exact hx
  · intro hv
    refine ⟨_, List.mem_map_of_mem hv, hs v hv, fun x hx hn => ?_⟩
    obtain ⟨y, hy, rfl⟩ := List.mem_map.1 hx
    rw [hs y hy] at hn
    cases hn

/-- C89: exactly what one more claim does: if it is understood, nothing is lost; if it is not, what does not come before it is lost. -/
theorem C89_one_more (D : Deps) (sem : Semantics S A) (hd : sem.overridden = none) (ops : List Op) (x : Capability) (u u' : Ucan) (hl : ops.length + 1 < 2 ^ 64) (h : FromCalls D ops u)
    (h' : FromCalls D (ops ++ [.claimingCapability x]) u') :
    (∀ y, sem.parseCapability D x = some y → ∀ v, Claimed D sem u' v ↔ Claimed D sem u v ∨
      (v = y ∧ ∀ z ∈ claimed 0 ops, sem.parseCapability D z = none → KeyLt x z)) ∧
    (sem.parseCapability D x = none → ∀ v, Claimed D sem u' v ↔ ∃ c ∈ claimed 0 ops, sem.parseCapability D c = some v ∧ KeyLt c x ∧
      ∀ z ∈ claimed 0 ops, sem.parseCapability D z = none → KeyLt c z) := by
  have hc : claimed 0 (ops ++ [.claimingCapability x]) = claimed 0 ops ++ [x] := by
    rw [claimed_append]
    rfl
  refine ⟨fun y hy v => ?_, fun hn v => ?_⟩
  · rw [C89_exact D sem hd _ u' (by simpa using hl) h', C89_exact D sem hd ops u (by omega) h, hc]
    constructor
    · rintro ⟨c, hc, hv, hb⟩
      rcases List.mem_append.1 hc with hc | hc
      · exact Or.inl ⟨c, hc, hv, fun z hz => hb z (by simp [hz])⟩
      · cases List.mem_singleton.1 hc
        rw [hy] at hv
        cases hv
        exact Or.inr ⟨rfl, fun z hz => hb z (by simp [hz])⟩
    · have hx : ∀ (c : Capability), (∀ z ∈ claimed 0 ops, sem.parseCapability D z = none → KeyLt c z) →
          ∀ z ∈ claimed 0 ops ++ [x], sem.parseCapability D z = none → KeyLt c z := by
        intro c hb z hz hzn
        rcases List.mem_append.1 hz with hz | hz
        · exact hb z hz hzn
        · cases List.mem_singleton.1 hz
          rw [hy] at hzn
          cases hzn
      rintro (⟨c, hc, hv, hb⟩ | ⟨rfl, hb⟩)
      · exact ⟨c, by simp [hc], hv, hx c hb⟩
      · exact ⟨x, by simp, hy, hx x hb⟩
  · rw [C89_exact D sem hd _ u' (by simpa using hl) h', hc]
    constructor
    · rintro ⟨c, hc, hv, hb⟩
      rcases List.mem_append.1 hc with hc | hc
      · exact ⟨c, hc, hv, hb x (by simp) hn, fun z hz => hb z (by simp [hz])⟩
      · cases List.mem_singleton.1 hc
        rw [hn] at hv
        cases hv
    · rintro ⟨c, hc, hv, hx, hb⟩
      refine ⟨c, by simp [hc], hv, fun z hz hzn => ?_⟩
      rcases List.mem_append.1 hz with hz | hz
      · exact hb z hz hzn
      · cases List.mem_singleton.1 hz
        exact hx

/-- C89 (partial): as long as the further claims are understood, further calls take nothing away. The full claim, for all calls, is refuted by `C89_wildcard`
and `C89_delegating`. -/
theorem C89_grows_partial (D : Deps) (sem : Semantics S A) (hd : sem.overridden = none) (ops more : List Op) (u u' : Ucan) (hl : (ops ++ more).length < 2 ^ 64) (h : FromCalls D ops u)
    (h' : FromCalls D (ops ++ more) u') (hm : ∀ x ∈ claimed (ops.filterMap proofCall).length more, sem.parseCapability D x ≠ none) (v : View S A)
    (hv : Claimed D sem u v) : Claimed D sem u' v := by
  rw [List.length_append] at hl
  obtain ⟨c, hc, hcv, hb⟩ := (C89_exact D sem hd ops u (by omega) h v).1 hv
  refine (C89_exact D sem hd _ u' (by simpa using hl) h' v).2 ⟨c, ?_, hcv, fun x hx hn => ?_⟩
  · rw [claimed_append]
    simp [hc]
  · rw [claimed_append, Nat.zero_add] at hx
    rcases List.mem_append.1 hx with hx | hx
    · exact hb x hx hn
    · exact absurd hn (hm x hx)

/-- C89 is violated: whoever claims everything, with a view without a scope, claims nothing: the text of this view is not understood, and it comes before all
resources that start with a letter. -/
theorem C89_wildcard (D : Deps) (sem : Semantics S A) (hd : sem.overridden = none) (ops : List Op) (a : A) (u' : Ucan) (hl : ops.length + 1 < 2 ^ 64)
    (hc : ∀ c ∈ claimed 0 ops, ∃ b t, strBytes c.resource = b :: t ∧ Url.isAlpha b = true)
    (h' : FromCalls D (ops ++ [.claimingCapability (sem.toCapability (View.new (.resource .unscoped) a))]) u') (v : View S A) :
    ¬ Claimed D sem u' v := by
  intro hv
  have hn : sem.parseCapability D (sem.toCapability (View.new (.resource .unscoped) a)) = none := C20_wildcard_lost D sem hd a _
  obtain ⟨c, hcm, hcv, hb⟩ := (C89_exact D sem hd _ u' (by simpa using hl) h' v).1 hv
  have hcl : claimed 0 (ops ++ [.claimingCapability (sem.toCapability (View.new (.resource .unscoped) a))]) =
      claimed 0 ops ++ [sem.toCapability (View.new (.resource .unscoped) a)] := by
    rw [claimed_append]
    rfl
  rw [hcl] at hcm hb
  rcases List.mem_append.1 hcm with hcm | hcm
  · obtain ⟨b, t, e, hal⟩ := hc c hcm
    have hstar : strBytes "*" = [42] := by decide +kernel
    have hgt : ∀ b : UInt8, Url.isAlpha b = true → ¬ b < 42 ∧ b ≠ 42 := forall_uint8 (P := fun b => Url.isAlpha b = true → ¬ b < 42 ∧ b ≠ 42) (by decide +kernel)
    have hr : (sem.toCapability (View.new (.resource .unscoped) a)).resource = "*" := rfl
    rcases hb _ (by simp) hn with h1 | ⟨h1, _⟩
    · rw [hr] at h1
      have h1 : bytesLt (strBytes c.resource) (strBytes "*") = true := h1
      rw [e, hstar] at h1
      simp [bytesLt, hgt b hal] at h1
    · rw [hr] at h1
      rw [h1, hstar] at e
      cases e
      exact (hgt _ hal).2 rfl
  · cases List.mem_singleton.1 hcm
    rw [hn] at hcv
    cases hcv

open Fixtures

theorem Views.wnfs_prf (D : Deps) (n : Nat) : wnfsSemantics.parseCapability D (delegation n) = none := by
  rw [Semantics.parseCapability_default rfl]
  unfold Semantics.parse
  have h : wnfsSemantics.parseAction "ucan/DELEGATE" = none := by decide +kernel
  have h : wnfsSemantics.parseAction (delegation n).ability = none := h
  cases wnfsSemantics.resourceOf D (delegation n).resource with
  | none => rfl
  | some r => simp only [h]

/-- C89 is violated: whoever makes claims about their own WNFS and then delegates from a token they hold, has claimed nothing of their own. -/
theorem C89_delegating (D : Deps) (ops : List Op) (vs : List (View WnfsScope WnfsLevel)) (hc : claimed 0 ops = vs.map wnfsSemantics.toCapability)
    (hs : ∀ v ∈ vs, ∃ s, v.resource = .resource (.scoped s)) (authority : Ucan) (hasher : Option UInt64) (u' : Ucan) (hl : ops.length + 1 < 2 ^ 64)
    (h' : FromCalls D (ops ++ [.delegatingFrom authority hasher]) u') (v : View WnfsScope WnfsLevel) : ¬ Claimed D wnfsSemantics u' v := by
  intro hv
  obtain ⟨c, hcm, hcv, hb⟩ := (C89_exact D wnfsSemantics rfl _ u' (by simpa using hl) h' v).1 hv
  have hcl : claimed 0 (ops ++ [.delegatingFrom authority hasher]) = vs.map wnfsSemantics.toCapability ++ [delegation (ops.filterMap proofCall).length] := by
    rw [claimed_append, hc, Nat.zero_add]
    rfl
  rw [hcl] at hcm hb
  rcases List.mem_append.1 hcm with hcm | hcm
  · obtain ⟨x, hx, rfl⟩ := List.mem_map.1 hcm
    obtain ⟨s, hs⟩ := hs x hx
    have hr : ∃ t, strBytes (wnfsSemantics.toCapability x).resource = 119 :: t := by
      obtain ⟨r, a, k⟩ := x
      cases hs
      refine ⟨strBytes "nfs://" ++ strBytes s.origin ++ strBytes s.path, ?_⟩
      show strBytes ("wnfs://" ++ s.origin ++ s.path) = _
      rw [strBytes_append, strBytes_append]
      have : strBytes "wnfs://" = 119 :: strBytes "nfs://" := by decide +kernel
      rw [this]
      rfl
    have hd : ∀ n, ∃ t, strBytes (delegation n).resource = 112 :: t := by
      intro n
      refine ⟨strBytes "rf:" ++ strBytes (asciiStr (Json.decBytes n)), ?_⟩
      show strBytes ("prf:" ++ asciiStr (Json.decBytes n)) = _
      rw [strBytes_append]
      have : strBytes "prf:" = 112 :: strBytes "rf:" := by decide +kernel
      rw [this]
      rfl
    obtain ⟨t, e⟩ := hr
    obtain ⟨t', e'⟩ := hd (ops.filterMap proofCall).length
    rcases hb (delegation (ops.filterMap proofCall).length) (by simp) (Views.wnfs_prf D _) with h1 | ⟨h1, _⟩
    · have h1 : bytesLt (strBytes (wnfsSemantics.toCapability x).resource) (strBytes (delegation (ops.filterMap proofCall).length).resource) = true := h1
      rw [e, e'] at h1
      have h2 : ¬ ((119 : UInt8) < 112) := by decide
      have h3 : ((119 : UInt8) == 112) = false := by decide
      simp [bytesLt, h2, h3] at h1
    · rw [h1, e'] at e
      cases e
  · cases List.mem_singleton.1 hcm
    rw [Views.wnfs_prf] at hcv
    cases hcv

/-- C89: and then nothing is reported of such a token but what its proofs granted. -/
theorem C89_delegating_report (D : Deps) (ops : List Op) (vs : List (View WnfsScope WnfsLevel)) (hc : claimed 0 ops = vs.map wnfsSemantics.toCapability)
    (hs : ∀ v ∈ vs, ∃ s, v.resource = .resource (.scoped s)) (authority : Ucan) (hasher : Option UInt64) (hl : ops.length + 1 < 2 ^ 64) (c : Chain)
    (h' : FromCalls D (ops ++ [.delegatingFrom authority hasher]) c.ucan) (out : List (Info WnfsScope WnfsLevel)) (hr : reduce D wnfsSemantics c = .ok out) :
    ∀ i ∈ out, ∃ p ∈ c.proofs, ∃ lp, reduce D wnfsSemantics p = .ok lp ∧ ∃ y ∈ lp, y.capability = i.capability := by
  intro i hi
  rcases C28_step D wnfsSemantics c out hr i hi with h | ⟨k, p, lp, y, _, hp, hlp, hy, e⟩
  · exact absurd h (C89_delegating D ops vs hc hs authority hasher _ hl h' _)
  · exact ⟨p, List.mem_of_getElem? hp, lp, hlp, y, hy, e⟩

/-- C89: a view made without a caveat enables everything that its resource and ability cover, whatever caveats it has. -/
theorem C89_no_caveat (sem : Semantics S A) (r : Resource S) (a : A) (v : View S A) :
    sem.enables (View.new r a) v = true ↔ r.contains sem.contains v.resource = true ∧ sem.ge a v.ability = true ∧ ∃ m, v.caveat = .obj m := by
  unfold Semantics.enables View.new
  cases hv : v.caveat <;> simp [Caveat.ofValue, Caveat.enables]

namespace Ex

def ownFiles : View WnfsScope WnfsLevel := View.new (.resource (.scoped ⟨"alice", "/public"⟩)) .create

def ownCalls : List Op := [.issuedBy (toyKey 1), .forAudience "did:key:z2", .claimingCapability (wnfsSemantics.toCapability ownFiles)]

theorem own_survives (D : Deps) : wnfsSemantics.parseCapability D (wnfsSemantics.toCapability ownFiles) = some ownFiles := by
  have hu : Url.parse D "wnfs://alice/public" = some ⟨"wnfs", "alice", "/public", none, none, "", none, none⟩ := rfl
  have hs : (wnfsSemantics.toCapability ownFiles).resource = "wnfs://alice/public" := by decide +kernel
  rw [Semantics.parseCapability_default rfl]
  rw [parse_eq_some]
  refine ⟨?_, by decide +kernel, rfl⟩
  rw [hs]
  unfold Semantics.resourceOf
  rw [hu]
  rfl

end Ex
open Ex

/-- C89 is violated: claiming everything in addition, or delegating in addition, takes away the claim that was there. -/
theorem C89_violated (D : Deps) (authority : Ucan) : ∃ (ops : List Op) (v : View WnfsScope WnfsLevel) (u u1 u2 : Ucan), FromCalls D ops u ∧ Claimed D wnfsSemantics u v ∧
    FromCalls D (ops ++ [.claimingCapability (wnfsSemantics.toCapability (View.new (.resource .unscoped) .superUser))]) u1 ∧ ¬ Claimed D wnfsSemantics u1 v ∧
    FromCalls D (ops ++ [.delegatingFrom authority none]) u2 ∧ ¬ Claimed D wnfsSemantics u2 v := by
  have h0 : ∃ u, FromCalls D ownCalls u := ⟨_, ⟨fun _ => 0, fun _ _ => .ok none⟩, true, ⟨0, ⟨[], []⟩⟩, ⟨0, ⟨[], []⟩⟩, _, [], rfl, rfl⟩
  have h1 : ∃ u, FromCalls D (ownCalls ++ [.claimingCapability (wnfsSemantics.toCapability (View.new (.resource .unscoped) .superUser))]) u :=
    ⟨_, ⟨fun _ => 0, fun _ _ => .ok none⟩, true, ⟨0, ⟨[], []⟩⟩, ⟨0, ⟨[], []⟩⟩, _, [], rfl, rfl⟩
  have h2 : ∃ u, FromCalls D (ownCalls ++ [.delegatingFrom authority none]) u := by
    have hst := C51_state D (ownCalls ++ [.delegatingFrom authority none]) (by simp [ownCalls])
    have hb : (Builder.run D (ownCalls ++ [.delegatingFrom authority none])).build ⟨fun _ => 0, fun _ _ => .ok none⟩ true ⟨0, ⟨[], []⟩⟩ =
        (.ok ⟨toyKey 1, "did:key:z2", [wnfsSemantics.toCapability ownFiles, delegation 0], none, none, [],
          references D (ownCalls ++ [.delegatingFrom authority none]), false⟩, ⟨0, ⟨[], []⟩⟩) := by
      rw [Builder.build_eq (k := toyKey 1) (a := "did:key:z2") hst.issuer hst.audience]
      unfold Builder.impliedExpiration
      rw [hst.expiration, hst.lifetime, hst.capabilities, hst.notBefore, hst.facts, hst.proofs, hst.addNonce]
      rfl
    exact ⟨_, _, _, _, _, _, [], hb, rfl⟩
  obtain ⟨u, h0⟩ := h0
  obtain ⟨u1, h1⟩ := h1
  obtain ⟨u2, h2⟩ := h2
  have hc : claimed 0 ownCalls = [ownFiles].map wnfsSemantics.toCapability := rfl
  refine ⟨ownCalls, ownFiles, u, u1, u2, h0, ?_, h1, ?_, h2, ?_⟩
  · refine (C89_views D wnfsSemantics rfl ownCalls u (by simp [ownCalls]) h0 [ownFiles] hc ?_ ownFiles).2 (by simp)
    intro v hv
    cases List.mem_singleton.1 hv
    exact own_survives D
  · refine C89_wildcard D wnfsSemantics rfl ownCalls .superUser u1 (by simp [ownCalls]) ?_ h1 ownFiles
    intro c hc
    cases List.mem_singleton.1 hc
    exact ⟨119, strBytes "nfs://alice/public", by decide +kernel, by decide⟩
  · refine C89_delegating D ownCalls [ownFiles] hc ?_ authority none u2 (by simp [ownCalls]) h2 ownFiles
    intro v hv
    cases List.mem_singleton.1 hv
    exact ⟨_, rfl⟩

end Verif
