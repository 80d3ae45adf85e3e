import Verif.Spec.Own
import Verif.Props.Malformed

/-! # C131: resources of one's own -/

namespace Verif
open Spec Chain Reduce

variable {S A : Type}

theorem Own.enables_form {sem : Semantics S A} {a b : View S A} (h : sem.enables a b = true) : form a.resource = form b.resource := by
  have hc : a.resource.contains sem.contains b.resource = true := by
    unfold Semantics.enables at h
    split at h
    · simp only [Bool.and_eq_true] at h
      exact h.1.1
    · cases h
  exact ((C14_contains_iff _ _ _).1 hc).1

/-- C131 (partial): on the way from token to token, resources do not change between own and named ones: whoever a capability is reported for claimed, in a token of
theirs, a capability of the same form. Missing: that the resources are those of the issuer of the token that claims them, which `C131_violated` refutes. -/
theorem C131_form_partial (D : Deps) (sem : Semantics S A) (c : Chain) (out : List (Info S A)) (h : reduce D sem c = .ok out) (i : Info S A) (hi : i ∈ out) (o : String)
    (ho : o ∈ i.originators) : ∃ d, Sub d c ∧ d.ucan.payload.iss = o ∧ ∃ v, Claimed D sem d.ucan v ∧ form v.resource = form i.capability.resource :=
  C31_confined D sem c (fun v => form v.resource = form i.capability.resource)
    (fun _ _ _ _ _ _ _ _ he => by rw [Own.enables_form he]) out h i hi rfl o ho

/-- C131 (partial): so they are reported for their owner if nobody else in the chain claims resources of their own. -/
theorem C131_sole_partial (D : Deps) (sem : Semantics S A) (c : Chain) (out : List (Info S A)) (h : reduce D sem c = .ok out) (i : Info S A) (hi : i ∈ out)
    (hm : OwnResource i.capability) (owner : String) (hs : OnlyOwner D sem c owner) (o : String) : o ∈ i.originators ↔ o = owner := by
  have hall : ∀ o ∈ i.originators, o = owner := by
    intro o ho
    obtain ⟨d, hd, e, v, hv, hf⟩ := C131_form_partial D sem c out h i hi o ho
    rw [← e]
    exact hs d hd v hv (hf.trans hm)
  refine ⟨hall o, ?_⟩
  rintro rfl
  obtain ⟨o', ho'⟩ := C30_nonempty D sem c out h i hi
  rwa [← hall o' ho']

/-- C131: where the scopes are bound to a scheme, own resources are granted as a whole or not at all: a claim to part of them is not understood. -/
theorem C131_whole (D : Deps) (sem : Semantics S A) (hd : sem.overridden = none) (scheme : S → String) (hb : SchemeBound sem scheme) (hn : ∀ s, scheme s ≠ "my")
    (c : Capability) (v : View S A) (h : sem.parseCapability D c = some v) (hm : OwnResource v) : v.resource = .my .unscoped := by
  obtain ⟨u, _, h⟩ := Semantics.parse_resource hd h
  unfold OwnResource at hm
  rcases h with ⟨hs, k, hk, e⟩ | ⟨_, d, k, e⟩ | ⟨_, _, k, _, e⟩
  · rw [e]
    cases k with
    | unscoped => rfl
    | «scoped» s =>
      unfold Semantics.parseResource at hk
      split at hk
      · cases hk
      · obtain ⟨s', hs', e'⟩ := Option.map_eq_some_iff.1 hk
        cases e'
        exact absurd ((hb.parsed u s hs').symm.trans hs) (hn s)
  · rw [e] at hm; cases hm
  · rw [e] at hm; cases hm

/-- C131: that is so for the semantics that come with the crate. -/
theorem C131_fixtures (D : Deps) (c : Capability) :
    (∀ v, Fixtures.emailSemantics.parseCapability D c = some v → OwnResource v → v.resource = .my .unscoped) ∧
    (∀ v, Fixtures.wnfsSemantics.parseCapability D c = some v → OwnResource v → v.resource = .my .unscoped) :=
  ⟨fun v h hm => C131_whole D _ rfl _ email_bound (fun _ => by decide) c v h hm, fun v h hm => C131_whole D _ rfl _ wnfs_bound (fun _ => by decide) c v h hm⟩

namespace Ex

def capMy : Capabilities := capsOf [("my:*", ["m/1"])]
theorem capMy_plain : Plain capMy := ⟨by unfold BMap.Sorted; decide, by unfold BMap.Sorted; decide, by decide⟩
theorem capMy_noRedel : NoRedel capMy := by unfold NoRedel; decide
def mailMy (a : Nat) : View String Nat := ⟨.my .unscoped, a, .obj []⟩

end Ex
open Ex

/-- C131 is violated: keys 1, 2 and 3 each claim what is their own, and reported are the resources of key 1, not those of key 3 whose token is presented; so key 2, who
granted its own resources to key 3, has handed on those of key 1. -/
theorem C131_violated (D : Deps) : ∃ (E : Env) (w w' : World) (c : Chain), Coherent w.parser ∧ Built D E none w w' c ∧ Lawful mailSem ∧
    Claimed D mailSem c.ucan (mailMy 1) ∧ OwnResource (mailMy 1) ∧ c.ucan.payload.iss = did 3 ∧
    reduce D mailSem c = .ok [⟨[did 1], some 5, some 20, mailMy 1⟩] := by
  obtain ⟨w', hb⟩ := built3 D capMy_plain capMy_plain capMy_plain capMy_noRedel capMy_noRedel capMy_noRedel
  exact ⟨_, world, w', _, world_coherent, hb, mailSem_lawful, ⟨[], ⟨"my:*", "m/1", .obj []⟩, [], rfl, by simp, rfl⟩, rfl, rfl, rfl⟩

namespace Ex

/-- Beside C131: where only key 3 claims its own, that is reported for key 3. -/
example (D : Deps) : ∃ w', Built D (still (dags3 D capA capA) 7) none world w' (chain3 D capA capA capMy) ∧
    reduce D mailSem (chain3 D capA capA capMy) = .ok [⟨[did 3], some 5, some 20, mailMy 1⟩] ∧ OnlyOwner D mailSem (chain3 D capA capA capMy) (did 3) := by
  obtain ⟨w', hb⟩ := built3 D capA_plain capA_plain capMy_plain capA_noRedel capA_noRedel capMy_noRedel
  refine ⟨w', hb, rfl, ?_⟩
  have claimed : ∀ u : Ucan, u.payload.cap = capA → ∀ v, Claimed D mailSem u v → v = mail "a@b" 1 := by
    rintro u hu v ⟨pre, c, post, e, _, hp⟩
    have hc : c ∈ u.payload.cap.iter := by rw [e]; simp
    rw [hu] at hc
    have : c = ⟨"mailto:a@b", "m/1", .obj []⟩ := by simpa [capA, capsOf, Capabilities.iter] using hc
    subst this
    exact (Option.some.inj hp).symm
  intro d hd v hv hm
  rcases sub3 hd with rfl | rfl | rfl
  · rfl
  · rw [claimed _ rfl v hv] at hm; cases hm
  · rw [claimed _ rfl v hv] at hm; cases hm

end Ex
end Verif
