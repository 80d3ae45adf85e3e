import Verif.Props.Escalate
import Verif.Props.Fixtures

/-! # C31: what every holder can have reported -/

namespace Verif
open Spec Chain Reduce Depends Fixtures

variable {S A : Type}

theorem parse_aStar (D : Deps) : ∃ u, Url.parse D "a:*" = some u ∧ u.scheme = "a" ∧ u.path = "*" := by
  refine ⟨_, rfl, ?_, ?_⟩ <;> rfl

/-- `a:*` is understood, by every semantics that does not replace `parse`, as all resources there are. -/
theorem aStar_view (D : Deps) (sem : Semantics S A) (ho : sem.overridden = none) (t : String) (a : A) (ha : sem.parseAction t = some a) :
    sem.parseCapability D ⟨"a:*", t, .obj []⟩ = some ⟨.resource .unscoped, a, .obj []⟩ := by
  obtain ⟨u, hu, hs, hpth⟩ := parse_aStar D
  rw [Semantics.parseCapability_default ho]
  simp [Semantics.parse, Semantics.resourceOf, hu, hs, hpth, Semantics.parseResource, ha, Semantics.parseCaveat]

/-- Claiming, before ability `t` on resource `r` under caveat `m`, ability `t'` on everything without caveat. -/
def overall (t' r t : String) (m : List (String × Json)) : Capabilities := [("a:*", [(t', [.obj []])]), (r, [(t, [.obj m])])]

/-- C31: under every semantics that leaves `parse` as it is, whoever holds a token that has an ability on some resource reported for anybody, under whatever caveat, can issue one
for which every greater ability, on all resources there are and without caveat, is reported for them: the text `a:*` is understood as all resources whatever the semantics, and comes before that of nearly
every other. -/
theorem C31_overall (D : Deps) (sem : Semantics S A) (ho : sem.overridden = none) (c p : Chain) (hp : c.proofs = [p]) (hr : c.redel = []) (lp : List (Info S A))
    (hlp : reduce D sem p = .ok lp) (j : Info S A) (hj : j ∈ lp) (r t t' : String) (m : List (String × Json)) (k : ResourceUri S) (a a' : A)
    (hv : sem.parseCapability D ⟨r, t, .obj m⟩ = some ⟨.resource k, a, .obj m⟩) (ha' : sem.parseAction t' = some a') (hge : sem.ge a' a = true)
    (hg : sem.enables j.capability ⟨.resource k, a, .obj m⟩ = true) (hcap : c.ucan.payload.cap = overall t' r t m) (out : List (Info S A)) (h : reduce D sem c = .ok out) :
    ∃ i, out = [i] ∧ i.capability = ⟨.resource .unscoped, a', .obj []⟩ ∧ ∀ o ∈ j.originators, o ∈ i.originators := by
  have hw := aStar_view D sem ho t' a' ha'
  have hu : understood D sem c.ucan = [⟨.resource .unscoped, a', .obj []⟩, ⟨.resource k, a, .obj m⟩] := by
    simp [understood, hcap, overall, Capabilities.iter, hw, hv]
  have he : sem.enables ⟨.resource .unscoped, a', .obj []⟩ ⟨.resource k, a, .obj m⟩ = true := by
    simp [Semantics.enables, Caveat.ofValue, Resource.contains, ResourceUri.contains, hge, Caveat.enables]
  obtain ⟨i, h1, h2, _, _, h3⟩ := C31_always D sem c p hp hr lp hlp j hj _ _ hu he hg out h
  exact ⟨i, h1, h2, h3⟩

/-- C31: and such a token can be written, if only the text of the resource granted comes after `a:*`, as that of every resource does whose scheme starts with a later letter. -/
theorem C31_overall_plain (t' r t : String) (b : UInt8) (bs : Bytes) (hb : strBytes r = b :: bs) (hlt : 97 < b) : Ex.Plain (overall t' r t []) := by
  have hs : strBytes "a:*" = [97, 58, 42] := by decide +kernel
  have hl : OrdKey.lt "a:*" r = true := by
    show bytesLt (strBytes "a:*") (strBytes r) = true
    rw [hs, hb]
    simp [bytesLt, hlt]
  refine ⟨?_, ?_, ?_⟩
  · exact List.pairwise_cons.2 ⟨fun x hx => by rcases List.mem_singleton.1 hx with rfl; exact hl, List.pairwise_singleton _ _⟩
  · intro x hx
    simp only [overall, List.mem_cons, List.not_mem_nil, or_false] at hx
    rcases hx with rfl | rfl <;> exact List.pairwise_singleton _ _
  · intro x hx y hy z hz
    simp only [overall, List.mem_cons, List.not_mem_nil, or_false] at hx
    rcases hx with rfl | rfl <;> (rcases List.mem_singleton.1 hy with rfl; exact List.mem_singleton.1 hz)

/-- C31: with the file system semantics that comes with the crate, whoever was granted any level on any path, under any caveat, can have whoever granted it reported as granting all of
every file system. -/
theorem C31_overall_wnfs (D : Deps) (c p : Chain) (hp : c.proofs = [p]) (hr : c.redel = []) (lp : List (Info WnfsScope WnfsLevel))
    (hlp : reduce D wnfsSemantics p = .ok lp) (j : Info WnfsScope WnfsLevel) (hj : j ∈ lp) (r t : String) (m : BMap String Json) (hm : BMap.Sorted m) (s : WnfsScope) (a : WnfsLevel)
    (hv : wnfsSemantics.parseCapability D ⟨r, t, .obj m⟩ = some ⟨.resource (.scoped s), a, .obj m⟩) (hg : j.capability = ⟨.resource (.scoped s), a, .obj m⟩)
    (hcap : c.ucan.payload.cap = overall "wnfs/super_user" r t m) (out : List (Info WnfsScope WnfsLevel)) (h : reduce D wnfsSemantics c = .ok out) :
    ∃ i, out = [i] ∧ i.capability = ⟨.resource .unscoped, .superUser, .obj []⟩ ∧ ∀ o ∈ j.originators, o ∈ i.originators := by
  refine C31_overall D wnfsSemantics rfl c p hp hr lp hlp j hj r t _ m _ a .superUser hv rfl ?_ ?_ hcap out h
  · cases a <;> rfl
  · rw [hg]
    exact C15_refl _ C74_lawful.2 _ ⟨m, rfl, hm⟩

namespace Ex

/-- Beside C31_overall: key 3 holds one address that key 1 granted, and claims everything before it; the chain is accepted. -/
example (D : Deps) : ∃ w', Built D (still (dags3 D capA capA) 7) none world w' (chain3 D capA capA (overall "m/2" "mailto:a@b" "m/1" [])) ∧
    mailSem.parseCapability D ⟨"mailto:a@b", "m/1", .obj []⟩ = some (mail "a@b" 1) ∧ mailSem.parseAction "m/2" = some 2 ∧ mailSem.ge 2 1 = true ∧
    reduce D mailSem (.mk (tok2 D capA) [.mk (tok1 D capA) [] []] []) = .ok [⟨[did 1], some 5, some 20, mail "a@b" 1⟩] := by
  have hb : strBytes "mailto:a@b" = 109 :: (strBytes "mailto:a@b").tail := by decide +kernel
  obtain ⟨w', hw⟩ := built3 D capA_plain capA_plain (C31_overall_plain "m/2" "mailto:a@b" "m/1" 109 _ hb (by decide)) capA_noRedel capA_noRedel (by unfold NoRedel; decide)
  exact ⟨w', hw, rfl, rfl, rfl, rfl⟩

/-- Some level on some path. -/
def capPath : Capabilities := capsOf [("wnfs://h/p", ["wnfs/create"])]

/-- Beside C31_overall_wnfs: key 1 granted the lowest level on one path. -/
example (D : Deps) : ∃ w', Built D (still (dags3 D capPath capPath) 7) none world w' (chain3 D capPath capPath (overall "wnfs/super_user" "wnfs://h/p" "wnfs/create" [])) ∧
    wnfsSemantics.parseCapability D ⟨"wnfs://h/p", "wnfs/create", .obj []⟩ = some ⟨.resource (.scoped ⟨"h", "/p"⟩), .create, .obj []⟩ ∧
    reduce D wnfsSemantics (.mk (tok2 D capPath) [.mk (tok1 D capPath) [] []] []) = .ok [⟨[did 1], some 5, some 20, ⟨.resource (.scoped ⟨"h", "/p"⟩), .create, .obj []⟩⟩] := by
  have hb : strBytes "wnfs://h/p" = 119 :: (strBytes "wnfs://h/p").tail := by decide +kernel
  have hp : Plain capPath := ⟨by unfold BMap.Sorted; decide, by unfold BMap.Sorted; decide, by decide⟩
  have hn : NoRedel capPath := by unfold NoRedel; decide
  obtain ⟨w', hw⟩ := built3 D hp hp (C31_overall_plain "wnfs/super_user" "wnfs://h/p" "wnfs/create" 119 _ hb (by decide)) hn hn (by unfold NoRedel; decide)
  exact ⟨w', hw, rfl, rfl⟩

end Ex
end Verif
