import Verif.Props.ReduceExamples

/-! # Property C60: wildcards and schemes -/

namespace Verif
open Spec Chain Reduce

variable {S A : Type}

/-- Scopes belong to a scheme: only URLs of that scheme parse to a scope, and a scope only contains scopes of its own scheme. -/
structure Spec.SchemeBound (sem : Semantics S A) (scheme : S → String) : Prop where
  parsed : ∀ u s, sem.parseScope u = some s → u.scheme = scheme s
  contained : ∀ s t, sem.contains s t = true → scheme s = scheme t

/-- The scheme of a resource text. -/
def Spec.HasScheme (D : Deps) (resource scheme : String) : Prop := ∃ u, Url.parse D resource = some u ∧ u.scheme = scheme
/-- The resource text is a wildcard: its path is an asterisk. -/
def Spec.IsWildcard (D : Deps) (resource : String) : Prop := ∃ u, Url.parse D resource = some u ∧ u.path = "*"

theorem Semantics.parse_resource {D : Deps} {sem : Semantics S A} (hd : sem.overridden = none) {c : Capability} {v : View S A} (h : sem.parseCapability D c = some v) :
    ∃ u, Url.parse D c.resource = some u ∧
      ((u.scheme = "my" ∧ ∃ k, sem.parseResource u = some k ∧ v.resource = .my k) ∨
        (u.scheme = "as" ∧ ∃ d k, v.resource = .as_ d k) ∨
        (u.scheme ≠ "my" ∧ u.scheme ≠ "as" ∧ ∃ k, sem.parseResource u = some k ∧ v.resource = .resource k)) := by
  rw [parseCapability_default hd] at h
  unfold parse at h
  split at h
  · cases h
  · rename_i r hr
    split at h
    · cases h
    · cases h
      unfold resourceOf at hr
      split at hr
      · cases hr
      · rename_i u hu
        refine ⟨u, hu, ?_⟩
        split at hr
        · rename_i hm
          obtain ⟨k, hk, e⟩ := Option.map_eq_some_iff.1 hr
          exact Or.inl ⟨hm, k, hk, e.symm⟩
        · rename_i hm
          split at hr
          · rename_i ha
            split at hr
            · cases hr
            · split at hr
              · cases hr
              · obtain ⟨k, _, e⟩ := Option.map_eq_some_iff.1 hr
                exact Or.inr (Or.inl ⟨ha, _, k, e.symm⟩)
          · rename_i ha
            obtain ⟨k, hk, e⟩ := Option.map_eq_some_iff.1 hr
            exact Or.inr (Or.inr ⟨hm, ha, k, hk, e.symm⟩)

/-- C60 (partial): a claim that is not a wildcard only enables claims of its own scheme. For wildcards the claim is refuted by
`C60_wildcard_crosses`. -/
theorem C60_scheme_partial (D : Deps) (sem : Semantics S A) (hd : sem.overridden = none) (scheme : S → String) (hb : SchemeBound sem scheme) (a b : Capability) (va vb : View S A)
    (ha : sem.parseCapability D a = some va) (hb' : sem.parseCapability D b = some vb) (hen : sem.enables va vb = true)
    (hw : ¬ IsWildcard D a.resource) : ∃ s, HasScheme D a.resource s ∧ HasScheme D b.resource s := by
  obtain ⟨u, hu, h⟩ := Semantics.parse_resource hd ha
  obtain ⟨u', hu', h'⟩ := Semantics.parse_resource hd hb'
  have hc : va.resource.contains sem.contains vb.resource = true := by
    unfold Semantics.enables at hen
    split at hen
    · simp only [Bool.and_eq_true] at hen
      exact hen.1.1
    · cases hen
  rcases h with ⟨h1, k, hk, e⟩ | ⟨h1, d, k, e⟩ | ⟨h1, h2, k, hk, e⟩ <;> rcases h' with ⟨h1', k', hk', e'⟩ | ⟨h1', d', k', e'⟩ | ⟨h1', h2', k', hk', e'⟩ <;>
    rw [e, e'] at hc <;> first
      | (cases hc; done)
      | exact ⟨_, ⟨u, hu, h1⟩, ⟨u', hu', h1'⟩⟩
      | skip
  refine ⟨u'.scheme, ⟨u, hu, ?_⟩, ⟨u', hu', rfl⟩⟩
  have hp : u.path ≠ "*" := fun hp => hw ⟨u, hu, hp⟩
  unfold Semantics.parseResource at hk hk'
  rw [if_neg hp] at hk
  obtain ⟨s, hs, rfl⟩ := Option.map_eq_some_iff.1 hk
  split at hk'
  · cases hk'; cases hc
  · obtain ⟨t, ht, rfl⟩ := Option.map_eq_some_iff.1 hk'
    rw [hb.parsed u s hs, hb.parsed u' t ht]
    exact hb.contained s t hc

namespace Ex

/-- Beside C60: the mail semantics binds its scopes to the scheme `mailto`. -/
theorem mailSem_bound : SchemeBound mailSem (fun _ => "mailto") := by
  refine ⟨fun u s h => ?_, fun _ _ _ => rfl⟩
  simp only [mailSem] at h
  split at h
  · assumption
  · cases h

def capFoo : Capabilities := capsOf [("foo:*", ["m/1"])]
theorem capFoo_plain : Plain capFoo := ⟨by unfold BMap.Sorted; decide, by unfold BMap.Sorted; decide, by decide⟩
theorem capFoo_noRedel : NoRedel capFoo := by unfold NoRedel; decide

theorem url_foo (D : Deps) : Url.parse D "foo:*" = some ⟨"foo", "", "*", none, none, "", none, none⟩ := by
  unfold Url.parse Url.parseBytes
  have h1 : Url.splitScheme ((Url.trim (strBytes "foo:*")).filter fun b => !Url.isTabNl b) = some (strBytes "foo", [42]) := by decide +kernel
  rw [h1]
  have h2 : ¬ (asciiStr (strBytes "foo") ∈ Url.specials ∨ ([42] : Bytes).head? = some 47) := by decide +kernel
  simp only [if_neg h2]
  decide +kernel

theorem url_mail (D : Deps) : Url.parse D "mailto:c@d" = some ⟨"mailto", "", "c@d", none, none, "", none, none⟩ := by
  unfold Url.parse Url.parseBytes
  have h1 : Url.splitScheme ((Url.trim (strBytes "mailto:c@d")).filter fun b => !Url.isTabNl b) = some (strBytes "mailto", strBytes "c@d") := by decide +kernel
  rw [h1]
  have h2 : ¬ (asciiStr (strBytes "mailto") ∈ Url.specials ∨ (strBytes "c@d").head? = some 47) := by decide +kernel
  simp only [if_neg h2]
  decide +kernel

end Ex
open Ex

/-- C60 is violated: a wildcard of any scheme enables everything of every other scheme, although scopes are bound to their scheme. -/
theorem C60_wildcard_crosses (D : Deps) : ∃ (a b : Capability) (va vb : View String Nat), SchemeBound mailSem (fun _ => "mailto") ∧
    mailSem.parseCapability D a = some va ∧ mailSem.parseCapability D b = some vb ∧ mailSem.enables va vb = true ∧
    ¬ ∃ s, HasScheme D a.resource s ∧ HasScheme D b.resource s := by
  refine ⟨⟨"foo:*", "m/1", .obj []⟩, ⟨"mailto:c@d", "m/1", .obj []⟩, mailAll 1, mail "c@d" 1, mailSem_bound, rfl, rfl, by decide, ?_⟩
  rintro ⟨s, ⟨u, hu, h⟩, ⟨u', hu', h'⟩⟩
  rw [url_foo] at hu
  rw [url_mail] at hu'
  cases hu
  cases hu'
  rw [← h'] at h
  exact absurd h (by decide)

/-- C60 is violated end to end: key 1 only ever granted a wildcard of the scheme `foo`, and is reported as having granted mail. -/
theorem C60_chain (D : Deps) : ∃ (E : Env) (w w' : World) (c : Chain), Coherent w.parser ∧ Built D E none w w' c ∧
    reduce D mailSem c = .ok [⟨[did 1], some 5, some 20, mail "c@d" 1⟩] ∧
    ∀ d, Sub d c → d.ucan.payload.iss = did 1 → ∀ cl ∈ d.ucan.payload.cap.iter, HasScheme D cl.resource "foo" := by
  obtain ⟨w', hb⟩ := built3 D capFoo_plain capC_plain capC_plain capFoo_noRedel capC_noRedel capC_noRedel
  refine ⟨_, world, w', _, world_coherent, hb, rfl, ?_⟩
  intro d hd hi cl hcl
  rcases sub3 hd with rfl | rfl | rfl
  · exact absurd hi (by show ¬ did 3 = did 1; decide +kernel)
  · exact absurd hi (by show ¬ did 2 = did 1; decide +kernel)
  · have : cl ∈ capFoo.iter := hcl
    have : cl = ⟨"foo:*", "m/1", .obj []⟩ := by simpa [capFoo, capsOf, Capabilities.iter] using this
    subst this
    exact ⟨_, url_foo D, rfl⟩

/-! ## `prf:*` redelegates nothing (C19) -/

theorem url_prf_star (D : Deps) : Url.parse D "prf:*" = some ⟨"prf", "", "*", none, none, "", none, none⟩ := by
  unfold Url.parse Url.parseBytes
  have h1 : Url.splitScheme ((Url.trim (strBytes "prf:*")).filter fun b => !Url.isTabNl b) = some (strBytes "prf", [42]) := by decide +kernel
  rw [h1]
  have h2 : ¬ (asciiStr (strBytes "prf") ∈ Url.specials ∨ ([42] : Bytes).head? = some 47) := by decide +kernel
  simp only [if_neg h2]
  decide +kernel

theorem star_selects_nothing (D : Deps) (n : Nat) : ¬ SelectsProof D "prf:*" n := by
  rintro ⟨u, hu, _, hn⟩
  rw [url_prf_star] at hu
  cases hu
  have digits : ∀ {s : Bytes} {n : Nat}, Decimal s n → s ≠ [] ∧ 42 ∉ s := by
    intro s n h
    induction h with
    | digit d h1 h2 => exact ⟨by simp, fun hm => absurd (List.mem_singleton.1 hm ▸ h1) (by decide)⟩
    | more d _ h1 h2 ih =>
      refine ⟨by simp, fun hm => ?_⟩
      rcases List.mem_append.1 hm with hm | hm
      · exact ih.2 hm
      · exact absurd (List.mem_singleton.1 hm ▸ h1) (by decide)
  have hb : strBytes "*" = [42] := by decide +kernel
  rw [hb] at hn
  rcases hn.2 with h | ⟨r, he, _⟩
  · exact (digits h).2 List.mem_cons_self
  · cases he

/-- C19 fails for whole chains: however many proofs a token has, if it delegates them by `prf:*` then nothing of what they report is handed on;
the chain reports claims of the token itself only. -/
theorem C19_star_chain (D : Deps) (E : Env) (nowTime : Option UInt64) (w w' : World) (c : Chain) (hc : Coherent w.parser) (h : Built D E nowTime w w' c)
    (hs : ∀ cl ∈ c.ucan.payload.cap.iter, cl.ability = "ucan/DELEGATE" → cl.resource = "prf:*") (sem : Semantics S A) (out : List (Info S A))
    (ho : reduce D sem c = .ok out) : ∀ i ∈ out, ∃ cl ∈ c.ucan.payload.cap.iter, sem.parseCapability D cl = some i.capability := by
  refine C28_own D sem c out ho ?_
  have hb := built_sound hc h
  obtain ⟨u, ps, r⟩ := c
  have hr := hb.2.2
  show r = []
  cases r with
  | nil => rfl
  | cons k r =>
    obtain ⟨cl, hcl, ha, hsel⟩ := (hr.claimed k).1 List.mem_cons_self
    rw [hs cl hcl ha] at hsel
    exact absurd hsel (star_selects_nothing D k)

namespace Ex

def capStar : Capabilities := capsOf [("prf:*", ["ucan/DELEGATE"])]
theorem capStar_plain : Plain capStar := ⟨by unfold BMap.Sorted; decide, by unfold BMap.Sorted; decide, by decide⟩

/-- Key 2 delegates everything it got from key 1. -/
theorem built_star (D : Deps) : ∃ w', Built D (still (dags3 D capC capStar) 7) none world w' (.mk (tok2 D capStar) [.mk (tok1 D capC) [] []] []) := by
  have s1 : Resolves D (Holds (still (dags3 D capC capStar) 7)) (cid 1).toStr (tok1 D capC) := by
    refine ⟨cid 1, (tok1 D capC).encode D, cid_parse D 1, rfl, ?_, parses' D 1 (did 2) _ _ _ capC_plain⟩
    exact memRead_bytes.2 (by show (if cid 1 = cid 1 then _ else _) = _; rw [if_pos rfl])
  have hr : RedelOk D (tok2 D capStar) 1 [] := by
    refine ⟨by simp [BSet.Sorted], fun i => ⟨fun h => (nomatch h), ?_⟩, by simp⟩
    rintro ⟨c, hc, _, hs⟩
    have : c ∈ capStar.iter := hc
    obtain rfl : c = ⟨"prf:*", "ucan/DELEGATE", .obj []⟩ := by simpa [capStar, capsOf, Capabilities.iter] using this
    exact absurd hs (star_selects_nothing D i)
  obtain ⟨fuel, h⟩ := (C24_complete D (still (dags3 D capC capStar) 7) none 7 (fun _ => rfl) (fun _ _ _ => rfl)
    ((tok2 D capStar).encode D) world world_coherent (.mk (tok2 D capStar) [.mk (tok1 D capC) [] []] [])).2
    ⟨parses' D 2 (did 3) _ _ _ capStar_plain, by
      simp only [Sound, SoundAll]
      exact ⟨valid D 2 _ 20 5 _ _ 7 (by decide) (by decide),
        ⟨_, _, rfl, s1, ⟨rfl, fun n hn => ⟨n, hn, UInt64.le_refl _⟩, fun n hn => ⟨n, hn, UInt64.le_refl _⟩⟩,
          ⟨valid D 1 _ 20 5 _ _ 7 (by decide) (by decide), rfl, redelOk D _ _ capC_noRedel⟩, rfl⟩, hr⟩⟩
  exact ⟨_, .ofToken fuel _ (Prod.ext h rfl)⟩

/-- Beside `C19_star_chain`: the proof reports mail, the token that delegates all its proofs reports nothing. -/
example (D : Deps) : reduce D mailSem (.mk (tok1 D capC) [] []) = .ok [⟨[did 1], some 5, some 20, mail "c@d" 1⟩] ∧
    reduce D mailSem (.mk (tok2 D capStar) [.mk (tok1 D capC) [] []] []) = .ok [] ∧
    ∃ w', Built D (still (dags3 D capC capStar) 7) none world w' (.mk (tok2 D capStar) [.mk (tok1 D capC) [] []] []) :=
  ⟨rfl, rfl, built_star D⟩

end Ex
end Verif
