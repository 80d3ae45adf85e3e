import Verif.Props.Merge
import Verif.Props.Ipld
import Verif.Props.Wildcard
import Verif.Model.Fixtures

/-! # How far C18, C46 and C60 fail -/

namespace Verif
open Spec Chain Reduce

variable {S A : Type}

/-! ## C18 Malformed capabilities -/

/-- C18 fails for all that the constructors refuse: whatever map of resources to abilities to caveat lists there is (of values that survive
DAG-JSON and leave room for the nesting of the token), a token carries it, under any signature. -/
theorem C18_every_map (D : Deps) (cap : Capabilities) (hs : BMap.Sorted cap) (ha : ∀ r ∈ cap, BMap.Sorted r.2)
    (hg : ∀ r ∈ cap, ∀ a ∈ r.2, ∀ c ∈ a.2, Codec.Good D c ∧ c.depth ≤ 120) (iss aud : String) (exp : Option UInt64) :
    ∃ (h : Header) (p : Payload) (x : Bytes), p.cap = cap ∧ p.iss = iss ∧ p.aud = aud ∧ p.exp = exp ∧
      ∀ signature, ∃ t, Ucan.fromStr D t = .ok ⟨h, p, x, signature⟩ := by
  have he : Codec.Encodable D ⟨ucanVersion, iss, aud, exp, none, none, cap, none, none⟩ := by
    refine ⟨hs, ha, fun r hr a h c hc => (hg r hr a h c hc).1, (by intro f hf; cases hf), ?_⟩
    have := Codec.depth_payload (n := 123) ⟨ucanVersion, iss, aud, exp, none, none, cap, none, none⟩
      (fun r hr a h c hc => by have := (hg r hr a h c hc).2; omega) (by omega) (by intro f hf; cases hf)
    simp only [Json.depthLimit]
    omega
  exact ⟨⟨"EdDSA", "JWT"⟩, _, Ucan.signingInput D ⟨"EdDSA", "JWT"⟩ _, rfl, rfl, rfl, rfl, fun signature =>
    ⟨_, C01_round_trip_general D ⟨_, _, _, signature⟩ he rfl⟩⟩

/-- C18: what the constructors refuse does no harm. A reported capability whose caveat is no object allows nothing, and every identity it is
attributed to has claimed it. -/
theorem C18_harmless (D : Deps) (sem : Semantics S A) (c : Chain) (out : List (Info S A)) (h : reduce D sem c = .ok out) (i : Info S A) (hi : i ∈ out)
    (hm : ¬ IsObj i.capability.caveat) : (∀ w, sem.enables i.capability w = false) ∧
      ∀ o ∈ i.originators, ∃ d, Sub d c ∧ d.ucan.payload.iss = o ∧ Claimed D sem d.ucan i.capability := by
  have hm' : ∀ m, i.capability.caveat ≠ .obj m := fun m e => hm ⟨m, e⟩
  refine ⟨fun w => C15_non_object sem _ _ (Or.inl hm'), fun o ho => ?_⟩
  obtain ⟨d, hd, e, v, hv, rfl⟩ := C31_confined D sem c (fun v => v = i.capability) (by
    intro d e a b _ _ _ _ hab
    constructor
    · rintro rfl
      rw [C15_non_object sem _ _ (Or.inl hm')] at hab
      cases hab
    · rintro rfl
      rw [C15_non_object sem _ _ (Or.inr hm')] at hab
      cases hab) out h i hi rfl o ho
  exact ⟨d, hd, e, hv⟩

/-! ## C46 Confused principals -/

/-- A DID and the `did:key` of the bytes that the principal of the DID is made of. -/
def Spec.KeyAlias (s t : String) : Prop :=
  ∃ r, s = "did:" ++ r ∧ (¬ ∃ x, strBytes s = strBytes "did:key:z" ++ x) ∧ t = "did:key:z" ++ asciiStr (Base58.encode (0x9d :: 0x1a :: strBytes r))

/-- C46, exactly: two texts have the same principal only if one is the other's alias. -/
theorem C46_same_iff (s t : String) (hst : s ≠ t) :
    (∃ p, Principle.ofStr s = .ok p ∧ Principle.ofStr t = .ok p) ↔ KeyAlias s t ∨ KeyAlias t s := by
  have hkey : ∀ b, strBytes ("did:key:z" ++ asciiStr (Base58.encode b)) = strBytes "did:key:z" ++ Base58.encode b := by
    intro b
    rw [strBytes_append, strBytes_asciiStr (Base58.encode_ascii _)]
  have key : ∀ {s t : String} {r : String} {b : Bytes}, strBytes s = strBytes "did:key:z" ++ Base58.encode b →
      b = 0x9d :: 0x1a :: strBytes r → t = "did:" ++ r → (¬ ∃ x, strBytes t = strBytes "did:key:z" ++ x) → KeyAlias t s := by
    rintro s t r b hs rfl rfl ht
    exact ⟨r, rfl, ht, strBytes_inj (by rw [hs, hkey])⟩
  have back : ∀ {s t : String}, KeyAlias s t → ∃ p, Principle.ofStr s = .ok p ∧ Principle.ofStr t = .ok p := by
    rintro s t ⟨r, rfl, hr, rfl⟩
    exact ⟨⟨0x9d :: 0x1a :: strBytes r⟩, (C46_of _ _).2 (.other hr), (C46_of _ _).2 (.key (hkey _))⟩
  constructor
  · rintro ⟨⟨b⟩, hs, ht⟩
    have cs : ∀ {s : String} {b : Bytes}, Principal s b → strBytes s = strBytes "did:key:z" ++ Base58.encode b ∨
        ∃ r, s = "did:" ++ r ∧ b = 0x9d :: 0x1a :: strBytes r ∧ ¬ ∃ x, strBytes s = strBytes "did:key:z" ++ x := by
      intro s b h
      cases h with
      | key h => exact Or.inl h
      | other h => exact Or.inr ⟨_, rfl, rfl, h⟩
    rcases cs ((C46_of _ _).1 hs) with h1 | ⟨r1, e1, b1, h1⟩ <;> rcases cs ((C46_of _ _).1 ht) with h2 | ⟨r2, e2, b2, h2⟩
    · exact absurd (strBytes_inj (h1.trans h2.symm)) hst
    · exact Or.inr (key h1 b2 e2 h2)
    · exact Or.inl (key h2 b1 e1 h1)
    · have e := b1.symm.trans b2
      simp only [List.cons.injEq, true_and] at e
      exact absurd (by rw [e1, e2, strBytes_inj e]) hst
  · rintro (h | h)
    · exact back h
    · obtain ⟨p, h1, h2⟩ := back h
      exact ⟨p, h2, h1⟩

/-! ## C60 Wildcards of other schemes -/

/-- The semantics that come with the crate bind their scopes to the schemes `mailto` and `wnfs`. -/
theorem email_bound : SchemeBound Fixtures.emailSemantics (fun _ => "mailto") := by
  refine ⟨fun u s h => ?_, fun _ _ _ => rfl⟩
  simp only [Fixtures.emailSemantics, Fixtures.EmailAddress.ofUrl] at h
  split at h
  · assumption
  · cases h

theorem wnfs_bound : SchemeBound Fixtures.wnfsSemantics (fun _ => "wnfs") := by
  refine ⟨fun u s h => ?_, fun _ _ _ => rfl⟩
  simp only [Fixtures.wnfsSemantics, Fixtures.WnfsScope.ofUrl] at h
  split at h
  · rename_i h'; exact h'.1
  · cases h

/-- C60 (partial) for the semantics that come with the crate: apart from wildcards, which `C60_wildcard_crosses` is about, no claim enables one of another scheme. -/
theorem C60_fixtures_partial (D : Deps) (a b : Capability) (hw : ¬ IsWildcard D a.resource) :
    (∀ va vb, Fixtures.emailSemantics.parseCapability D a = some va → Fixtures.emailSemantics.parseCapability D b = some vb →
      Fixtures.emailSemantics.enables va vb = true → ∃ s, HasScheme D a.resource s ∧ HasScheme D b.resource s) ∧
    (∀ va vb, Fixtures.wnfsSemantics.parseCapability D a = some va → Fixtures.wnfsSemantics.parseCapability D b = some vb →
      Fixtures.wnfsSemantics.enables va vb = true → ∃ s, HasScheme D a.resource s ∧ HasScheme D b.resource s) :=
  ⟨fun va vb ha hb he => C60_scheme_partial D _ rfl _ email_bound a b va vb ha hb he hw,
    fun va vb ha hb he => C60_scheme_partial D _ rfl _ wnfs_bound a b va vb ha hb he hw⟩

/-- C60, exactly: between claims of different schemes it takes a wildcard, and any will do, unless one of the two is a `my:` resource. -/
theorem C60_iff (D : Deps) (sem : Semantics S A) (hd : sem.overridden = none) (scheme : S → String) (hb : SchemeBound sem scheme) (a b : Capability) (va vb : View S A)
    (ha : sem.parseCapability D a = some va) (hb' : sem.parseCapability D b = some vb) (sa sb : String) (hsa : HasScheme D a.resource sa)
    (hsb : HasScheme D b.resource sb) (hne : sa ≠ sb) (hc : ∀ m, b.caveat = .obj m → BMap.Sorted m) :
    sem.enables va vb = true ↔ IsWildcard D a.resource ∧ sa ≠ "my" ∧ sb ≠ "my" ∧ sem.ge va.ability vb.ability = true ∧
      ∃ ca cb, a.caveat = .obj ca ∧ b.caveat = .obj cb ∧ Keeps ca cb := by
  have hca : va.caveat = a.caveat := ((parse_eq_some _ _ _ _ _ _).1 (Semantics.parseCapability_default hd D _ ▸ ha)).2.2.symm
  have hcb : vb.caveat = b.caveat := ((parse_eq_some _ _ _ _ _ _).1 (Semantics.parseCapability_default hd D _ ▸ hb')).2.2.symm
  rw [C15_enables_iff sem va vb (by rw [hcb]; exact hc)]
  obtain ⟨ua, hua, rfl⟩ := hsa
  obtain ⟨ub, hub, rfl⟩ := hsb
  obtain ⟨u, hu, h⟩ := Semantics.parse_resource hd ha
  obtain ⟨u', hu', h'⟩ := Semantics.parse_resource hd hb'
  rw [hua] at hu
  cases hu
  rw [hub] at hu'
  cases hu'
  have noas : ∀ {c : Capability} {v : View S A} {d : String} {k : ResourceUri S}, sem.parseCapability D c = some v → v.resource ≠ .as_ d k := by
    intro c v d k h e
    exact C20_no_as_view D sem _ _ _ v (Semantics.parseCapability_default hd D _ ▸ h) d (by rw [e]; rfl)
  unfold Attenuates
  rw [hca, hcb]
  rcases h with ⟨h1, k, hk, e⟩ | ⟨h1, d, k, e⟩ | ⟨h1, h2, k, hk, e⟩
  · rw [e]
    constructor
    · rintro ⟨_, _, _, _, ⟨hf, _⟩, _⟩
      rcases h' with ⟨h1', _⟩ | ⟨_, d', k', e'⟩ | ⟨_, _, k', _, e'⟩
      · exact absurd (h1.trans h1'.symm) hne
      · exact absurd e' (noas hb')
      · rw [e'] at hf; cases hf
    · rintro ⟨_, h, _⟩; exact absurd h1 h
  · exact absurd e (noas ha)
  · rcases h' with ⟨h1', k', hk', e'⟩ | ⟨_, d', k', e'⟩ | ⟨h1', h2', k', hk', e'⟩
    · rw [e, e']
      constructor
      · rintro ⟨_, _, _, _, ⟨hf, _⟩, _⟩; cases hf
      · rintro ⟨_, _, h, _⟩; exact absurd h1' h
    · exact absurd e' (noas hb')
    · rw [e, e']
      have hw : IsWildcard D a.resource ↔ k = .unscoped := by
        unfold Semantics.parseResource at hk
        constructor
        · rintro ⟨u, hu, hp⟩
          rw [hua] at hu
          cases hu
          rw [if_pos hp] at hk
          cases hk
          rfl
        · rintro rfl
          split at hk
          · rename_i hp; exact ⟨ua, hua, hp⟩
          · obtain ⟨s, _, hs⟩ := Option.map_eq_some_iff.1 hk
            cases hs
      have hcov : ResContains (fun s t => sem.contains s t = true) (.resource k) (.resource k') ↔ k = .unscoped := by
        constructor
        · rintro ⟨_, hk1⟩
          rcases hk1 with hk1 | ⟨s, t, hs, ht, hst⟩
          · exact hk1
          · have hs : k = .scoped s := hs
            have ht : k' = .scoped t := ht
            subst hs ht
            unfold Semantics.parseResource at hk hk'
            split at hk
            · cases hk
            · split at hk'
              · cases hk'
              · obtain ⟨s', hs', es⟩ := Option.map_eq_some_iff.1 hk
                obtain ⟨t', ht', et⟩ := Option.map_eq_some_iff.1 hk'
                cases es
                cases et
                exact absurd (by rw [hb.parsed _ _ hs', hb.parsed _ _ ht', hb.contained _ _ hst]) hne
        · rintro rfl
          exact ⟨rfl, Or.inl rfl⟩
      rw [hcov, hw]
      constructor
      · rintro ⟨ca, cb, x1, x2, x3, x4, x5⟩
        exact ⟨x3, h1, h1', x4, ca, cb, x1, x2, x5⟩
      · rintro ⟨x3, _, _, x4, ca, cb, x1, x2, x5⟩
        exact ⟨ca, cb, x1, x2, x3, x4, x5⟩

/-! ### Beside C18, C46 and C60 -/

namespace Ex

/-- A resource without abilities, an ability without caveats, and a caveat that is a list. -/
example (D : Deps) (iss aud : String) : ∃ (h : Header) (p : Payload) (x : Bytes), p.cap = [("a", []), ("b", [("w", []), ("x", [.arr []])])] ∧ p.iss = iss ∧
    p.aud = aud ∧ p.exp = none ∧ ∀ signature, ∃ t, Ucan.fromStr D t = .ok ⟨h, p, x, signature⟩ := by
  refine C18_every_map D _ (by unfold BMap.Sorted; decide +kernel) ?_ ?_ iss aud none
  · intro r hr
    simp only [List.mem_cons, List.not_mem_nil, or_false] at hr
    rcases hr with rfl | rfl <;> (unfold BMap.Sorted; decide +kernel)
  · intro r hr a ha c hc
    simp only [List.mem_cons, List.not_mem_nil, or_false] at hr
    rcases hr with rfl | rfl
    · cases ha
    · simp only [List.mem_cons, List.not_mem_nil, or_false] at ha
      rcases ha with rfl | rfl
      · cases hc
      · simp only [List.mem_cons, List.not_mem_nil, or_false] at hc
        subst hc
        exact ⟨⟨trivial, trivial, trivial⟩, by decide +kernel⟩

/-- A claim with a caveat that is no object is reported. -/
example (D : Deps) : ∃ i, reduce D mailSem (.mk ⟨⟨"EdDSA", "JWT"⟩, ⟨ucanVersion, did 1, did 2, some 20, none, none, [("mailto:c@d", [("m/1", [.null])])], none, none⟩, [], []⟩ [] []) =
      .ok [i] ∧ i.originators = [did 1] ∧ ¬ IsObj i.capability.caveat :=
  ⟨_, rfl, rfl, by rintro ⟨m, h⟩; cases h⟩

/-- There are aliases. -/
example : KeyAlias "did:web:a" "did:key:z6xJd48HBtU" := by
  refine ⟨"web:a", by decide +kernel, ?_, by decide +kernel⟩
  rintro ⟨x, hx⟩
  have : (strBytes "did:web:a").take 9 = strBytes "did:key:z" := by rw [hx, List.take_left']; rfl
  revert this
  decide +kernel

/-- A wildcard of another scheme enables a mail resource. -/
example (D : Deps) : mailSem.enables (mailAll 1) (mail "c@d" 1) = true :=
  (C60_iff D mailSem rfl _ mailSem_bound ⟨"foo:*", "m/1", .obj []⟩ ⟨"mailto:c@d", "m/1", .obj []⟩ _ _ rfl rfl "foo" "mailto" ⟨_, url_foo D, rfl⟩
    ⟨_, url_mail D, rfl⟩ (by decide) (by intro m h; cases h; simp [BMap.Sorted])).2
    ⟨⟨_, url_foo D, rfl⟩, by decide, by decide, by decide, [], [], rfl, rfl, .refl []⟩

end Ex
end Verif
