import Verif.Codec.JsonLemmas
import Verif.Model.Proof
import Verif.Props.Capability
import Verif.Spec.Proof

/-! # Properties C19 and C20: proof delegation resources, printing and parsing views -/

namespace Verif
open Spec

/-! ## Numbers -/

theorem decVal_snoc (ds : Bytes) (d : UInt8) : Json.decVal (ds ++ [d]) = 10 * Json.decVal ds + (d.toNat - 48) := by
  unfold Json.decVal
  rw [List.map_append, List.map_cons, List.map_nil, ofDigits_append]
  omega

theorem decimal_iff (ds : Bytes) (n : Nat) : Decimal ds n ↔ ds ≠ [] ∧ (∀ d ∈ ds, Json.isDigit d = true) ∧ Json.decVal ds = n := by
  have hdig : ∀ d : UInt8, Json.isDigit d = true ↔ 48 ≤ d ∧ d ≤ 57 := by
    intro d; simp [Json.isDigit]
  constructor
  · intro h
    induction h with
    | digit d h1 h2 =>
      refine ⟨by simp, ?_, ?_⟩
      · intro x hx; rw [List.mem_singleton.1 hx]; exact (hdig d).2 ⟨h1, h2⟩
      · have := decVal_snoc [] d
        rw [List.nil_append] at this
        rw [this]
        simp [Json.decVal, ofDigits]
    | more d _ h1 h2 ih =>
      refine ⟨by simp, ?_, ?_⟩
      · intro x hx
        rcases List.mem_append.1 hx with hx | hx
        · exact ih.2.1 x hx
        · rw [List.mem_singleton.1 hx]; exact (hdig d).2 ⟨h1, h2⟩
      · rw [decVal_snoc, ih.2.2]
  · rintro ⟨hne, hall, hv⟩
    have key : ∀ (k : Nat) (ds : Bytes), ds.length = k → ds ≠ [] → (∀ d ∈ ds, Json.isDigit d = true) → Decimal ds (Json.decVal ds) := by
      intro k
      induction k with
      | zero => intro ds hl hne; exact absurd (List.length_eq_zero_iff.1 hl) hne
      | succ k ih =>
        intro ds hl hne hall
        rcases list_reverse_cases ds with rfl | ⟨t, x, rfl⟩
        · exact absurd rfl hne
        · have hx := (hdig x).1 (hall x (by simp))
          rw [decVal_snoc]
          by_cases ht : t = []
          · subst ht
            have : Json.decVal [] = 0 := by simp [Json.decVal, ofDigits]
            rw [this]
            simp only [List.nil_append, Nat.mul_zero, Nat.zero_add]
            exact .digit x hx.1 hx.2
          · exact .more x (ih t (by simp at hl; exact hl) ht (fun d hd => hall d (by simp [hd]))) hx.1 hx.2
    rw [← hv]
    exact key _ ds rfl hne hall

theorem parseUsize_iff (s : Bytes) (n : Nat) : parseUsize s = some n ↔ Numeral s n := by
  have hdec : ∀ (ds : Bytes), (if ds.isEmpty then none else if ds.all Json.isDigit then
      if Json.decVal ds < usizeBound then some (Json.decVal ds) else none else none) = some n ↔ n < 2 ^ 64 ∧ Decimal ds n := by
    intro ds
    rw [decimal_iff]
    constructor
    · intro h
      split at h
      · cases h
      · rename_i he
        split at h
        · rename_i ha
          split at h
          · rename_i hb
            cases h
            exact ⟨hb, by simpa using he, fun d hd => List.all_eq_true.1 ha d hd, rfl⟩
          · cases h
        · cases h
    · rintro ⟨h1, h2, h3, rfl⟩
      rw [if_neg (by simpa using h2), if_pos (List.all_eq_true.2 h3), if_pos (show _ < usizeBound from h1)]
  have hplus : ∀ r, ¬ Decimal (43 :: r) n := by
    intro r h
    have := ((decimal_iff _ _).1 h).2.1 43 (by simp)
    revert this; decide
  unfold parseUsize Numeral
  split
  · rename_i r
    simp only
    rw [hdec]
    constructor
    · rintro ⟨h1, h2⟩; exact ⟨h1, Or.inr ⟨r, rfl, h2⟩⟩
    · rintro ⟨h1, h2 | ⟨r', e, h2⟩⟩
      · exact absurd h2 (hplus r)
      · cases e; exact ⟨h1, h2⟩
  · rename_i hne
    simp only
    rw [hdec]
    constructor
    · rintro ⟨h1, h2⟩; exact ⟨h1, Or.inl h2⟩
    · rintro ⟨h1, h2 | ⟨r', e, h2⟩⟩
      · exact ⟨h1, h2⟩
      · exact absurd e (hne r')

theorem numeral_unique {s : Bytes} {n m : Nat} (h : Numeral s n) (h' : Numeral s m) : n = m := by
  have := (parseUsize_iff s n).2 h
  rw [(parseUsize_iff s m).2 h'] at this
  exact (Option.some.inj this).symm

theorem numeral_decBytes {n : Nat} (h : n < 2 ^ 64) : Numeral (Json.decBytes n) n :=
  ⟨h, Or.inl ((decimal_iff _ _).2 ⟨Json.decBytes_ne_nil n, Json.decBytes_digits n, Json.decVal_decBytes n⟩)⟩

/-! ## C19 -/

/-- A resource of the proof semantics, in full. -/
theorem proof_resourceOf_iff (D : Deps) (r : String) (n : Nat) :
    proofSemantics.resourceOf D r = some (.resource (.scoped (.index n))) ↔ SelectsProof D r n := by
  have hstar : ∀ n, ¬ Numeral (strBytes "*") n := by
    intro n h
    rw [← parseUsize_iff] at h
    have : parseUsize (strBytes "*") = none := by decide +kernel
    rw [this] at h; cases h
  unfold Semantics.resourceOf SelectsProof
  cases hu : Url.parse D r with
  | none => simp
  | some u =>
    simp only [Option.some.injEq, exists_eq_left']
    have hres : ∀ k, proofSemantics.parseResource u = some k ↔
        (u.path = "*" ∧ k = .unscoped) ∨ (u.path ≠ "*" ∧ u.scheme = "prf" ∧ ∃ n, Numeral (strBytes u.path) n ∧ k = .scoped (.index n)) := by
      intro k
      unfold Semantics.parseResource
      by_cases hp : u.path = "*"
      · rw [if_pos hp]
        constructor
        · intro h; cases h; exact Or.inl ⟨hp, rfl⟩
        · rintro (⟨_, rfl⟩ | ⟨h, _⟩)
          · rfl
          · exact absurd hp h
      · rw [if_neg hp]
        simp only [proofSemantics, ProofSelection.ofUrl, ProofSelection.ofString, if_neg hp]
        by_cases hs : u.scheme = "prf"
        · rw [if_pos hs]
          constructor
          · intro h
            cases hz : parseUsize (strBytes u.path) with
            | none => rw [hz] at h; cases h
            | some m =>
              rw [hz] at h
              cases h
              exact Or.inr ⟨hp, hs, m, (parseUsize_iff _ _).1 hz, rfl⟩
          · rintro (⟨h, _⟩ | ⟨_, _, m, hm, rfl⟩)
            · exact absurd h hp
            · rw [(parseUsize_iff _ _).2 hm]; rfl
        · rw [if_neg hs]
          constructor
          · intro h; cases h
          · rintro (⟨h, _⟩ | ⟨_, h, _⟩)
            · exact absurd h hp
            · exact absurd h hs
    constructor
    · intro h
      split at h
      · cases hk : proofSemantics.parseResource u with
        | none => rw [hk] at h; cases h
        | some k => rw [hk] at h; cases h
      · split at h
        · exfalso
          split at h
          · cases h
          · split at h
            · cases h
            · rename_i v _
              cases hk : proofSemantics.parseResource v with
              | none => rw [hk] at h; cases h
              | some k => rw [hk] at h; cases h
        · cases hk : proofSemantics.parseResource u with
          | none => rw [hk] at h; cases h
          | some k =>
            rw [hk] at h
            have h : k = .scoped (.index n) := by cases h; rfl
            subst h
            rcases (hres _).1 hk with ⟨_, h⟩ | ⟨_, hs, m, hm, he⟩
            · cases h
            · cases he; exact ⟨hs, hm⟩
    · rintro ⟨hs, hn⟩
      have hp : u.path ≠ "*" := by intro e; rw [e] at hn; exact hstar n hn
      rw [if_neg (by rw [hs]; decide), if_neg (by rw [hs]; decide),
        (hres (.scoped (.index n))).2 (Or.inr ⟨hp, hs, n, hn, rfl⟩)]
      rfl

/-- C19: a claim is read as the selection of proof `n` exactly when its ability is `ucan/DELEGATE` and its resource is the URL
`prf:` with the number `n`. -/
theorem C19_index_iff (D : Deps) (c : Capability) (n : Nat) :
    (∃ v, proofSemantics.parseCapability D c = some v ∧ v.resource = .resource (.scoped (.index n))) ↔ Redelegates D c n := by
  rw [Semantics.parseCapability_default rfl]
  unfold Semantics.parse Redelegates
  rw [← proof_resourceOf_iff]
  constructor
  · rintro ⟨v, h, hv⟩
    split at h
    · cases h
    · rename_i r hr
      split at h
      · cases h
      · rename_i a ha
        cases h
        simp only at hv
        subst hv
        refine ⟨?_, hr⟩
        simp only [proofSemantics, ProofAction.ofString] at ha
        split at ha
        · assumption
        · cases ha
  · rintro ⟨ha, hr⟩
    rw [hr, ha]
    exact ⟨_, rfl, rfl⟩

/-- C19: any other ability is ignored. -/
theorem C19_other_ability (D : Deps) (c : Capability) (h : c.ability ≠ "ucan/DELEGATE") :
    proofSemantics.parseCapability D c = none := by
  rw [Semantics.parseCapability_default rfl]
  unfold Semantics.parse
  split
  · rfl
  · have : proofSemantics.parseAction c.ability = none := by
      simp [proofSemantics, ProofAction.ofString, h]
    rw [this]

/-- C19 fails: no claim whatever is read as the selection of all proofs. -/
theorem C19_all_unreachable (D : Deps) (resource ability : String) (caveat : Option Json) (v : View ProofSelection ProofAction)
    (h : proofSemantics.parse D resource ability caveat = some v) : kind v.resource ≠ .scoped .all := by
  have hpr : ∀ u k, proofSemantics.parseResource u = some k → k ≠ .scoped .all := by
    intro u k hk e
    subst e
    unfold Semantics.parseResource at hk
    split at hk
    · cases hk
    · rename_i hp
      simp only [proofSemantics, ProofSelection.ofUrl, ProofSelection.ofString, if_neg hp] at hk
      split at hk
      · cases hz : parseUsize (strBytes u.path) with
        | none => rw [hz] at hk; cases hk
        | some m => rw [hz] at hk; cases hk
      · cases hk
  unfold Semantics.parse at h
  split at h
  · cases h
  · rename_i r hr
    split at h
    · cases h
    · cases h
      simp only
      unfold Semantics.resourceOf at hr
      split at hr
      · cases hr
      · rename_i u _
        split at hr
        · cases hk : proofSemantics.parseResource u with
          | none => rw [hk] at hr; cases hr
          | some k => rw [hk] at hr; cases hr; exact hpr u k hk
        · split at hr
          · split at hr
            · cases hr
            · split at hr
              · cases hr
              · rename_i w _
                cases hk : proofSemantics.parseResource w with
                | none => rw [hk] at hr; cases hr
                | some k => rw [hk] at hr; cases hr; exact hpr w k hk
          · cases hk : proofSemantics.parseResource u with
            | none => rw [hk] at hr; cases hr
            | some k => rw [hk] at hr; cases hr; exact hpr u k hk

/-- C19 fails: `prf:*` is read as the generic wildcard. -/
theorem C19_star (D : Deps) : proofSemantics.parse D "prf:*" "ucan/DELEGATE" none = some ⟨.resource .unscoped, .delegate, .obj []⟩ := by
  have h : Url.parse D "prf:*" = some ⟨"prf", "", "*", none, none, "", none, none⟩ := by
    unfold Url.parse Url.parseBytes
    have h1 : Url.splitScheme ((Url.trim (strBytes "prf:*")).filter fun b => !Url.isTabNl b) = some (strBytes "prf", [42]) := by decide +kernel
    rw [h1]
    have h2 : ¬ (asciiStr (strBytes "prf") ∈ Url.specials ∨ ([42] : Bytes).head? = some 47) := by decide +kernel
    simp only [if_neg h2]
    decide +kernel
  unfold Semantics.parse Semantics.resourceOf
  rw [h]
  rfl

/-! ### The text `prf:N` -/

theorem url_prf (D : Deps) (ds : Bytes) (h : ∀ d ∈ ds, Json.isDigit d = true) :
    Url.parse D ("prf:" ++ asciiStr ds) = some ⟨"prf", "", asciiStr ds, none, none, "", none, none⟩ := by
  have facts : ∀ d : UInt8, Json.isDigit d = true → d.toNat < 128 ∧ Url.isC0Space d = false ∧ Url.isTabNl d = false ∧
      Url.isPathByte d = true ∧ Url.encPath d = [d] ∧ d ≠ 47 :=
    forall_uint8 (P := fun d => Json.isDigit d = true → d.toNat < 128 ∧ Url.isC0Space d = false ∧ Url.isTabNl d = false ∧
      Url.isPathByte d = true ∧ Url.encPath d = [d] ∧ d ≠ 47) (by decide +kernel)
  have hasc : IsAscii ds := fun x hx => (facts x (h x hx)).1
  have hpre : strBytes "prf:" = [112, 114, 102, 58] := by decide +kernel
  unfold Url.parse
  rw [strBytes_append, strBytes_asciiStr hasc, hpre]
  have htrim : Url.trim ([112, 114, 102, 58] ++ ds) = [112, 114, 102, 58] ++ ds := by
    unfold Url.trim
    have h1 : ([112, 114, 102, 58] ++ ds).dropWhile Url.isC0Space = [112, 114, 102, 58] ++ ds := by
      simp [Url.isC0Space]
    rw [h1]
    have h2 : ([112, 114, 102, 58] ++ ds).reverse.dropWhile Url.isC0Space = ([112, 114, 102, 58] ++ ds).reverse := by
      cases hr : ([112, 114, 102, 58] ++ ds).reverse with
      | nil => rfl
      | cons x xs =>
        have hx : x ∈ ([112, 114, 102, 58] ++ ds).reverse := by rw [hr]; simp
        have hx : x ∈ [112, 114, 102, 58] ++ ds := List.mem_reverse.1 hx
        have : Url.isC0Space x = false := by
          rcases List.mem_append.1 hx with hx | hx
          · exact (show ∀ y ∈ ([112, 114, 102, 58] : Bytes), Url.isC0Space y = false by decide) x hx
          · exact (facts x (h x hx)).2.1
        simp [this]
    rw [h2, List.reverse_reverse]
  have hfil : ([112, 114, 102, 58] ++ ds).filter (fun b => !Url.isTabNl b) = [112, 114, 102, 58] ++ ds := by
    rw [List.filter_eq_self]
    intro x hx
    rcases List.mem_append.1 hx with hx | hx
    · exact (show ∀ y ∈ ([112, 114, 102, 58] : Bytes), (!Url.isTabNl y) = true by decide) x hx
    · simp [(facts x (h x hx)).2.2.1]
  unfold Url.parseBytes
  rw [htrim, hfil]
  have hsp : Url.splitScheme ([112, 114, 102, 58] ++ ds) = some ([112, 114, 102], ds) := by
    simp [Url.splitScheme, Url.splitScheme.go, Url.isAlpha, Url.isSchemeByte, Url.toLower]
  rw [hsp]
  have hs : asciiStr [112, 114, 102] = "prf" := by decide +kernel
  have hns : ¬ ("prf" ∈ Url.specials ∨ ds.head? = some 47) := by
    rintro (hh | hh)
    · revert hh; decide
    · cases ds with
      | nil => cases hh
      | cons x xs =>
        cases hh
        exact (facts 47 (h 47 (by simp))).2.2.2.2.2 rfl
  simp only [hs, if_neg hns]
  have htd : ∀ ds : Bytes, (∀ d ∈ ds, Json.isDigit d = true) → ds.takeWhile Url.isPathByte = ds ∧ ds.dropWhile Url.isPathByte = [] := by
    intro ds h
    induction ds with
    | nil => exact ⟨rfl, rfl⟩
    | cons x xs ih =>
      have hx := (facts x (h x (by simp))).2.2.2.1
      have ih := ih (fun d hd => h d (by simp [hd]))
      simp [List.takeWhile, List.dropWhile, hx, ih.1, ih.2]
  obtain ⟨ht, hd⟩ := htd ds h
  have hf : ds.flatMap Url.encPath = ds := by
    clear ht hd htd hns hsp hfil htrim hasc
    induction ds with
    | nil => rfl
    | cons x xs ih =>
      rw [List.flatMap_cons, (facts x (h x (by simp))).2.2.2.2.1, ih (fun d hd => h d (by simp [hd]))]
      rfl
  unfold Url.opaque_
  simp only [ht, hd, hf, Url.tailOf]

/-- C19: `prf:N` written in decimal selects proof N, for every N that fits. -/
theorem C19_decimal (D : Deps) (n : Nat) (hn : n < 2 ^ 64) (caveat : Option Json) :
    proofSemantics.parse D ("prf:" ++ asciiStr (Json.decBytes n)) "ucan/DELEGATE" caveat =
      some ⟨.resource (.scoped (.index n)), .delegate, Semantics.parseCaveat caveat⟩ := by
  have hasc : IsAscii (Json.decBytes n) := by
    intro x hx
    exact forall_uint8 (P := fun d => Json.isDigit d = true → d.toNat < 128) (by decide +kernel) x (Json.decBytes_digits n x hx)
  have : proofSemantics.resourceOf D ("prf:" ++ asciiStr (Json.decBytes n)) = some (.resource (.scoped (.index n))) := by
    rw [proof_resourceOf_iff]
    refine ⟨_, url_prf D _ (Json.decBytes_digits n), rfl, ?_⟩
    rw [strBytes_asciiStr hasc]
    exact numeral_decBytes hn
  unfold Semantics.parse
  rw [this]
  rfl

/-- C19: a resource selects at most one proof. -/
theorem C19_unique (D : Deps) (r : String) (n m : Nat) (h : SelectsProof D r n) (h' : SelectsProof D r m) : n = m := by
  obtain ⟨u, hu, _, hn⟩ := h
  obtain ⟨v, hv, _, hm⟩ := h'
  rw [hu] at hv; cases hv
  exact numeral_unique hn hm

/-- C19: a selection of one proof covers no other selection, a selection of all covers every selection. -/
theorem C19_contains (a b : ProofSelection) : proofSemantics.contains a b = true ↔
    match a with
    | .all => True
    | .index n => b = .index n := by
  cases a <;> simp [proofSemantics, ProofSelection.contains, eq_comm]

/-- C19: a redelegation of proof `n` without caveats enables exactly redelegations of that proof. -/
theorem C19_enables (n : Nat) (v : View ProofSelection ProofAction) :
    proofSemantics.enables ⟨.resource (.scoped (.index n)), .delegate, .obj []⟩ v = true ↔
      v.resource = .resource (.scoped (.index n)) ∧ ∃ c, v.caveat = .obj c := by
  obtain ⟨r, a, c⟩ := v
  have hc : (Caveat.ofValue c).isSome ↔ ∃ m, c = .obj m := by
    unfold Caveat.ofValue; cases c <;> simp
  unfold Semantics.enables
  have h0 : Caveat.ofValue (.obj []) = some [] := rfl
  rw [h0]
  cases hv : Caveat.ofValue c with
  | none =>
    rw [hv] at hc
    simp only [Option.isSome_none, Bool.false_eq_true, false_iff] at hc
    simp [hc]
  | some m =>
    rw [hv] at hc
    simp only [Option.isSome_some, true_iff] at hc
    simp only [hc, and_true]
    have he : Caveat.enables [] m = true := by simp [Caveat.enables]
    rw [he]
    rcases r with k | k | ⟨d, k⟩
    · rcases k with t | _
      · cases t <;> simp [Resource.contains, ResourceUri.contains, proofSemantics, ProofSelection.contains, eq_comm]
      · simp [Resource.contains, ResourceUri.contains]
    · simp [Resource.contains]
    · simp [Resource.contains]

/-- Beside C19: a claim redelegating proof 17. -/
example (D : Deps) : Redelegates D ⟨"prf:" ++ asciiStr (Json.decBytes 17), "ucan/DELEGATE", .null⟩ 17 := by
  rw [← C19_index_iff]
  exact ⟨_, C19_decimal D 17 (by decide) _, rfl⟩

/-! ## C20 Printing and parsing -/

theorem utf8_colon (c : Char) (h : (58 : UInt8) ∈ String.utf8EncodeChar c) : c = ':' := by
  unfold String.utf8EncodeChar at h
  simp only at h
  have key : ∀ n : Nat, (58 : UInt8) = UInt8.ofNat n ↔ n % 256 = 58 := by
    intro n
    constructor
    · intro h
      have := congrArg UInt8.toNat h
      simp at this
      exact this.symm
    · intro h
      apply UInt8.toNat_inj.1
      simp [h]
  split at h
  · rename_i hle
    rw [List.mem_singleton, key] at h
    have : c.val.toNat = 58 := by omega
    apply Char.ext
    apply UInt32.toNat_inj.1
    exact this
  · split at h
    · simp only [List.mem_cons, List.not_mem_nil, or_false, key] at h
      omega
    · split at h
      · simp only [List.mem_cons, List.not_mem_nil, or_false, key] at h
        omega
      · simp only [List.mem_cons, List.not_mem_nil, or_false, key] at h
        omega

theorem splitColon_no_colon : ∀ (l : List Char), ∀ p ∈ splitColon l, ':' ∉ p
  | [], p, hp => by simp [splitColon] at hp; simp [hp]
  | c :: cs, p, hp => by
    have ih := splitColon_no_colon cs
    simp only [splitColon] at hp
    split at hp
    · rcases List.mem_cons.1 hp with rfl | hp
      · simp
      · exact ih p hp
    · rename_i hc
      split at hp
      · rename_i h t he
        rcases List.mem_cons.1 hp with rfl | hp
        · intro hm
          rcases List.mem_cons.1 hm with e | hm
          · exact hc e.symm
          · exact ih h (by rw [he]; simp) hm
        · exact ih p (by rw [he]; simp [hp])
      · rw [List.mem_singleton.1 hp]
        intro hm
        exact hc (List.mem_singleton.1 hm).symm

theorem splitScheme_colon {b : Bytes} (h : (58 : UInt8) ∉ b) : Url.splitScheme b = none := by
  have go : ∀ (b acc : Bytes), (58 : UInt8) ∉ b → Url.splitScheme.go acc b = none := by
    intro b
    induction b with
    | nil => intro acc _; rfl
    | cons x xs ih =>
      intro acc h
      simp only [List.mem_cons, not_or] at h
      unfold Url.splitScheme.go
      rw [if_neg (fun e => h.1 e.symm)]
      split
      · exact ih _ h.2
      · rfl
  cases b with
  | nil => rfl
  | cons x xs =>
    simp only [List.mem_cons, not_or] at h
    show (if Url.isAlpha x then Url.splitScheme.go [Url.toLower x] xs else none) = none
    split
    · exact go _ _ h.2
    · rfl

theorem url_parse_no_colon (D : Deps) (s : String) (h : (58 : UInt8) ∉ strBytes s) : Url.parse D s = none := by
  unfold Url.parse Url.parseBytes
  rw [splitScheme_colon]
  intro hm
  have hm := (List.mem_filter.1 hm).1
  unfold Url.trim at hm
  have hm := (List.dropWhile_sublist _).subset (List.mem_reverse.1 hm)
  have hm := (List.dropWhile_sublist _).subset (List.mem_reverse.1 hm)
  exact h hm

theorem splitColon_parts : ∀ (l p : List Char) (ps : List (List Char)), splitColon l = p :: ps ↔
    ':' ∉ p ∧ ((l = p ∧ ps = []) ∨ ∃ t, l = p ++ ':' :: t ∧ ps = splitColon t)
  | [], p, ps => by
    constructor
    · intro h
      injection h with h1 h2
      subst h1; subst h2
      exact ⟨by simp, .inl ⟨rfl, rfl⟩⟩
    · rintro ⟨_, ⟨rfl, rfl⟩ | ⟨t, h, _⟩⟩
      · rfl
      · simp at h
  | c :: cs, p, ps => by
    rw [splitColon]
    by_cases hc : c = ':'
    · subst hc
      rw [if_pos rfl]
      constructor
      · intro h
        injection h with h1 h2
        subst h1; subst h2
        exact ⟨by simp, .inr ⟨cs, rfl, rfl⟩⟩
      · rintro ⟨hp, ⟨rfl, _⟩ | ⟨t, h, rfl⟩⟩
        · exact absurd List.mem_cons_self hp
        · cases p with
          | nil => injection h with _ h; subst h; rfl
          | cons q p => injection h with h _; subst h; exact absurd List.mem_cons_self hp
    · rw [if_neg hc]
      cases hs : splitColon cs with
      | nil =>
        cases cs with
        | nil => cases hs
        | cons x xs =>
          rw [splitColon] at hs
          split at hs
          · cases hs
          · split at hs <;> cases hs
      | cons q qs =>
        have ih := splitColon_parts cs
        have hq := (ih q qs).1 hs
        simp only
        constructor
        · intro h
          injection h with h1 h2
          subst h1; subst h2
          refine ⟨by simp [Ne.symm hc, hq.1], ?_⟩
          rcases hq.2 with ⟨rfl, h⟩ | ⟨t, rfl, h⟩
          · exact .inl ⟨rfl, h⟩
          · exact .inr ⟨t, rfl, h⟩
        · rintro ⟨hp, h⟩
          cases p with
          | nil =>
            rcases h with ⟨h, _⟩ | ⟨t, h, _⟩
            · cases h
            · injection h with h _; exact absurd h hc
          | cons x p =>
            have hp' : ':' ∉ p := fun h => hp (List.mem_cons_of_mem _ h)
            rcases h with ⟨h, rfl⟩ | ⟨t, h, rfl⟩
            · injection h with h1 h2
              subst h1; subst h2
              have := (ih cs []).2 ⟨hp', .inl ⟨rfl, rfl⟩⟩
              rw [hs] at this
              injection this with e1 e2
              rw [e1, e2]
            · injection h with h1 h2
              subst h1
              have := (ih p (splitColon t)).2 ⟨hp', .inr ⟨t, h2, rfl⟩⟩
              rw [hs] at this
              injection this with e1 e2
              rw [e1, e2]

theorem splitColon_flatten : ∀ l : List Char, (splitColon l).flatten = l.filter (· ≠ ':')
  | [] => rfl
  | c :: cs => by
    have ih := splitColon_flatten cs
    rw [splitColon]
    by_cases hc : c = ':'
    · subst hc
      rw [if_pos rfl, List.flatten_cons, ih, List.filter_cons_of_neg (by simp)]
      rfl
    · rw [if_neg hc, List.filter_cons_of_pos (by simp [hc])]
      cases hs : splitColon cs with
      | nil => rw [hs] at ih; simp only [List.flatten_nil] at ih; rw [← ih]; rfl
      | cons q qs => rw [hs] at ih; rw [← ih]; rfl

/-- The DID and the resource behind `as:`: the DID is taken up to the colon that ends it, and of what follows all colons are dropped. -/
theorem C20_extract_did (path d rest : String) : extractDid path = some (d, rest) ↔
    ∃ v tail : List Char, path.toList = "did:key:".toList ++ v ++ tail ∧ ':' ∉ v ∧ (tail = [] ∨ tail.head? = some ':') ∧
      d.toList = "did:key:".toList ++ v ∧ rest.toList = tail.filter (· ≠ ':') := by
  have hd : "did".toList = ['d', 'i', 'd'] ∧ "key".toList = ['k', 'e', 'y'] ∧ "did:key:".toList = ['d', 'i', 'd', ':', 'k', 'e', 'y', ':'] := by
    decide +kernel
  constructor
  · intro h
    unfold extractDid at h
    split at h
    · rename_i a k v r hsp
      split at h
      · rename_i hak
        obtain ⟨rfl, rfl⟩ := hak
        cases h
        obtain ⟨_, h1⟩ := (splitColon_parts _ _ _).1 hsp
        rcases h1 with ⟨_, h1⟩ | ⟨t1, e1, h1⟩
        · cases h1
        · obtain ⟨_, h2⟩ := (splitColon_parts _ _ _).1 h1.symm
          rcases h2 with ⟨_, h2⟩ | ⟨t2, e2, h2⟩
          · cases h2
          · obtain ⟨hv, h3⟩ := (splitColon_parts _ _ _).1 h2.symm
            rcases h3 with ⟨e3, rfl⟩ | ⟨t3, e3, rfl⟩
            · refine ⟨v, [], ?_, hv, .inl rfl, ?_, by simp⟩
              · rw [e1, e2, e3, hd.1, hd.2.1, hd.2.2]; simp
              · simp
            · refine ⟨v, ':' :: t3, ?_, hv, .inr rfl, ?_, ?_⟩
              · rw [e1, e2, e3, hd.1, hd.2.1, hd.2.2]; simp
              · simp
              · rw [String.toList_ofList, splitColon_flatten, List.filter_cons_of_neg (by simp)]
      · cases h
    · cases h
  · rintro ⟨v, tail, hp, hv, ht, h1, h2⟩
    have ed : d = "did:key:" ++ String.ofList v := String.toList_inj.1 (by rw [h1]; simp)
    have er : rest = String.ofList (tail.filter (· ≠ ':')) := String.toList_inj.1 (by rw [h2, String.toList_ofList])
    have key : ∀ r, splitColon (v ++ tail) = v :: r → splitColon path.toList = "did".toList :: "key".toList :: v :: r := by
      intro r hr
      refine (splitColon_parts _ _ _).2 ⟨by decide +kernel, .inr ⟨"key".toList ++ ':' :: (v ++ tail), ?_, ?_⟩⟩
      · rw [hp, hd.1, hd.2.1, hd.2.2]; simp
      · exact ((splitColon_parts _ _ _).2 ⟨by decide +kernel, .inr ⟨v ++ tail, rfl, hr.symm⟩⟩).symm
    rw [ed, er]
    unfold extractDid
    rcases ht with rfl | ht
    · rw [key [] ((splitColon_parts _ _ _).2 ⟨hv, .inl ⟨by simp, rfl⟩⟩)]
      rfl
    · cases tail with
      | nil => cases ht
      | cons c t =>
        cases ht
        rw [key _ ((splitColon_parts _ _ _).2 ⟨hv, .inr ⟨t, rfl, rfl⟩⟩)]
        simp only [and_self, if_true, splitColon_flatten]
        rw [List.filter_cons_of_neg (by simp)]

example : extractDid "did:key:z6Mk:mailto:a@b" = some ("did:key:z6Mk", "mailtoa@b") := by decide +kernel

/-- C20 fails: a resource with scheme `as` never parses, for any DID, scope and semantics. -/
theorem C20_as_never_parses {S A : Type} (D : Deps) (sem : Semantics S A) (resource ability : String) (caveat : Option Json) (u : Url)
    (hu : Url.parse D resource = some u) (hs : u.scheme = "as") : sem.parse D resource ability caveat = none := by
  have : sem.resourceOf D resource = none := by
    unfold Semantics.resourceOf
    rw [hu]
    simp only
    rw [if_neg (by rw [hs]; decide), if_pos hs]
    split
    · rfl
    · rename_i did rest hx
      have hr : Url.parse D rest = none := by
        apply url_parse_no_colon
        unfold extractDid at hx
        split at hx
        · rename_i d k v r hsp
          split at hx
          · cases hx
            rw [strBytes_ofList]
            intro hm
            obtain ⟨c, hc, hm⟩ := List.mem_flatMap.1 hm
            rw [utf8_colon c hm] at hc
            obtain ⟨p, hp, hc⟩ := List.mem_flatten.1 hc
            exact splitColon_no_colon u.path.toList p (by rw [hsp]; simp [hp]) hc
          · cases hx
        · cases hx
      rw [hr]
  unfold Semantics.parse
  rw [this]

/-- C20 fails: no view with an `as:` resource is ever the result of parsing. -/
theorem C20_no_as_view {S A : Type} (D : Deps) (sem : Semantics S A) (resource ability : String) (caveat : Option Json)
    (v : View S A) (h : sem.parse D resource ability caveat = some v) (did : String) : form v.resource ≠ .as_ did := by
  intro hf
  cases hu : Url.parse D resource with
  | none =>
    unfold Semantics.parse Semantics.resourceOf at h
    rw [hu] at h
    cases h
  | some u =>
    by_cases hs : u.scheme = "as"
    · rw [C20_as_never_parses D sem resource ability caveat u hu hs] at h
      cases h
    · unfold Semantics.parse Semantics.resourceOf at h
      rw [hu] at h
      simp only [if_neg hs] at h
      split at h
      · cases h
      · rename_i r hr
        split at h
        · cases h
        · cases h
          split at hr
          · cases hk : sem.parseResource u with
            | none => rw [hk] at hr; cases hr
            | some k => rw [hk] at hr; cases hr; cases hf
          · cases hk : sem.parseResource u with
            | none => rw [hk] at hr; cases hr
            | some k => rw [hk] at hr; cases hr; cases hf

/-- C20 fails: the printed form of a plain wildcard does not parse. -/
theorem C20_wildcard_lost {S A : Type} (D : Deps) (sem : Semantics S A) (hd : sem.overridden = none) (a : A) (c : Json) :
    sem.parseCapability D (sem.toCapability ⟨.resource .unscoped, a, c⟩) = none := by
  rw [Semantics.parseCapability_default hd]
  unfold Semantics.parse Semantics.resourceOf
  have : Url.parse D "*" = none := url_parse_no_colon D "*" (by decide +kernel)
  simp only [Semantics.toCapability, Resource.toStr, ResourceUri.toStr, this]

/-- C20 fails although such a view is parsed from `prf:*` (see `C19_star`): printing and parsing do not give it back. -/
theorem C20_round_trip_fails (D : Deps) : ∃ v, proofSemantics.parse D "prf:*" "ucan/DELEGATE" none = some v ∧
    proofSemantics.parseCapability D (proofSemantics.toCapability v) ≠ some v := by
  refine ⟨_, C19_star D, ?_⟩
  rw [C20_wildcard_lost D proofSemantics rfl]
  simp

/-- A scope whose text is a URL that parses back to it and whose scheme and path do not collide with the built-in forms. -/
def Spec.ScopeRoundTrip {S A : Type} (D : Deps) (sem : Semantics S A) (s : S) : Prop :=
  ∃ u, Url.parse D (sem.scopeStr s) = some u ∧ u.scheme ≠ "my" ∧ u.scheme ≠ "as" ∧ u.path ≠ "*" ∧ sem.parseScope u = some s

/-- C20, the part that holds: plain scoped views round trip, as does `my:*`. Missing: plain wildcards, scoped `my:` resources and all `as:` resources. -/
theorem C20_round_trip_partial {S A : Type} (D : Deps) (sem : Semantics S A) (hd : sem.overridden = none) (s : S) (a : A) (c : Json)
    (hs : ScopeRoundTrip D sem s) (ha : sem.parseAction (sem.actionStr a) = some a) :
    sem.parseCapability D (sem.toCapability ⟨.resource (.scoped s), a, c⟩) = some ⟨.resource (.scoped s), a, c⟩ := by
  obtain ⟨u, hu, h1, h2, h3, h4⟩ := hs
  rw [Semantics.parseCapability_default hd]
  unfold Semantics.parse Semantics.resourceOf
  simp only [Semantics.toCapability, Resource.toStr, ResourceUri.toStr, hu, if_neg h1, if_neg h2, Semantics.parseResource, if_neg h3, h4,
    Option.map_some, ha, Semantics.parseCaveat]

theorem C20_my_wildcard_partial {S A : Type} (D : Deps) (sem : Semantics S A) (hd : sem.overridden = none) (a : A) (c : Json)
    (ha : sem.parseAction (sem.actionStr a) = some a) :
    sem.parseCapability D (sem.toCapability ⟨.my .unscoped, a, c⟩) = some ⟨.my .unscoped, a, c⟩ := by
  have h : Url.parse D "my:*" = some ⟨"my", "", "*", none, none, "", none, none⟩ := by
    unfold Url.parse Url.parseBytes
    have h1 : Url.splitScheme ((Url.trim (strBytes "my:*")).filter fun b => !Url.isTabNl b) = some (strBytes "my", [42]) := by decide +kernel
    rw [h1]
    have h2 : ¬ (asciiStr (strBytes "my") ∈ Url.specials ∨ ([42] : Bytes).head? = some 47) := by decide +kernel
    simp only [if_neg h2]
    decide +kernel
  have hstr : "my:" ++ "*" = "my:*" := by decide +kernel
  rw [Semantics.parseCapability_default hd]
  unfold Semantics.parse Semantics.resourceOf
  simp only [Semantics.toCapability, Resource.toStr, ResourceUri.toStr, hstr, h, Semantics.parseResource, ha, Semantics.parseCaveat]
  rfl

/-! ### Exactly what round trips -/

theorem url_my_scheme (D : Deps) (t : String) (u : Url) (h : Url.parse D ("my:" ++ t) = some u) : u.scheme = "my" := by
  unfold Url.parse at h
  have hpre : strBytes "my:" = [109, 121, 58] := by decide +kernel
  rw [strBytes_append, hpre] at h
  generalize strBytes t = b at h
  have htrim : ∃ r, Url.trim ([109, 121, 58] ++ b) = [109, 121, 58] ++ r := by
    unfold Url.trim
    have h1 : ([109, 121, 58] ++ b).dropWhile Url.isC0Space = [109, 121, 58] ++ b := by simp [Url.isC0Space]
    rw [h1, List.reverse_append, List.dropWhile_append]
    split
    · exact ⟨[], by decide⟩
    · exact ⟨(b.reverse.dropWhile Url.isC0Space).reverse, by rw [List.reverse_append, List.reverse_reverse]⟩
  obtain ⟨r, hr⟩ := htrim
  unfold Url.parseBytes at h
  have hf : ([109, 121, 58] ++ r).filter (fun b => !Url.isTabNl b) = [109, 121, 58] ++ r.filter (fun b => !Url.isTabNl b) := by
    rw [List.filter_append]
    rfl
  rw [hr, hf] at h
  have hsp : ∀ q, Url.splitScheme ([109, 121, 58] ++ q) = some ([109, 121], q) := by
    intro q
    simp [Url.splitScheme, Url.splitScheme.go, Url.isAlpha, Url.isSchemeByte, Url.toLower]
  have hs : asciiStr [109, 121] = "my" := by decide +kernel
  rw [hsp] at h
  simp only [hs] at h
  split at h
  · split at h
    · cases h; rfl
    · cases h
  · cases h
    rfl

/-- What must hold for the resource of a view to survive. -/
def Spec.ResourceSurvives {S A : Type} (D : Deps) (sem : Semantics S A) : Resource S → Prop
  | .resource (.scoped s) => ScopeRoundTrip D sem s
  | .resource .unscoped => False
  | .my (.scoped s) => ∃ u, Url.parse D ("my:" ++ sem.scopeStr s) = some u ∧ u.path ≠ "*" ∧ sem.parseScope u = some s
  | .my .unscoped => True
  | .as_ _ _ => False

theorem parse_eq_some {S A : Type} (D : Deps) (sem : Semantics S A) (r a : String) (c : Json) (v : View S A) :
    sem.parse D r a (some c) = some v ↔ sem.resourceOf D r = some v.resource ∧ sem.parseAction a = some v.ability ∧ c = v.caveat := by
  unfold Semantics.parse
  obtain ⟨vr, va, vc⟩ := v
  cases sem.resourceOf D r with
  | none => simp
  | some x =>
    cases sem.parseAction a with
    | none => simp
    | some y => simp [Semantics.parseCaveat]

/-- C20: exactly which views survive printing and parsing. -/
theorem C20_round_trip_iff {S A : Type} (D : Deps) (sem : Semantics S A) (hd : sem.overridden = none) (v : View S A) :
    sem.parseCapability D (sem.toCapability v) = some v ↔ ResourceSurvives D sem v.resource ∧ sem.parseAction (sem.actionStr v.ability) = some v.ability := by
  rw [Semantics.parseCapability_default hd]
  rw [parse_eq_some]
  obtain ⟨r, a, c⟩ := v
  simp only [Semantics.toCapability, and_true]
  refine and_congr_left fun ha => ?_
  rcases r with k | k | ⟨d, k⟩
  · rcases k with s | _
    · simp only [Resource.toStr, ResourceUri.toStr, ResourceSurvives, ScopeRoundTrip]
      unfold Semantics.resourceOf
      cases hu : Url.parse D (sem.scopeStr s) with
      | none => simp
      | some u =>
        simp only [Option.some.injEq, exists_eq_left']
        by_cases h1 : u.scheme = "my"
        · simp [h1]
        · by_cases h2 : u.scheme = "as"
          · rw [if_neg h1, if_pos h2]
            simp only [h2, ne_eq, not_true_eq_false, false_and, and_false, iff_false]
            split
            · simp
            · split <;> simp
          · simp only [h1, h2, if_false, ne_eq, not_false_eq_true, true_and, Semantics.parseResource]
            by_cases h3 : u.path = "*"
            · simp [h3]
            · simp [h3]
    · simp only [ResourceSurvives, iff_false]
      intro h
      have := C20_wildcard_lost D sem hd a c
      rw [Semantics.parseCapability_default hd] at this
      rw [Option.eq_none_iff_forall_ne_some] at this
      exact this ⟨.resource .unscoped, a, c⟩ ((parse_eq_some ..).2 ⟨h, ha, rfl⟩)
  · rcases k with s | _
    · simp only [Resource.toStr, ResourceUri.toStr, ResourceSurvives]
      unfold Semantics.resourceOf
      cases hu : Url.parse D ("my:" ++ sem.scopeStr s) with
      | none => simp
      | some u =>
        simp only [Option.some.injEq, exists_eq_left', url_my_scheme D _ u hu, if_true, Semantics.parseResource]
        by_cases h3 : u.path = "*"
        · simp [h3]
        · simp [h3]
    · simp only [ResourceSurvives, iff_true]
      have := C20_my_wildcard_partial D sem hd a c ha
      rw [Semantics.parseCapability_default hd] at this
      exact ((parse_eq_some ..).1 this).1
  · simp only [ResourceSurvives, iff_false]
    intro h
    exact C20_no_as_view D sem _ (sem.actionStr a) (some c) ⟨.as_ d k, a, c⟩ ((parse_eq_some ..).2 ⟨h, ha, rfl⟩) d rfl

/-- C20: the printed resource is the text of the scope, after `my:` or after `as:`, the DID and a colon. -/
inductive Spec.ResourceText {S : Type} (f : S → String) : Resource S → String → Prop
  | plain (s : S) : ResourceText f (.resource (.scoped s)) (f s)
  | wildcard : ResourceText f (.resource .unscoped) "*"
  | my {k : ResourceUri S} {t : String} : ResourceText f (.resource k) t → ResourceText f (.my k) ("my:" ++ t)
  | as_ {k : ResourceUri S} {t : String} (did : String) : ResourceText f (.resource k) t → ResourceText f (.as_ did k) ("as:" ++ did ++ ":" ++ t)

/-- C20: the text of a view. -/
theorem C20_text {S A : Type} (sem : Semantics S A) (v : View S A) (c : Capability) :
    sem.toCapability v = c ↔ ResourceText sem.scopeStr v.resource c.resource ∧ c.ability = sem.actionStr v.ability ∧ c.caveat = v.caveat := by
  obtain ⟨r, a, cv⟩ := v
  obtain ⟨x, y, z⟩ := c
  have hk : ∀ (k : ResourceUri S) t, ResourceText sem.scopeStr (.resource k) t ↔ t = k.toStr sem.scopeStr := by
    intro k t
    constructor
    · intro h; cases h <;> rfl
    · rintro rfl
      cases k
      · exact .plain _
      · exact .wildcard
  have : ResourceText sem.scopeStr r x ↔ r.toStr sem.scopeStr = x := by
    rcases r with k | k | ⟨d, k⟩
    · rw [hk]; exact eq_comm
    · constructor
      · intro h
        cases h with
        | my h => rw [(hk k _).1 h]; rfl
      · rintro rfl
        exact .my ((hk k _).2 rfl)
    · constructor
      · intro h
        cases h with
        | as_ _ h => rw [(hk k _).1 h]; rfl
      · rintro rfl
        exact .as_ d ((hk k _).2 rfl)
  simp only [Semantics.toCapability, Capability.mk.injEq, this]
  grind

/-- Beside C20: proof selections under `my:` never survive, since the scope is read from the whole URL, `my:` included. -/
example (D : Deps) (n : Nat) : ¬ ResourceSurvives D proofSemantics (.my (.scoped (.index n))) := by
  rintro ⟨u, hu, _, hs⟩
  have := url_my_scheme D _ u hu
  simp [proofSemantics, ProofSelection.ofUrl, this] at hs

/-- Beside C20: the proof semantics meets the hypotheses for every index that fits. -/
example (D : Deps) (n : Nat) (hn : n < 2 ^ 64) : ScopeRoundTrip D proofSemantics (.index n) ∧
    proofSemantics.parseAction (proofSemantics.actionStr .delegate) = some .delegate := by
  have hasc : IsAscii (Json.decBytes n) := by
    intro x hx
    exact forall_uint8 (P := fun d => Json.isDigit d = true → d.toNat < 128) (by decide +kernel) x (Json.decBytes_digits n x hx)
  have hstar : asciiStr (Json.decBytes n) ≠ "*" := by
    intro e
    have := congrArg strBytes e
    rw [strBytes_asciiStr hasc] at this
    have hd := Json.decBytes_digits n 42 (by rw [this]; decide +kernel)
    revert hd; decide
  refine ⟨⟨_, url_prf D _ (Json.decBytes_digits n), show "prf" ≠ "my" by decide, show "prf" ≠ "as" by decide, hstar, ?_⟩, rfl⟩
  simp only [proofSemantics, ProofSelection.ofUrl, ProofSelection.ofString, if_neg hstar, if_true, strBytes_asciiStr hasc,
    (parseUsize_iff _ _).2 (numeral_decBytes hn), Option.map_some]

end Verif
