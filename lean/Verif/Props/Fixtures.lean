import Verif.Spec.Fixtures
import Verif.Spec.Capability
import Verif.Props.ProofSemantics
import Verif.Props.Reduce
import Verif.Props.ReduceExamples

/-! # The example semantics (C74) -/

namespace Verif
open Spec Chain Reduce

namespace Fixtures

theorem splitSlash_ne (l : List Char) : splitSlash l ≠ [] := by
  cases l with
  | nil => simp [splitSlash]
  | cons c cs =>
    rw [splitSlash]
    split
    · simp
    · split <;> simp

/-- The segments, joined again. -/
def joinSlash : List (List Char) → List Char
  | [] => []
  | [p] => p
  | p :: q :: ps => p ++ '/' :: joinSlash (q :: ps)

theorem join_split (l : List Char) : joinSlash (splitSlash l) = l := by
  induction l with
  | nil => rfl
  | cons c cs ih =>
    rw [splitSlash]
    have hne := splitSlash_ne cs
    split
    · rename_i h
      subst h
      cases hs : splitSlash cs with
      | nil => exact absurd hs hne
      | cons p ps =>
        rw [hs] at ih
        rw [joinSlash, ih]
        rfl
    · cases hs : splitSlash cs with
      | nil => exact absurd hs hne
      | cons p ps =>
        rw [hs] at ih
        simp only
        cases ps with
        | nil => simp only [joinSlash] at ih ⊢; rw [ih]
        | cons q ps => simp only [joinSlash, List.cons_append] at ih ⊢; rw [ih]

theorem splitSlash_append (l r : List Char) : splitSlash (l ++ '/' :: r) = splitSlash l ++ splitSlash r := by
  induction l with
  | nil => simp [splitSlash]
  | cons c cs ih =>
    rw [List.cons_append, splitSlash, splitSlash, ih]
    split
    · rfl
    · have hne := splitSlash_ne cs
      cases hs : splitSlash cs with
      | nil => exact absurd hs hne
      | cons p ps => rfl

theorem joinSlash_append {a b : List (List Char)} (ha : a ≠ []) (hb : b ≠ []) : joinSlash (a ++ b) = joinSlash a ++ '/' :: joinSlash b := by
  induction a with
  | nil => exact absurd rfl ha
  | cons p a ih =>
    cases a with
    | nil =>
      cases b with
      | nil => exact absurd rfl hb
      | cons q b => rfl
    | cons q a =>
      have := ih (by simp)
      simp only [List.cons_append] at this ⊢
      rw [joinSlash, this, joinSlash, List.append_assoc, List.cons_append]

theorem matchParts_iff (a b : List (List Char)) : matchParts a b = true ↔ a <+: b := by
  induction a generalizing b with
  | nil => simp [matchParts]
  | cons p a ih =>
    cases b with
    | nil => simp [matchParts]
    | cons q b =>
      rw [matchParts, List.cons_prefix_cons]
      split
      · rename_i h; rw [ih]; simp [h]
      · rename_i h; simp [h]

end Fixtures

open Fixtures

/-- C74: one WNFS scope contains another exactly when it has the same origin and the other path is the same or goes on with a slash. -/
theorem C74_wnfs_contains (s t : WnfsScope) : wnfsSemantics.contains s t = true ↔ s.origin = t.origin ∧ Below s.path t.path := by
  show s.contains t = true ↔ _
  unfold WnfsScope.contains
  split
  · rename_i ho
    rw [matchParts_iff]
    refine Iff.trans ?_ (and_iff_right ho).symm
    have hstr : ∀ rest : String, t.path = s.path ++ "/" ++ rest ↔ t.path.toList = s.path.toList ++ '/' :: rest.toList := by
      intro rest
      rw [← String.toList_inj]
      simp [String.toList_append]
    constructor
    · rintro ⟨r, hr⟩
      cases r with
      | nil =>
        left
        rw [List.append_nil] at hr
        rw [← String.toList_inj, ← join_split t.path.toList, ← hr, join_split]
      | cons q r =>
        right
        refine ⟨String.ofList (joinSlash (q :: r)), (hstr _).2 ?_⟩
        rw [← join_split t.path.toList, ← hr, joinSlash_append (splitSlash_ne _) (by simp), join_split, String.toList_ofList]
    · rintro (h | ⟨rest, h⟩)
      · rw [h]; exact List.prefix_refl _
      · rw [(hstr rest).1 h, splitSlash_append]
        exact List.prefix_append _ _
  · rename_i ho
    simp [ho]

/-- C74: one email address contains exactly itself. -/
theorem C74_email_contains (s t : EmailAddress) : emailSemantics.contains s t = true ↔ s.address = t.address := by
  obtain ⟨s⟩ := s
  obtain ⟨t⟩ := t
  simp [emailSemantics]

/-- C74: the five levels, from weakest to strongest. -/
def levels : List WnfsLevel := [.create, .revise, .softDelete, .overwrite, .superUser]

/-- C74: a level includes another exactly when it is named later in the list. -/
theorem C74_wnfs_levels (a b : WnfsLevel) : wnfsSemantics.ge a b = true ↔ ∃ i j : Nat, j ≤ i ∧ levels[i]? = some a ∧ levels[j]? = some b := by
  show decide (b.rank ≤ a.rank) = true ↔ _
  have h : ∀ (c : WnfsLevel) (i : Nat), levels[i]? = some c ↔ i = c.rank := by
    intro c i
    match i with
    | 0 => cases c <;> simp [levels, WnfsLevel.rank]
    | 1 => cases c <;> simp [levels, WnfsLevel.rank]
    | 2 => cases c <;> simp [levels, WnfsLevel.rank]
    | 3 => cases c <;> simp [levels, WnfsLevel.rank]
    | 4 => cases c <;> simp [levels, WnfsLevel.rank]
    | n + 5 => cases c <;> simp [levels, WnfsLevel.rank]
  simp only [h, decide_eq_true_eq]
  constructor
  · intro hle; exact ⟨_, _, hle, rfl, rfl⟩
  · rintro ⟨i, j, hle, rfl, rfl⟩; exact hle

/-- C74: names of levels are read back, and nothing else is read as a level. -/
theorem C74_wnfs_names (s : String) (a : WnfsLevel) : wnfsSemantics.parseAction s = some a ↔ s = wnfsSemantics.actionStr a := by
  show WnfsLevel.ofString s = some a ↔ s = a.toStr
  unfold WnfsLevel.ofString
  constructor
  · intro h
    repeat' split at h
    all_goals first | (cases h; assumption) | cases h
  · rintro rfl
    cases a <;> decide

/-- C74: the one email ability is read under its name and nothing else is. -/
theorem C74_email_names (s : String) : (emailSemantics.parseAction s = some .send ↔ s = "email/send") ∧ (emailSemantics.parseAction s = none ↔ s ≠ "email/send") ∧
    emailSemantics.actionStr .send = "email/send" := by
  refine ⟨?_, ?_, rfl⟩
  · show EmailAction.ofString s = _ ↔ _
    unfold EmailAction.ofString
    split <;> simp [*]
  · show EmailAction.ofString s = _ ↔ _
    unfold EmailAction.ofString
    split <;> simp [*]

theorem below_refl (p : String) : Below p p := Or.inl rfl

theorem below_trans {p q r : String} (h1 : Below p q) (h2 : Below q r) : Below p r := by
  rcases h1 with rfl | ⟨a, rfl⟩
  · exact h2
  · rcases h2 with rfl | ⟨b, rfl⟩
    · exact Or.inr ⟨a, rfl⟩
    · exact Or.inr ⟨a ++ "/" ++ b, by simp [String.append_assoc]⟩

/-- C74: both semantics are lawful, so everything proved for lawful semantics holds for them. -/
theorem C74_lawful : Lawful emailSemantics ∧ Lawful wnfsSemantics := by
  constructor
  · exact ⟨fun s => by simp [emailSemantics], fun s t u => by simp only [emailSemantics, decide_eq_true_eq]; exact Eq.trans,
      fun a => by cases a; rfl, fun a b c _ _ => by cases a; cases c; rfl⟩
  · refine ⟨fun s => ?_, fun s t u h1 h2 => ?_, fun a => by simp [wnfsSemantics], fun a b c => ?_⟩
    · rw [C74_wnfs_contains]; exact ⟨rfl, below_refl _⟩
    · rw [C74_wnfs_contains] at *
      exact ⟨h1.1.trans h2.1, below_trans h1.2 h2.2⟩
    · simp only [wnfsSemantics, decide_eq_true_eq]
      omega

/-- C74: scopes that contain each other are equal. -/
theorem C74_wnfs_antisymm (s t : WnfsScope) (h1 : wnfsSemantics.contains s t = true) (h2 : wnfsSemantics.contains t s = true) : s = t := by
  rw [C74_wnfs_contains] at h1 h2
  obtain ⟨ho, p | ⟨a, ha⟩⟩ := h1
  · obtain ⟨so, sp⟩ := s; obtain ⟨to, tp⟩ := t
    simp only at ho p
    rw [ho, p]
  · have hlen : ∀ x y : String, (x ++ "/" ++ y).toList.length = x.toList.length + 1 + y.toList.length := by
      intro x y; simp [String.toList_append]; omega
    have l1 := congrArg (fun x => x.toList.length) ha
    rcases h2.2 with p | ⟨b, hb⟩
    · have l2 := congrArg (fun x => x.toList.length) p
      simp only [hlen] at l1 l2
      omega
    · have l2 := congrArg (fun x => x.toList.length) hb
      simp only [hlen] at l1 l2
      omega

/-- C74: a path with a slash at the end contains no path below it that was written in the usual way (violates what a directory suggests):
in particular the root path contains only itself and paths with an empty first segment. -/
theorem C74_trailing_slash (o p name : String) (h : name.toList.head? ≠ some '/') (hn : name ≠ "") :
    wnfsSemantics.contains ⟨o, p ++ "/"⟩ ⟨o, p ++ "/" ++ name⟩ = false := by
  rw [← Bool.not_eq_true, C74_wnfs_contains]
  rintro ⟨_, h1 | ⟨rest, h1⟩⟩
  · have := congrArg String.toList h1
    simp [String.toList_append] at this
    exact hn this
  · have := congrArg String.toList h1
    simp [String.toList_append] at this
    rw [this] at h
    simp at h

/-! ## Reading and writing email resources -/

theorem pathByte_facts {b : UInt8} (h : PathByte b) : Url.isTabNl b = false ∧ Url.isPathByte b = true ∧ Url.encPath b = [b] ∧ b.toNat < 128 := by
  obtain ⟨h1, h2, h3, h4⟩ := h
  refine ⟨?_, ?_, ?_, ?_⟩
  · simp only [Url.isTabNl, Bool.or_eq_false_iff, beq_eq_false_iff_ne]
    refine ⟨⟨?_, ?_⟩, ?_⟩ <;> rintro rfl <;> exact absurd h1 (by decide)
  · simp [Url.isPathByte, h3, h4]
  · have : Url.isControl b = false := by
      simp only [Url.isControl, Bool.or_eq_false_iff, decide_eq_false_iff_not, UInt8.not_lt, ge_iff_le, UInt8.not_le]
      exact ⟨h1, h2⟩
    simp [Url.encPath, this]
  · have : b.toNat < 127 := h2
    omega

/-- What may follow the path. -/
def Suffix (r : Bytes) : Prop := r = [] ∨ ∃ c r', r = c :: r' ∧ (c = 63 ∨ c = 35)

theorem trim_suffix {pre r : Bytes} (h1 : ∀ b ∈ pre.head?, Url.isC0Space b = false) (h2 : r = [] → ∀ b ∈ pre.getLast?, Url.isC0Space b = false) (hp : pre ≠ [])
    (hr : Suffix r) : ∃ r', Suffix r' ∧ Url.trim (pre ++ r) = pre ++ r' := by
  have hd : (pre ++ r).dropWhile Url.isC0Space = pre ++ r := by
    obtain ⟨c, pre, rfl⟩ := List.exists_cons_of_ne_nil hp
    rw [List.cons_append, List.dropWhile_cons, h1 c rfl]
    rfl
  unfold Url.trim
  rw [hd, List.reverse_append]
  rcases hr with rfl | ⟨c, r, rfl, hc⟩
  · refine ⟨[], Or.inl rfl, ?_⟩
    rw [List.reverse_nil, List.nil_append, List.append_nil]
    have : pre.reverse.dropWhile Url.isC0Space = pre.reverse := by
      cases h : pre.reverse with
      | nil => rfl
      | cons x xs =>
        have hx : pre.getLast? = some x := by rw [List.getLast?_eq_head?_reverse, h]; rfl
        rw [List.dropWhile_cons, h2 rfl x hx]
        rfl
    rw [this, List.reverse_reverse]
  · have hc' : Url.isC0Space c = false := by rcases hc with rfl | rfl <;> decide
    have key : ∀ l : Bytes, ∃ l', (l ++ c :: pre.reverse).dropWhile Url.isC0Space = l' ++ c :: pre.reverse := by
      intro l
      induction l with
      | nil => exact ⟨[], by rw [List.nil_append, List.dropWhile_cons, hc']; rfl⟩
      | cons x l ih =>
        rw [List.cons_append, List.dropWhile_cons]
        split
        · exact ih
        · exact ⟨x :: l, rfl⟩
    obtain ⟨l', hl'⟩ := key r.reverse
    refine ⟨c :: l'.reverse, Or.inr ⟨c, _, rfl, hc⟩, ?_⟩
    have e : (c :: r).reverse ++ pre.reverse = r.reverse ++ c :: pre.reverse := by simp
    rw [e, hl']
    simp

theorem takeWhile_path {b r : Bytes} (hb : ∀ x ∈ b, Url.isPathByte x = true) (hr : Suffix r) :
    (b ++ r).takeWhile Url.isPathByte = b := by
  rw [List.takeWhile_append_of_pos hb]
  rcases hr with rfl | ⟨c, r, rfl, rfl | rfl⟩ <;> simp [Url.isPathByte]

/-- How an address is read, whatever query or fragment follows. -/
theorem url_mailto (D : Deps) (s r : String) (h1 : ∀ b ∈ strBytes s, PathByte b) (h2 : (strBytes s).head? ≠ some 47) (h3 : r = "" → (strBytes s).getLast? ≠ some 32)
    (hr : Suffix (strBytes r)) : ∃ u, Url.parse D ("mailto:" ++ s ++ r) = some u ∧ u.scheme = "mailto" ∧ u.path = s := by
  unfold Url.parse
  have hpre : strBytes "mailto:" = [109, 97, 105, 108, 116, 111, 58] := by decide +kernel
  have hasc : asciiStr (strBytes s) = s := by
    have : IsAscii (strBytes s) := fun b hb => (pathByte_facts (h1 b hb)).2.2.2
    exact strBytes_inj (by rw [strBytes_asciiStr this])
  have h3' : strBytes r = [] → (strBytes s).getLast? ≠ some 32 := fun h => h3 (strBytes_inj (by rw [h]; rfl))
  rw [strBytes_append, strBytes_append, hpre]
  generalize strBytes s = b at *
  generalize strBytes r = q at *
  have htrim : ∃ q', Suffix q' ∧ Url.trim ([109, 97, 105, 108, 116, 111, 58] ++ b ++ q) = [109, 97, 105, 108, 116, 111, 58] ++ b ++ q' := by
    refine trim_suffix (by intro x hx; cases hx; decide) (fun hq x hx => ?_) (by simp) hr
    rw [List.getLast?_append] at hx
    cases hb : b.getLast? with
    | none => rw [hb] at hx; cases hx; decide
    | some y =>
      rw [hb] at hx
      cases hx
      have hm : x ∈ b := List.mem_of_getLast? hb
      have hx32 : x ≠ 32 := by rintro rfl; exact h3' hq hb
      have := (h1 x hm).1
      simp only [Url.isC0Space, decide_eq_false_iff_not, UInt8.not_le]
      rw [UInt8.lt_iff_toNat_lt]
      rw [UInt8.le_iff_toNat_le] at this
      have hne : x.toNat ≠ (32 : UInt8).toNat := fun h => hx32 (UInt8.toNat_inj.1 h)
      omega
  obtain ⟨q', hq', ht⟩ := htrim
  unfold Url.parseBytes
  rw [ht, List.filter_append, List.filter_append]
  have hf : b.filter (fun x => !Url.isTabNl x) = b := List.filter_eq_self.2 fun x hx => by rw [(pathByte_facts (h1 x hx)).1]; rfl
  rw [hf]
  obtain ⟨q2, hq2, he⟩ : ∃ q2, Suffix q2 ∧ q'.filter (fun x => !Url.isTabNl x) = q2 := by
    refine ⟨_, ?_, rfl⟩
    rcases hq' with rfl | ⟨c, q3, rfl, hc⟩
    · exact Or.inl rfl
    · refine Or.inr ⟨c, q3.filter (fun x => !Url.isTabNl x), ?_, hc⟩
      rcases hc with rfl | rfl <;> rfl
  rw [he]
  have hfp : ([109, 97, 105, 108, 116, 111, 58] : Bytes).filter (fun x => !Url.isTabNl x) = [109, 97, 105, 108, 116, 111, 58] := by decide
  rw [hfp]
  have hsp : ∀ z, Url.splitScheme ([109, 97, 105, 108, 116, 111, 58] ++ b ++ z) = some ([109, 97, 105, 108, 116, 111], b ++ z) := by
    intro z
    simp [Url.splitScheme, Url.splitScheme.go, Url.isAlpha, Url.isSchemeByte, Url.toLower]
  have hs : asciiStr [109, 97, 105, 108, 116, 111] = "mailto" := by decide +kernel
  rw [hsp]
  simp only [hs]
  rw [if_neg]
  · refine ⟨_, rfl, ?_, ?_⟩
    · rfl
    · have htw := takeWhile_path (b := b) (fun x hx => (pathByte_facts (h1 x hx)).2.1) hq2
      have henc : b.flatMap Url.encPath = b := by
        have : ∀ l : Bytes, (∀ x ∈ l, PathByte x) → l.flatMap Url.encPath = l := by
          intro l
          induction l with
          | nil => intro _; rfl
          | cons x l ih =>
            intro h
            rw [List.flatMap_cons, ih (fun y hy => h y (by simp [hy])), (pathByte_facts (h x (by simp))).2.2.1]
            rfl
        exact this b h1
      unfold Url.opaque_
      simp only [htw, henc, hasc]
  · rintro (h | h)
    · revert h; decide +kernel
    · cases b with
      | nil =>
        rcases hq2 with rfl | ⟨c, q3, rfl, rfl | rfl⟩ <;> simp at h
      | cons x b => exact h2 (by simpa using h)

/-- C74: an email resource means the address it names, and a query or fragment after it does not matter. -/
theorem C74_email_resource (D : Deps) (s r : String) (hs : PlainAddress s) (hr : Suffix (strBytes r)) (c : Json) :
    emailSemantics.parse D ("mailto:" ++ s ++ r) "email/send" (some c) = some ⟨.resource (.scoped ⟨s⟩), .send, c⟩ := by
  obtain ⟨u, hu, h1, h2⟩ := url_mailto D s r hs.1 hs.2.1 (fun _ => hs.2.2.1) hr
  rw [parse_eq_some]
  refine ⟨?_, rfl, rfl⟩
  unfold Semantics.resourceOf
  rw [hu]
  simp only [h1]
  rw [if_neg (by decide), if_neg (by decide)]
  unfold Semantics.parseResource
  rw [h2, if_neg hs.2.2.2]
  simp [emailSemantics, EmailAddress.ofUrl, h1, h2]

/-- C74: plain addresses survive writing and reading. -/
theorem C74_email_round_trip (D : Deps) (s : String) (hs : PlainAddress s) (c : Json) :
    emailSemantics.parseCapability D (emailSemantics.toCapability ⟨.resource (.scoped ⟨s⟩), .send, c⟩) = some ⟨.resource (.scoped ⟨s⟩), .send, c⟩ := by
  have := C74_email_resource D s "" hs (Or.inl rfl) c
  rw [String.append_empty] at this
  exact this

/-! ## What a report means -/

/-- C74: a WNFS capability reported for a sole originator goes back to a claim the originator made in a token of the chain, for the same
file system, at this path or one above it (or for everything), at this level or a stronger one. -/
theorem C74_wnfs_origin (D : Deps) (c : Chain) (out : List (Info WnfsScope WnfsLevel)) (h : reduce D wnfsSemantics c = .ok out)
    (i : Info WnfsScope WnfsLevel) (hi : i ∈ out) (o : String) (ho : i.originators = [o]) (s : WnfsScope) (hs : i.capability.resource = .resource (.scoped s)) :
    ∃ d v, Sub d c ∧ d.ucan.payload.iss = o ∧ Claimed D wnfsSemantics d.ucan v ∧
      (v.resource = .resource .unscoped ∨ ∃ p, v.resource = .resource (.scoped ⟨s.origin, p⟩) ∧ Below p s.path) ∧
      wnfsSemantics.ge v.ability i.capability.ability = true := by
  have hf := C32_sole_flows D wnfsSemantics c out h i hi o (by rw [ho]; simp)
  obtain ⟨d, hd, hiss, v, hv, hc⟩ := C32_flow_origin D wnfsSemantics (enablesTrans_of_lawful C74_lawful.2) hf
  refine ⟨d, v, hd, hiss, hv, ?_⟩
  rcases hc with hc | hc
  · rw [hc]
    exact ⟨Or.inr ⟨s.path, hs, below_refl _⟩, C74_lawful.2.geRefl _⟩
  · unfold Semantics.enables at hc
    split at hc
    · simp only [Bool.and_eq_true] at hc
      refine ⟨?_, hc.1.2⟩
      have hr := hc.1.1
      rw [hs] at hr
      cases hv' : v.resource with
      | resource k =>
        rw [hv'] at hr
        rcases k with ⟨so, sp⟩ | _
        · have := (C74_wnfs_contains ⟨so, sp⟩ s).1 hr
          right
          exact ⟨sp, by rw [← this.1], this.2⟩
        · exact Or.inl rfl
      | my k => rw [hv'] at hr; cases hr
      | as_ d k => rw [hv'] at hr; cases hr
    · cases hc

/-! ### Beside C74 -/

namespace Ex

example : wnfsSemantics.contains ⟨"a.fission.name", "/public"⟩ ⟨"a.fission.name", "/public/photos/x.jpg"⟩ = true ∧
    wnfsSemantics.contains ⟨"a.fission.name", "/public"⟩ ⟨"a.fission.name", "/public2"⟩ = false ∧
    wnfsSemantics.contains ⟨"a.fission.name", "/public/photos"⟩ ⟨"a.fission.name", "/public"⟩ = false ∧
    wnfsSemantics.contains ⟨"a.fission.name", "/public"⟩ ⟨"b.fission.name", "/public"⟩ = false ∧
    wnfsSemantics.contains ⟨"a.fission.name", "/"⟩ ⟨"a.fission.name", "/public"⟩ = false ∧
    wnfsSemantics.contains ⟨"a.fission.name", ""⟩ ⟨"a.fission.name", "/public"⟩ = true := by decide +kernel

example : wnfsSemantics.ge .superUser .create = true ∧ wnfsSemantics.ge .create .revise = false := by decide

example : PlainAddress "alice@email.com" ∧ Suffix (strBytes "?subject=hi") := by
  refine ⟨⟨?_, by decide +kernel, by decide +kernel, by decide +kernel⟩, Or.inr ⟨63, strBytes "subject=hi", by decide +kernel, Or.inl rfl⟩⟩
  have h : (strBytes "alice@email.com").all (fun b => 32 ≤ b && b < 127 && b != 63 && b != 35) = true := by decide +kernel
  intro b hb
  have := List.all_eq_true.1 h b hb
  simp at this
  exact ⟨this.1.1.1, this.1.1.2, this.1.2, this.2⟩

/-- The three-token chain of the examples of C31, with the mail semantics that come with the crate: everyone claims to send as `a@b`. -/
def capSend : Capabilities := capsOf [("mailto:a@b", ["email/send"])]

theorem send_reduce (D : Deps) :
    reduce D emailSemantics (chain3 D capSend capSend capSend) = .ok [⟨[did 1], some 5, some 20, ⟨.resource (.scoped ⟨"a@b"⟩), .send, .obj []⟩⟩] := rfl

end Ex

end Verif
