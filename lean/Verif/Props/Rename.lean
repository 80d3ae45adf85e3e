import Verif.Spec.Rename
import Verif.Props.Reduce
import Verif.Props.Fixtures

/-! # Property C97: no party and no capability is special -/

namespace Verif
open Spec Chain Reduce Fixtures

variable {S A S' A' : Type}

namespace Rename

/-- A map of reports that the merge does not notice. -/
structure Through (sem : Semantics S A) (sem' : Semantics S' A') (g : Info S A → Info S' A') : Prop where
  enables : ∀ i j, sem'.enables (g i).capability (g j).capability = sem.enables i.capability j.capability
  absorbs : ∀ r p, { g r with originators := BSet.extend (g r).originators (g p).originators } =
    g { r with originators := BSet.extend r.originators p.originators }

theorem absorb_map {sem : Semantics S A} {sem' : Semantics S' A'} {g : Info S A → Info S' A'} (h : Through sem sem' g) (p : Info S A) :
    ∀ l, absorb sem' (g p) (l.map g) = (absorb sem p l).map (List.map g)
  | [] => rfl
  | r :: rs => by
    simp only [List.map_cons, absorb, h.enables]
    by_cases he : sem.enables r.capability p.capability = true
    · simp only [he, if_true, h.absorbs, Option.map_some, List.map_cons]
    · simp only [he, Bool.false_eq_true, if_false, absorb_map h p rs, Option.map_map]
      rfl

theorem mergeLoop_map {sem : Semantics S A} {sem' : Semantics S' A'} {g : Info S A → Info S' A'} (h : Through sem sem' g) :
    ∀ n l acc, mergeLoop sem' n (l.map g) (acc.map g) = (mergeLoop sem n l acc).map g
  | 0, l, acc => rfl
  | n + 1, l, acc => by
    unfold mergeLoop
    rw [List.getLast?_map]
    cases l.getLast? with
    | none => rfl
    | some p =>
      simp only [Option.map_some, ← List.map_dropLast, absorb_map h]
      cases absorb sem p l.dropLast with
      | none =>
        have := mergeLoop_map h n l.dropLast (acc ++ [p])
        simp only [List.map_append, List.map_cons, List.map_nil] at this
        exact this
      | some rest => exact mergeLoop_map h n rest acc

theorem merge_map {sem : Semantics S A} {sem' : Semantics S' A'} {g : Info S A → Info S' A'} (h : Through sem sem' g) (l : List (Info S A)) :
    merge sem' (l.map g) = (merge sem l).map g := by
  unfold merge
  rw [List.length_map]
  exact mergeLoop_map h _ l []

theorem ancestral_map {α β : Type} (g : α → β) (redel : BSet Nat) : ∀ (i : Nat) (l : List (Res (List α))),
    ancestral redel i (l.map (Except.map (List.map g))) = (ancestral redel i l).map (List.map g)
  | _, [] => rfl
  | i, r :: rs => by
    simp only [List.map_cons, ancestral]
    rw [ancestral_map g redel (i + 1) rs]
    split
    · rfl
    · cases r with
      | error e => rfl
      | ok l =>
        cases ancestral redel (i + 1) rs with
        | error e => rfl
        | ok ls => simp [Except.map]

theorem redelegated_map {α β : Type} (g : α → β) (results : List (Res (List α))) : ∀ l : List Nat,
    redelegated (results.map (Except.map (List.map g))) l = (redelegated results l).map (List.map g)
  | [] => rfl
  | i :: is => by
    simp only [redelegated, List.getElem?_map, redelegated_map g results is]
    cases results[i]? with
    | none => rfl
    | some r =>
      cases r with
      | error e => rfl
      | ok l =>
        cases redelegated results is with
        | error e => rfl
        | ok ls => simp [Except.map]

theorem mapWhile_map {α β γ : Type} (f : α → Option β) (f' : α → Option γ) (g : β → γ) (h : ∀ x, f' x = (f x).map g) :
    ∀ l, mapWhile f' l = (mapWhile f l).map g
  | [] => rfl
  | x :: xs => by
    simp only [mapWhile, h]
    cases f x with
    | none => rfl
    | some y => simp [mapWhile_map f f' g h xs]

theorem renamedSet_mem {f : String → String} {s : BSet String} {x : String} : x ∈ renamedSet f s ↔ ∃ y ∈ s, f y = x := by
  simp [renamedSet, BSet.mem_extend]

theorem renamedSet_sorted (f : String → String) (s : BSet String) : (renamedSet f s).Sorted := BSet.sorted_extend (by simp [BSet.Sorted]) _

theorem renamedSet_extend (f : String → String) (a b : BSet String) :
    BSet.extend (renamedSet f a) (renamedSet f b) = renamedSet f (BSet.extend a b) := by
  refine BSet.ext (BSet.sorted_extend (renamedSet_sorted f a) _) (renamedSet_sorted f _) fun x => ?_
  simp only [BSet.mem_extend, renamedSet_mem]
  constructor
  · rintro (⟨y, h, e⟩ | ⟨y, h, e⟩)
    · exact ⟨y, Or.inl h, e⟩
    · exact ⟨y, Or.inr h, e⟩
  · rintro ⟨y, h | h, e⟩
    · exact Or.inl ⟨y, h, e⟩
    · exact Or.inr ⟨y, h, e⟩

theorem renamedSet_isEmpty (f : String → String) (s : BSet String) : (renamedSet f s).isEmpty = s.isEmpty := by
  cases s with
  | nil => rfl
  | cons a l =>
    have : f a ∈ renamedSet f (a :: l) := renamedSet_mem.2 ⟨a, by simp, rfl⟩
    cases h : renamedSet f (a :: l) with
    | nil => rw [h] at this; cases this
    | cons => rfl

/-- A report under other names. -/
def named (f : String → String) (i : Info S A) : Info S A := { i with originators := renamedSet f i.originators }

theorem named_through (sem : Semantics S A) (f : String → String) : Through sem sem (named f) :=
  ⟨fun _ _ => rfl, fun r p => by simp only [named, renamedSet_extend]⟩

theorem gather_named (sem : Semantics S A) (f : String → String) (v : View S A) : ∀ (l : List (Info S A)) (acc : BSet String),
    gather sem v (renamedSet f acc) (l.map (named f)) = renamedSet f (gather sem v acc l)
  | [], _ => rfl
  | i :: is, acc => by
    simp only [List.map_cons, gather, named, renamedSet_extend]
    split
    · exact gather_named sem f v is _
    · exact gather_named sem f v is _

mutual
theorem reduce_named (D : Deps) (sem : Semantics S A) (f : String → String) : ∀ c : Chain,
    reduce D sem (renamed f c) = (reduce D sem c).map (List.map (named f))
  | .mk u proofs redel => by
    simp only [renamed, reduce]
    rw [reduceAll_named D sem f proofs]
    unfold combine
    rw [ancestral_map]
    cases ha : ancestral redel 0 (reduceAll D sem proofs) with
    | error e => rfl
    | ok anc =>
      rw [redelegated_map]
      cases hr : redelegated (reduceAll D sem proofs) redel with
      | error e => rfl
      | ok red =>
        simp only [Except.map]
        rw [← merge_map (named_through sem f)]
        congr 2
        rw [List.map_append]
        congr 1
        · simp only [selfInfos, List.map_map, List.length_map, Ucan.capabilities, Ucan.notBefore, Ucan.expiresAt, Ucan.issuer]
          refine List.map_congr_left fun v _ => ?_
          simp only [Function.comp, named]
          by_cases hn : (reduceAll D sem proofs).length = 0
          · simp [hn]; rfl
          · simp only [hn, if_false, originators, Ucan.issuer]
            have := gather_named sem f v anc []
            rw [show renamedSet f [] = [] from rfl] at this
            rw [this, renamedSet_isEmpty]
            split <;> rfl
        · simp only [List.map_map]
          rfl
theorem reduceAll_named (D : Deps) (sem : Semantics S A) (f : String → String) : ∀ cs : List Chain,
    reduceAll D sem (renamedAll f cs) = (reduceAll D sem cs).map (Except.map (List.map (named f)))
  | [] => rfl
  | c :: cs => by simp only [renamedAll, reduceAll, List.map_cons, reduce_named D sem f c, reduceAll_named D sem f cs]
end

/-- `Translates` for whole views. -/
structure Same (D : Deps) (sem : Semantics S A) (sem' : Semantics S' A') (g : View S A → View S' A') : Prop where
  parse : ∀ c, sem'.parseCapability D c = (sem.parseCapability D c).map g
  enables : ∀ v w, sem'.enables (g v) (g w) = sem.enables v w

theorem parseResource_map {sem : Semantics S A} {sem' : Semantics S' A'} {h : S → S'} {k : A → A'} (t : Translates sem sem' h k) (u : Url) :
    sem'.parseResource u = (sem.parseResource u).map fun r => match r with | .scoped s => .scoped (h s) | .unscoped => .unscoped := by
  unfold Semantics.parseResource
  split
  · rfl
  · rw [t.scope]
    cases sem.parseScope u <;> rfl

theorem resourceOf_map {sem : Semantics S A} {sem' : Semantics S' A'} {h : S → S'} {k : A → A'} (t : Translates sem sem' h k) (D : Deps) (s : String) :
    sem'.resourceOf D s = (sem.resourceOf D s).map (Spec.Resource.scopeMap h) := by
  have key : ∀ (u : Url) (w : ∀ {T : Type}, ResourceUri T → Resource T)
      (_ : ∀ r : ResourceUri S, Spec.Resource.scopeMap h (w r) = w (match r with | .scoped s => .scoped (h s) | .unscoped => .unscoped)),
      (sem'.parseResource u).map w = ((sem.parseResource u).map w).map (Spec.Resource.scopeMap h) := by
    intro u w hw
    rw [parseResource_map t, Option.map_map, Option.map_map]
    congr 1
    funext r
    exact (hw r).symm
  unfold Semantics.resourceOf
  cases Url.parse D s with
  | none => rfl
  | some u =>
    simp only
    split
    · exact key u .my (fun r => by cases r <;> rfl)
    · split
      · cases extractDid u.path with
        | none => rfl
        | some p =>
          simp only
          cases Url.parse D p.2 with
          | none => rfl
          | some v => exact key v (.as_ p.1) (fun r => by cases r <;> rfl)
      · exact key u .resource (fun r => by cases r <;> rfl)

theorem contains_map {sem : Semantics S A} {sem' : Semantics S' A'} {h : S → S'} {k : A → A'} (t : Translates sem sem' h k) (r r' : Resource S) :
    (Spec.Resource.scopeMap h r).contains sem'.contains (Spec.Resource.scopeMap h r') = r.contains sem.contains r' := by
  rcases r with (_ | _) | (_ | _) | ⟨_, _ | _⟩ <;> rcases r' with (_ | _) | (_ | _) | ⟨_, _ | _⟩ <;>
    simp [Spec.Resource.scopeMap, Resource.contains, ResourceUri.contains, t.contains]

theorem same {sem : Semantics S A} {sem' : Semantics S' A'} {h : S → S'} {k : A → A'} (t : Translates sem sem' h k) (D : Deps) :
    Same D sem sem' (Spec.View.translated h k) := by
  constructor
  · intro c
    unfold Semantics.parseCapability Semantics.parse
    rw [resourceOf_map t, t.action, t.overridden]
    cases sem.overridden with
    | some f => rfl
    | none =>
      cases sem.resourceOf D c.resource with
      | none => rfl
      | some r => cases sem.parseAction c.ability <;> rfl
  · intro v w
    simp only [Semantics.enables, Spec.View.translated, contains_map t, t.ge]

/-- A report in other types. -/
def typed (g : View S A → View S' A') (i : Info S A) : Info S' A' := ⟨i.originators, i.notBefore, i.expiresAt, g i.capability⟩

theorem gather_typed {D : Deps} {sem : Semantics S A} {sem' : Semantics S' A'} {g : View S A → View S' A'} (h : Same D sem sem' g) (v : View S A) :
    ∀ (l : List (Info S A)) (acc : BSet String), gather sem' (g v) acc (l.map (typed g)) = gather sem v acc l
  | [], _ => rfl
  | i :: is, acc => by
    simp only [List.map_cons, gather, typed, h.enables]
    split
    · exact gather_typed h v is _
    · exact gather_typed h v is _

mutual
theorem reduce_typed {D : Deps} {sem : Semantics S A} {sem' : Semantics S' A'} {g : View S A → View S' A'} (h : Same D sem sem' g) : ∀ c : Chain,
    reduce D sem' c = (reduce D sem c).map (List.map (typed g))
  | .mk u proofs redel => by
    simp only [reduce]
    rw [reduceAll_typed h proofs]
    unfold combine
    rw [ancestral_map]
    cases ha : ancestral redel 0 (reduceAll D sem proofs) with
    | error e => rfl
    | ok anc =>
      rw [redelegated_map]
      cases hr : redelegated (reduceAll D sem proofs) redel with
      | error e => rfl
      | ok red =>
        simp only [Except.map]
        rw [← merge_map (sem := sem) (sem' := sem') (g := typed g) ⟨fun _ _ => h.enables _ _, fun _ _ => rfl⟩]
        congr 2
        rw [List.map_append]
        congr 1
        · simp only [selfInfos, List.length_map]
          rw [mapWhile_map _ _ g h.parse, List.map_map, List.map_map]
          refine List.map_congr_left fun v _ => ?_
          simp only [Function.comp, typed, originators, gather_typed h]
        · simp only [List.map_map]
          rfl
theorem reduceAll_typed {D : Deps} {sem : Semantics S A} {sem' : Semantics S' A'} {g : View S A → View S' A'} (h : Same D sem sem' g) : ∀ cs : List Chain,
    reduceAll D sem' cs = (reduceAll D sem cs).map (Except.map (List.map (typed g)))
  | [] => rfl
  | c :: cs => by simp only [reduceAll, List.map_cons, reduce_typed h c, reduceAll_typed h cs]
end

end Rename

/-- C97: other names for the parties give the same reports under the other names, even if two parties get the same name. -/
theorem C97_names (D : Deps) (sem : Semantics S A) (f : String → String) (c : Chain) (out : List (Info S A)) (h : reduce D sem c = .ok out) :
    reduce D sem (renamed f c) = .ok (out.map fun i => ⟨renamedSet f i.originators, i.notBefore, i.expiresAt, i.capability⟩) ∧
    ∀ i ∈ out, ∀ x, x ∈ renamedSet f i.originators ↔ ∃ y ∈ i.originators, f y = x := by
  refine ⟨?_, fun i _ x => Rename.renamedSet_mem⟩
  rw [Rename.reduce_named, h]
  rfl

/-- C97: other types for scopes and abilities give the same reports in the other types. -/
theorem C97_types (D : Deps) (sem : Semantics S A) (sem' : Semantics S' A') (h : S → S') (k : A → A') (t : Translates sem sem' h k) (c : Chain)
    (out : List (Info S A)) (ho : reduce D sem c = .ok out) :
    reduce D sem' c = .ok (out.map fun i => ⟨i.originators, i.notBefore, i.expiresAt, Spec.View.translated h k i.capability⟩) := by
  rw [Rename.reduce_typed (Rename.same t D), ho]
  rfl

/-- C97: and the two applications agree on every pair of capabilities. -/
theorem C97_enables (sem : Semantics S A) (sem' : Semantics S' A') (h : S → S') (k : A → A') (t : Translates sem sem' h k) (v w : View S A) :
    sem'.enables (Spec.View.translated h k v) (Spec.View.translated h k w) = sem.enables v w := by
  simp only [Semantics.enables, Spec.View.translated, Rename.contains_map t, t.ge]

namespace Ex

/-- Beside C97: everyone under one name; the originator changes with it. -/
example (D : Deps) : reduce D emailSemantics (chain3 D capSend capSend capSend) = .ok [⟨[did 1], some 5, some 20, ⟨.resource (.scoped ⟨"a@b"⟩), .send, .obj []⟩⟩] ∧
    reduce D emailSemantics (renamed (fun _ => "did:key:zX") (chain3 D capSend capSend capSend)) =
      .ok [⟨["did:key:zX"], some 5, some 20, ⟨.resource (.scoped ⟨"a@b"⟩), .send, .obj []⟩⟩] :=
  ⟨send_reduce D, (C97_names D emailSemantics (fun _ => "did:key:zX") _ _ (send_reduce D)).1⟩

/-- The mail semantics with plain strings for addresses. -/
def mailText : Semantics String Unit where
  parseScope u := (EmailAddress.ofUrl u).map EmailAddress.address
  parseAction s := if s = "email/send" then some () else none
  scopeStr s := "mailto:" ++ s
  actionStr _ := "email/send"
  contains s t := decide (s = t)
  ge _ _ := true

theorem mail_translates : Translates emailSemantics mailText EmailAddress.address (fun _ => ()) where
  scope _ := rfl
  action s := by
    show (if s = "email/send" then some () else none) = (if s = "email/send" then some EmailAction.send else none).map fun _ => ()
    split <;> rfl
  contains s t := by cases s; cases t; simp [emailSemantics, mailText]
  ge _ _ := rfl
  overridden := rfl

/-- Beside C97: the same report with the address as a string. -/
example (D : Deps) : reduce D mailText (chain3 D capSend capSend capSend) = .ok [⟨[did 1], some 5, some 20, ⟨.resource (.scoped "a@b"), (), .obj []⟩⟩] :=
  C97_types D emailSemantics mailText _ _ mail_translates _ _ (send_reduce D)

end Ex
end Verif
