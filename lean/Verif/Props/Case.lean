import Verif.Spec.Case
import Verif.Props.Wildcard
import Verif.Props.HandOn

/-! # C126: abilities mean the same whatever the case of their letters -/

namespace Verif
open Spec Chain Reduce

variable {S A : Type}

namespace Case

theorem sameLetter_iff (x y : UInt8) : SameLetter x y ↔ Url.toLower x = Url.toLower y := by
  unfold SameLetter Url.toLower
  simp only [Bool.and_eq_true, decide_eq_true_eq, UInt8.le_iff_toNat_le, ← UInt8.toNat_inj, UInt8.toNat_add, UInt8.reduceToNat]
  have h1 := UInt8.toNat_lt x
  have h2 := UInt8.toNat_lt y
  split <;> split <;> (try simp only [UInt8.toNat_add, UInt8.reduceToNat]) <;> omega

theorem sameBytes_iff : ∀ a b : Bytes, SameBytes a b ↔ a.map Url.toLower = b.map Url.toLower
  | [], [] => ⟨fun _ => rfl, fun _ => .nil⟩
  | [], _ :: _ => ⟨fun h => (nomatch h), fun h => (nomatch h)⟩
  | _ :: _, [] => ⟨fun h => (nomatch h), fun h => (nomatch h)⟩
  | x :: a, y :: b => by
    rw [List.map_cons, List.map_cons, List.cons.injEq, ← sameLetter_iff, ← sameBytes_iff a b]
    exact ⟨fun h => by cases h with | cons h h' => exact ⟨h, h'⟩, fun h => .cons h.1 h.2⟩

/-- What the URL parser asks about a byte of a scheme does not depend on its case. -/
theorem lower_class (x : UInt8) : Url.isC0Space (Url.toLower x) = Url.isC0Space x ∧ Url.isTabNl (Url.toLower x) = Url.isTabNl x ∧
    Url.isAlpha (Url.toLower x) = Url.isAlpha x ∧ Url.isSchemeByte (Url.toLower x) = Url.isSchemeByte x ∧ Url.toLower (Url.toLower x) = Url.toLower x ∧
    (Url.toLower x = 58 ↔ x = 58) :=
  forall_uint8 (P := fun x => Url.isC0Space (Url.toLower x) = Url.isC0Space x ∧ Url.isTabNl (Url.toLower x) = Url.isTabNl x ∧
    Url.isAlpha (Url.toLower x) = Url.isAlpha x ∧ Url.isSchemeByte (Url.toLower x) = Url.isSchemeByte x ∧ Url.toLower (Url.toLower x) = Url.toLower x ∧
    (Url.toLower x = 58 ↔ x = 58)) (by decide +kernel) x

theorem dropWhile_mid (p : UInt8 → Bool) (hp : p 58 = false) (t : Bytes) : ∀ a : Bytes, (a ++ 58 :: t).dropWhile p = a.dropWhile p ++ 58 :: t
  | [] => by simp [hp]
  | x :: a => by
    rw [List.cons_append, List.dropWhile_cons, List.dropWhile_cons]
    split
    · exact dropWhile_mid p hp t a
    · rfl

theorem trim_mid (a t : Bytes) : Url.trim (a ++ 58 :: t) = a.dropWhile Url.isC0Space ++ 58 :: (t.reverse.dropWhile Url.isC0Space).reverse := by
  unfold Url.trim
  rw [dropWhile_mid _ rfl, List.reverse_append, List.reverse_cons, List.append_assoc, List.singleton_append, dropWhile_mid _ rfl]
  simp

theorem dropWhile_lower (p : UInt8 → Bool) (hp : ∀ x, p (Url.toLower x) = p x) : ∀ a : Bytes, (a.map Url.toLower).dropWhile p = (a.dropWhile p).map Url.toLower
  | [] => rfl
  | x :: a => by
    rw [List.map_cons, List.dropWhile_cons, List.dropWhile_cons, hp]
    split
    · exact dropWhile_lower p hp a
    · rfl

theorem filter_lower (p : UInt8 → Bool) (hp : ∀ x, p (Url.toLower x) = p x) (a : Bytes) : (a.map Url.toLower).filter p = (a.filter p).map Url.toLower := by
  rw [List.filter_map]
  congr 2
  funext x
  exact hp x

theorem go_lower (t : Bytes) : ∀ (a acc : Bytes), 58 ∉ a → Url.splitScheme.go acc (a.map Url.toLower ++ 58 :: t) = Url.splitScheme.go acc (a ++ 58 :: t)
  | [], _, _ => rfl
  | x :: a, acc, h => by
    rw [List.map_cons, List.cons_append, List.cons_append, Url.splitScheme.go, Url.splitScheme.go]
    obtain ⟨_, _, _, h4, h5, h6⟩ := lower_class x
    have hx : x ≠ 58 := fun e => h (by rw [e]; exact List.mem_cons_self)
    rw [if_neg hx, if_neg (fun e => hx (h6.1 e)), h4, h5, go_lower t a _ fun hm => h (List.mem_cons_of_mem _ hm)]

theorem splitScheme_lower (t : Bytes) : ∀ a : Bytes, 58 ∉ a → Url.splitScheme (a.map Url.toLower ++ 58 :: t) = Url.splitScheme (a ++ 58 :: t)
  | [], _ => rfl
  | x :: a, h => by
    rw [List.map_cons, List.cons_append, List.cons_append, Url.splitScheme, Url.splitScheme]
    obtain ⟨_, _, h3, _, h5, _⟩ := lower_class x
    rw [h3, h5, go_lower t a _ fun hm => h (List.mem_cons_of_mem _ hm)]

theorem parseBytes_lower (D : Deps) (a t : Bytes) (h : 58 ∉ a) : Url.parseBytes D (a.map Url.toLower ++ 58 :: t) = Url.parseBytes D (a ++ 58 :: t) := by
  have e : Url.splitScheme ((Url.trim (a.map Url.toLower ++ 58 :: t)).filter fun b => !Url.isTabNl b) =
      Url.splitScheme ((Url.trim (a ++ 58 :: t)).filter fun b => !Url.isTabNl b) := by
    rw [trim_mid, trim_mid, List.filter_append, List.filter_append, dropWhile_lower _ (fun x => (lower_class x).1),
      filter_lower _ (fun x => by rw [(lower_class x).2.1])]
    have hc : ∀ t : Bytes, (58 :: t).filter (fun b => !Url.isTabNl b) = 58 :: t.filter fun b => !Url.isTabNl b := fun t => rfl
    rw [hc, splitScheme_lower]
    intro hm
    exact h ((List.dropWhile_sublist _).mem (List.mem_filter.1 hm).1)
  unfold Url.parseBytes
  rw [e]

end Case

/-! ## What holds: resources -/

/-- C126, what holds: the case of the letters of a scheme does not matter. Two resources that differ in the case of letters before the first colon only are read alike
by every capability type. -/
theorem C126_schemes_partial (D : Deps) (r r' : String) (a b t : Bytes) (hr : strBytes r = a ++ 58 :: t) (hr' : strBytes r' = b ++ 58 :: t) (ha : 58 ∉ a)
    (h : SameBytes a b) (sem : Semantics S A) (hd : sem.overridden = none) (ability : String) (caveat : Json) :
    sem.parseCapability D ⟨r, ability, caveat⟩ = sem.parseCapability D ⟨r', ability, caveat⟩ := by
  have hl := (Case.sameBytes_iff a b).1 h
  have hb : 58 ∉ b := by
    intro hm
    have h1 : (58 : UInt8) ∈ b.map Url.toLower := List.mem_map.2 ⟨58, hm, rfl⟩
    rw [← hl] at h1
    obtain ⟨x, hx, e⟩ := List.mem_map.1 h1
    rw [(Case.lower_class x).2.2.2.2.2.1 e] at hx
    exact ha hx
  have e : Url.parse D r = Url.parse D r' := by
    unfold Url.parse
    rw [hr, hr', ← Case.parseBytes_lower D a t ha, ← Case.parseBytes_lower D b t hb, hl]
  rw [Semantics.parseCapability_default hd, Semantics.parseCapability_default hd]
  unfold Semantics.parse Semantics.resourceOf
  simp only [e]

/-! ## What does not: abilities -/

/-- C126: a chain hands on what its proofs report for one spelling of the ability only. Where no claim has it, nothing is handed on: everything reported is a claim of
the token itself, whatever other spellings its claims have. -/
theorem C126_ignored (D : Deps) (E : Env) (nowTime : Option UInt64) (w w' : World) (c : Chain) (hc : Coherent w.parser) (h : Built D E nowTime w w' c)
    (hs : ∀ cl ∈ c.ucan.payload.cap.iter, cl.ability ≠ "ucan/DELEGATE") (sem : Semantics S A) (out : List (Info S A)) (ho : reduce D sem c = .ok out) :
    ∀ i ∈ out, ∃ cl ∈ c.ucan.payload.cap.iter, sem.parseCapability D cl = some i.capability := by
  refine C28_own D sem c out ho ?_
  have hb := built_sound hc h
  obtain ⟨u, ps, r⟩ := c
  have hr := hb.2.2
  show r = []
  cases r with
  | nil => rfl
  | cons k r =>
    obtain ⟨cl, hcl, ha, _⟩ := (hr.claimed k).1 List.mem_cons_self
    exact absurd ha (hs cl hcl)

/-- C126: what `ser_to_lower_case` (serde.rs 12-18) writes, which is the helper meant for it and is used nowhere, is never understood as the ability to delegate:
no text without upper-case letters is. -/
theorem C126_lower (D : Deps) (c : Capability) (h : AllLower c.ability) : proofSemantics.parseCapability D c = none := by
  refine C19_other_ability D c fun e => ?_
  rw [e] at h
  exact h 68 (by decide +kernel) (by decide)

namespace Ex

/-- Delegates the first proof, with a spelling of the ability. -/
def capSpelt (s : String) : Capabilities := capsOf [("prf:0", [s])]

theorem capSpelt_plain (s : String) : Plain (capSpelt s) :=
  ⟨by simp [BMap.Sorted, capSpelt, capsOf], by simp [BMap.Sorted, capSpelt, capsOf], by simp [capSpelt, capsOf]⟩

/-- Key 2 hands on what it got from key 1. -/
def spelt (D : Deps) (s : String) : Chain := .mk (tok2 D (capSpelt s)) [.mk (tok1 D capC) [] []] (if s = "ucan/DELEGATE" then [0] else [])

theorem spelt_redel (D : Deps) (s : String) : RedelOk D (tok2 D (capSpelt s)) 1 (if s = "ucan/DELEGATE" then [0] else []) := by
  have hc : ∀ c, c ∈ (tok2 D (capSpelt s)).payload.cap.iter ↔ c = ⟨"prf:0", s, .obj []⟩ := by
    intro c
    show c ∈ (capSpelt s).iter ↔ _
    simp [capSpelt, capsOf, Capabilities.iter]
  have h0 : SelectsProof D "prf:0" 0 := (prf0 D (.obj [])).2
  by_cases h : s = "ucan/DELEGATE"
  · rw [if_pos h]
    refine ⟨by simp [BSet.Sorted], fun i => ?_, by simp⟩
    rw [List.mem_singleton]
    constructor
    · rintro rfl
      exact ⟨_, (hc _).2 rfl, h, h0⟩
    · rintro ⟨c, hm, _, hs⟩
      rw [(hc c).1 hm] at hs
      exact C19_unique D _ _ _ hs h0
  · rw [if_neg h]
    refine ⟨by simp [BSet.Sorted], fun i => ⟨fun h => (nomatch h), ?_⟩, by simp⟩
    rintro ⟨c, hm, ha, _⟩
    rw [(hc c).1 hm] at ha
    exact absurd ha h

theorem spelt_built (D : Deps) (s : String) : ∃ w', Built D (still (dags3 D capC (capSpelt s)) 7) none world w' (spelt D s) := by
  have s1 : Resolves D (Holds (still (dags3 D capC (capSpelt s)) 7)) (cid 1).toStr (tok1 D capC) := by
    refine ⟨cid 1, (tok1 D capC).encode D, cid_parse D 1, rfl, ?_, parses' D 1 (did 2) _ _ _ capC_plain⟩
    exact memRead_bytes.2 (by show (if cid 1 = cid 1 then _ else _) = _; rw [if_pos rfl])
  obtain ⟨fuel, h⟩ := (C24_complete D (still (dags3 D capC (capSpelt s)) 7) none 7 (fun _ => rfl) (fun _ _ _ => rfl)
    ((tok2 D (capSpelt s)).encode D) world world_coherent (spelt D s)).2
    ⟨parses' D 2 (did 3) _ _ _ (capSpelt_plain s), by
      unfold spelt
      simp only [Sound, SoundAll]
      exact ⟨valid D 2 _ 20 5 _ _ 7 (by decide) (by decide),
        ⟨_, _, rfl, s1, ⟨rfl, fun n hn => ⟨n, hn, UInt64.le_refl _⟩, fun n hn => ⟨n, hn, UInt64.le_refl _⟩⟩,
          ⟨valid D 1 _ 20 5 _ _ 7 (by decide) (by decide), rfl, redelOk D _ _ capC_noRedel⟩, rfl⟩, spelt_redel D s⟩⟩
  exact ⟨_, .ofToken fuel _ (Prod.ext h rfl)⟩

end Ex
open Ex

/-- C126 is violated: there are texts that differ from `ucan/DELEGATE` in the case of letters only, and a token that delegates its proof by another text than this one
is accepted all the same, but hands nothing on. -/
theorem C126_violated (D : Deps) : (∃ s, SameButCase s "ucan/DELEGATE" ∧ s ≠ "ucan/DELEGATE") ∧
    ∀ s, s ≠ "ucan/DELEGATE" → ∃ (E E' : Env) (w w1 w2 : World) (c c' : Chain),
      Coherent w.parser ∧ Built D E none w w1 c ∧ Built D E' none w w2 c' ∧ c.proofs = c'.proofs ∧
      c.ucan.payload.cap.iter = [⟨"prf:0", "ucan/DELEGATE", .obj []⟩] ∧ c'.ucan.payload.cap.iter = [⟨"prf:0", s, .obj []⟩] ∧
      reduce D mailSem c = .ok [⟨[did 1], some 5, some 20, mail "c@d" 1⟩] ∧ reduce D mailSem c' = .ok [] := by
  refine ⟨⟨"ucan/delegate", ?_, by decide⟩, fun s hne => ?_⟩
  · unfold SameButCase
    rw [Case.sameBytes_iff]
    decide +kernel
  obtain ⟨w1, h1⟩ := spelt_built D "ucan/DELEGATE"
  obtain ⟨w2, h2⟩ := spelt_built D s
  refine ⟨_, _, world, w1, w2, _, _, world_coherent, h1, h2, rfl, rfl, rfl, rfl, ?_⟩
  unfold spelt
  rw [if_neg hne]
  rfl

/-- Beside `C126_lower`: a spelling without upper-case letters. -/
example : AllLower "ucan/delegate" := by
  unfold AllLower
  decide +kernel

/-- Beside `C126_schemes_partial`: `PRF:0` and `prf:0`. -/
example : strBytes "PRF:0" = [80, 82, 70] ++ 58 :: [48] ∧ strBytes "prf:0" = [112, 114, 102] ++ 58 :: [48] ∧ SameBytes [80, 82, 70] [112, 114, 102] := by
  refine ⟨by decide +kernel, by decide +kernel, ?_⟩
  rw [Case.sameBytes_iff]
  decide +kernel

end Verif
