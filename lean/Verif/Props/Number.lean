import Verif.Props.Cost
import Verif.Props.Depends
import Verif.Props.HandOn

/-! # Property C100: how many capabilities are reported -/

namespace Verif
open Spec Chain Reduce HandOn

variable {S A : Type}

/-- Number of claims of a list of tokens. -/
def Spec.tokenClaims (tokens : List Ucan) : Nat := (tokens.map fun u => u.payload.cap.iter.length).sum

namespace Number

theorem nodup_length {α : Type} : ∀ (l m : List α), l.Nodup → (∀ x ∈ l, x ∈ m) → l.length ≤ m.length
  | [], _, _, _ => Nat.zero_le _
  | x :: l, m, hn, hs => by
    obtain ⟨m1, m2, rfl⟩ := List.append_of_mem (hs x (by simp))
    rw [List.nodup_cons] at hn
    have := nodup_length l (m1 ++ m2) hn.2 (by
      intro y hy
      have := hs y (by simp [hy])
      simp only [List.mem_append, List.mem_cons] at this ⊢
      rcases this with h | rfl | h
      · exact Or.inl h
      · exact absurd hy hn.1
      · exact Or.inr h)
    simp only [List.length_append, List.length_cons] at this ⊢
    omega

theorem offers_token {D : Deps} {sem : Semantics S A} {c : Chain} {v : View S A} (h : Offers D sem c v) :
    ∃ d, Sub d c ∧ ∃ cl ∈ d.ucan.payload.cap.iter, sem.parseCapability D cl = some v := by
  induction h with
  | @claim c v h =>
    obtain ⟨pre, cl, post, e, _, h2⟩ := h
    exact ⟨c, .self c, cl, by rw [e]; simp, h2⟩
  | @redelegated c p v k _ hp _ ih =>
    obtain ⟨d, hd, hcl⟩ := ih
    exact ⟨d, .proof (List.mem_of_getElem? hp) hd, hcl⟩

theorem flatMap_filterMap_length {α β γ : Type} (f : α → List β) (g : β → Option γ) (l : List α) :
    (l.flatMap fun a => (f a).filterMap g).length ≤ (l.map fun a => (f a).length).sum := by
  induction l with
  | nil => simp
  | cons a l ih =>
    simp only [List.flatMap_cons, List.length_append, List.map_cons, List.sum_cons]
    have := List.length_filterMap_le g (f a)
    omega

end Number
open Number

/-- C100 (partial): if caveats are objects, at most as many capabilities are reported as the tokens claim, each token counted once however often it is
cited. Otherwise the claim is refuted by `C100_doubling`. -/
theorem C100_bounded_partial (D : Deps) (sem : Semantics S A) (hl : Lawful sem) (c : Chain) (out : List (Info S A)) (h : reduce D sem c = .ok out)
    (hobj : ∀ d, Sub d c → ∀ cl ∈ d.ucan.payload.cap.iter, ∀ v, sem.parseCapability D cl = some v → ObjCaveat v)
    (tokens : List Ucan) (ht : ∀ d, Sub d c → d.ucan ∈ tokens) : out.length ≤ tokenClaims tokens := by
  have hoff := C28_offered D sem c out h
  have hd : (out.map (·.capability)).Nodup := by
    rw [List.Nodup, List.pairwise_map]
    have := C35_distinct D sem hl c out h
    refine List.Pairwise.imp_of_mem ?_ this
    intro a b ha _ hab
    obtain ⟨d, hd, cl, hcl, hp⟩ := offers_token (hoff a ha)
    exact hab (hobj d hd cl hcl _ hp)
  have hm : ∀ v ∈ out.map (·.capability), v ∈ tokens.flatMap fun u => u.payload.cap.iter.filterMap (sem.parseCapability D) := by
    intro v hv
    obtain ⟨i, hi, rfl⟩ := List.mem_map.1 hv
    obtain ⟨d, hd, cl, hcl, hp⟩ := offers_token (hoff i hi)
    exact List.mem_flatMap.2 ⟨d.ucan, ht d hd, List.mem_filterMap.2 ⟨cl, hcl, hp⟩⟩
  have := nodup_length _ _ hd hm
  rw [List.length_map] at this
  exact Nat.le_trans this (flatMap_filterMap_length _ _ _)

/-! A party hands a token on to themselves, twice each time. -/

namespace Ex

/-- A claim whose caveat is not an object. -/
def capNull : Capabilities := [("mailto:c@d", [("m/1", [.null])])]

def double (D : Deps) : Nat → Ucan
  | 0 => ucan D 1 (did 1) (some 20) (some 5) none capNull
  | k + 1 => ucan D 1 (did 1) (some 20) (some 5) (some [(numCid k).toStr, (numCid k).toStr]) capBoth

theorem good_null (D : Deps) : Codec.Good D .null := ⟨trivial, trivial, trivial⟩

theorem double_parses (D : Deps) : ∀ k, Ucan.fromStr D ((double D k).encode D) = .ok (double D k)
  | 0 => by
    refine C01_round_trip_general D _ ⟨?_, ?_, ?_, by simp [double, ucan, payload], ?_⟩ rfl
    · show BMap.Sorted capNull
      unfold BMap.Sorted; decide
    · show ∀ r ∈ capNull, BMap.Sorted r.2
      unfold BMap.Sorted; decide
    · have : ∀ r ∈ capNull, ∀ a ∈ r.2, ∀ c ∈ a.2, c = .null := by decide
      intro r hr a ha c hc
      rw [this r hr a ha c hc]
      exact good_null D
    · have := Codec.depth_payload (n := 10) (double D 0).payload (by
        have : ∀ r ∈ capNull, ∀ a ∈ r.2, ∀ c ∈ a.2, c = .null := by decide
        intro r hr a ha c hc
        rw [this r hr a ha c hc]
        decide) (by omega) (by simp [double, ucan, payload])
      simp only [Json.depthLimit]
      omega
  | _ + 1 => parses' D 1 _ _ _ _ capBoth_plain

theorem double_valid (D : Deps) : ∀ k, ValidAt none exCtors 7 (double D k)
  | 0 => valid D 1 _ 20 5 _ _ 7 (by decide) (by decide)
  | _ + 1 => valid D 1 _ 20 5 _ _ 7 (by decide) (by decide)

theorem double_bounds (D : Deps) : ∀ k, (double D k).payload.iss = did 1 ∧ (double D k).payload.aud = did 1 ∧ (double D k).payload.nbf = some 5 ∧
    (double D k).payload.exp = some 20
  | 0 => ⟨rfl, rfl, rfl, rfl⟩
  | _ + 1 => ⟨rfl, rfl, rfl, rfl⟩

theorem double_claims (D : Deps) : ∀ k, (double D k).payload.cap.iter.length ≤ 2
  | 0 => by show capNull.iter.length ≤ 2; decide
  | _ + 1 => by show capBoth.iter.length ≤ 2; decide

/-- The store holds the first `n` tokens. -/
def doubleDags (D : Deps) (n : Nat) : Store.Dags := fun c =>
  ((List.range n).find? fun k => decide (c = numCid k)).map fun k => strBytes ((double D k).encode D)

theorem doubleDags_get (D : Deps) {n k : Nat} (hn : n ≤ 2 ^ 32) (hk : k < n) : doubleDags D n (numCid k) = some (strBytes ((double D k).encode D)) := by
  unfold doubleDags
  have : (List.range n).find? (fun j => decide (numCid k = numCid j)) = some k := by
    rw [List.find?_range_eq_some]
    refine ⟨decide_eq_true rfl, List.mem_range.2 hk, fun j hj => ?_⟩
    have : numCid k ≠ numCid j := fun h => by
      have := numCid_inj (by omega) (by omega) h
      omega
    simp [this]
  rw [this]
  rfl

def doubleChain (D : Deps) : Nat → Chain
  | 0 => .mk (double D 0) [] []
  | k + 1 => .mk (double D (k + 1)) [doubleChain D k, doubleChain D k] [0, 1]

theorem doubleChain_ucan (D : Deps) : ∀ k, (doubleChain D k).ucan = double D k
  | 0 => rfl
  | _ + 1 => rfl

theorem doubleChain_sound (D : Deps) (n : Nat) (hn : n ≤ 2 ^ 32) : ∀ k, k ≤ n →
    Sound D (ValidAt none exCtors 7) (Holds (still (doubleDags D n) 7)) (doubleChain D k)
  | 0, _ => by
    simp only [doubleChain, Sound, SoundAll]
    exact ⟨double_valid D 0, rfl, redelOk D _ _ (by unfold NoRedel; show ∀ c ∈ capNull.iter, _; decide)⟩
  | k + 1, hk => by
    have ih := doubleChain_sound D n hn k (by omega)
    have hr : Resolves D (Holds (still (doubleDags D n) 7)) (numCid k).toStr (doubleChain D k).ucan := by
      rw [doubleChain_ucan]
      exact ⟨numCid k, _, Cid.parse_toStr D _ rfl (by simp [numCid]), rfl, memRead_bytes.2 (doubleDags_get D hn (by omega)), double_parses D k⟩
    have hd : Delegates (doubleChain D k).ucan (double D (k + 1)) := by
      rw [doubleChain_ucan]
      obtain ⟨h0, h1, h2, h3⟩ := double_bounds D k
      obtain ⟨h4, _, h5, h6⟩ := double_bounds D (k + 1)
      refine ⟨h1.trans h4.symm, fun m hm => ⟨5, h5, ?_⟩, fun e he => ⟨20, h6, ?_⟩⟩
      · rw [h2] at hm; cases hm; decide
      · rw [h3] at he; cases he; decide
    simp only [doubleChain, Sound, SoundAll]
    refine ⟨double_valid D (k + 1), ⟨_, _, rfl, hr, hd, ih, _, [], rfl, hr, hd, ih, rfl⟩, by unfold BSet.Sorted; decide, fun i => ?_, by simp⟩
    have := both_redel D i
    show _ ↔ ∃ c ∈ capBoth.iter, _
    rw [this]
    simp

def nullMail : View String Nat := ⟨.resource (.scoped "c@d"), 1, .null⟩

theorem nullMail_alone (i : View String Nat) : mailSem.enables nullMail i = false := by
  unfold Semantics.enables
  split
  · rename_i h _
    cases h
  · rfl

theorem doubleChain_reduce (D : Deps) : ∀ k, ∃ out, reduce D mailSem (doubleChain D k) = .ok out ∧ out.length = 2 ^ k ∧ ∀ i ∈ out, i.capability = nullMail
  | 0 => ⟨[⟨[did 1], some 5, some 20, nullMail⟩], rfl, rfl, by simp⟩
  | k + 1 => by
    obtain ⟨out, h1, h2, h3⟩ := doubleChain_reduce D k
    have hself : selfInfos D mailSem (double D (k + 1)) 2 [] = [] := rfl
    have e : reduce D mailSem (doubleChain D (k + 1)) = .ok (merge mailSem ((out ++ (out ++ [])).map (relifetime (double D (k + 1))))) := by
      rw [doubleChain, reduce, reduceAll, reduceAll, reduceAll, h1]
      unfold combine
      rw [ancestral, if_pos (by simp), ancestral, if_pos (by simp), ancestral]
      simp only [redelegated, List.getElem?_cons_zero, List.getElem?_cons_succ, List.length_cons, List.length_nil]
      rw [hself]
      rfl
    have hcap : ∀ i ∈ (out ++ (out ++ [])).map (relifetime (double D (k + 1))), i.capability = nullMail := by
      intro i hi
      obtain ⟨j, hj, rfl⟩ := List.mem_map.1 hi
      rw [List.append_nil, List.mem_append, or_self] at hj
      exact h3 j hj
    have hm := merged_reverse (merge_merged mailSem ((out ++ (out ++ [])).map (relifetime (double D (k + 1))))) (by
      refine List.Pairwise.imp_of_mem (R := fun _ _ => True) ?_ (List.pairwise_of_forall fun _ _ => trivial)
      intro a b ha _ _
      rw [hcap a ha]
      exact nullMail_alone _)
    refine ⟨_, e, ?_, ?_⟩
    · rw [hm]
      simp only [List.length_reverse, List.length_map, List.length_append, List.length_nil, h2, Nat.pow_succ]
      omega
    · rw [hm]
      intro i hi
      exact hcap i (List.mem_reverse.1 hi)

theorem doubleChain_tokens (D : Deps) : ∀ (k : Nat) (d : Chain), Sub d (doubleChain D k) → ∃ j, j ≤ k ∧ d.ucan = double D j
  | 0, d, h => by
    cases h with
    | self => exact ⟨0, Nat.le_refl _, rfl⟩
    | proof hp _ => cases hp
  | k + 1, d, h => by
    cases h with
    | self => exact ⟨k + 1, Nat.le_refl _, rfl⟩
    | proof hp hs =>
      simp only [doubleChain, Chain.proofs, List.mem_cons, List.not_mem_nil, or_false, or_self] at hp
      subst hp
      obtain ⟨j, hj, e⟩ := doubleChain_tokens D k d hs
      exact ⟨j, by omega, e⟩

end Ex
open Ex

/-- C100 is violated: `n + 1` tokens with at most two claims each lead to `2^n` reports, all of the same capability. -/
theorem C100_doubling (D : Deps) (n : Nat) (hn : n ≤ 2 ^ 32) : ∃ (E : Env) (w w' : World) (c : Chain) (tokens : List Ucan) (out : List (Info String Nat))
    (v : View String Nat), Coherent w.parser ∧ Built D E none w w' c ∧ Lawful mailSem ∧ (∀ d, Sub d c → d.ucan ∈ tokens) ∧ tokens.length = n + 1 ∧
    (∀ u ∈ tokens, u.payload.cap.iter.length ≤ 2) ∧ reduce D mailSem c = .ok out ∧ out.length = 2 ^ n ∧ ∀ i ∈ out, i.capability = v := by
  have h := C24_depth D (still (doubleDags D n) 7) none 7 (fun _ => rfl) (fun _ _ _ => rfl) ((double D n).encode D) world world_coherent
    (doubleChain D n) (by rw [doubleChain_ucan]; exact double_parses D n) (doubleChain_sound D n hn n (Nat.le_refl _)) _ (Nat.le_refl _)
  obtain ⟨out, h1, h2, h3⟩ := doubleChain_reduce D n
  refine ⟨still (doubleDags D n) 7, world, _, doubleChain D n, (List.range (n + 1)).map (double D), out, nullMail, world_coherent,
    .ofToken _ _ (Prod.ext h rfl), mailSem_lawful, ?_, by simp, ?_, h1, h2, h3⟩
  · intro d hd
    obtain ⟨j, hj, e⟩ := doubleChain_tokens D n d hd
    exact List.mem_map.2 ⟨j, List.mem_range.2 (by omega), e.symm⟩
  · intro u hu
    obtain ⟨j, _, rfl⟩ := List.mem_map.1 hu
    exact double_claims D j

/-- A tree of `2^(n+1) - 1` nodes but `n + 1` tokens with one claim each. -/
example (D : Deps) (n : Nat) (out : List (Info String Nat)) (h : reduce D mailSem (twiceChain D n) = .ok out) : out.length ≤ n + 1 := by
  have ht : ∀ (k : Nat) (d : Chain), Sub d (twiceChain D k) → ∃ j, j ≤ k ∧ d.ucan = twice D j := by
    intro k
    induction k with
    | zero =>
      intro d h
      cases h with
      | self => exact ⟨0, Nat.le_refl _, rfl⟩
      | proof hp _ => cases hp
    | succ k ih =>
      intro d h
      cases h with
      | self => exact ⟨k + 1, Nat.le_refl _, rfl⟩
      | proof hp hs =>
        simp only [twiceChain, Chain.proofs, List.mem_cons, List.not_mem_nil, or_false, or_self] at hp
        subst hp
        obtain ⟨j, hj, e⟩ := ih d hs
        exact ⟨j, by omega, e⟩
  have hc : ∀ j, (twice D j).payload.cap.iter = (caps "mailto:a@b" "msg/send").iter := fun j => by cases j <;> rfl
  have := C100_bounded_partial D mailSem mailSem_lawful _ out h (by
    intro d hd cl hcl v hv
    obtain ⟨j, _, e⟩ := ht n d hd
    rw [e, hc] at hcl
    obtain rfl : cl = ⟨"mailto:a@b", "msg/send", .obj []⟩ := by simpa [caps, Capabilities.iter] using hcl
    have : v.caveat = .obj [] := by
      unfold Semantics.parseCapability at hv
      simp only [mailSem] at hv
      cases hv
      rfl
    exact ⟨[], this, by unfold BMap.Sorted; simp⟩) ((List.range (n + 1)).map (twice D)) (by
    intro d hd
    obtain ⟨j, hj, e⟩ := ht n d hd
    exact List.mem_map.2 ⟨j, List.mem_range.2 (by omega), e.symm⟩)
  refine Nat.le_trans this (Nat.le_of_eq ?_)
  unfold tokenClaims
  rw [List.map_map, List.map_congr_left (g := fun _ => 1) (by intro j _; show (twice D j).payload.cap.iter.length = 1; rw [hc]; rfl), List.map_const', List.sum_replicate_nat, List.length_range, Nat.mul_one]

end Verif
