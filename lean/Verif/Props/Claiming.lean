import Verif.Props.Split
import Verif.Props.HandOn

/-! # C135: handing on and claiming -/

namespace Verif
open Spec Chain Reduce Depends

variable {S A : Type}

/-- C30: the originators of a report are listed in order, each once. -/
theorem C30_sorted (D : Deps) (sem : Semantics S A) : ∀ (c : Chain) (out : List (Info S A)), reduce D sem c = .ok out → ∀ i ∈ out, BSet.Sorted i.originators := by
  intro c
  induction c using Chain.indAux with
  | h u ps r ih =>
    intro out h
    obtain ⟨anc, l, hc, hm⟩ := reduce_ok h
    refine hm.sorted fun x hx => ?_
    rcases (hc.members x).1 hx with ⟨_, _, _, ho⟩ | ⟨k, p, lp, y, hk, hp, hr, hy, rfl⟩
    · rw [ho]; exact sorted_originators _ _ _ _
    · exact ih p (List.mem_of_getElem? hp) lp hr y hy

/-- C135 (partial): if none of the capabilities reported for a proof enables another one, a token that hands the proof on and one of the same bounds that cites it and
claims all these capabilities have the same reports. Missing: proofs with reports that enable one another, for which `C135_violated` refutes it. -/
theorem C135_same_partial (D : Deps) (E : Env) (now : Option UInt64) (w w' : World) (c c' p : Chain) (hw : Coherent w.parser)
    (h : Built D E now w w' c) (sem : Semantics S A) (hd : NoDelegations D sem) (k : Nat) (hk : PassesOn D c.ucan k) (hp : c.proofs[k]? = some p)
    (lp : List (Info S A)) (hlp : reduce D sem p = .ok lp) (hi : Irredundant sem lp) (hrefl : ∀ i ∈ lp, sem.enables i.capability i.capability = true)
    (hp' : c'.proofs = [p]) (hr' : c'.redel = []) (hn : c.ucan.payload.nbf = c'.ucan.payload.nbf) (he : c.ucan.payload.exp = c'.ucan.payload.exp)
    (hcl : (understood D sem c'.ucan).Perm (lp.map (·.capability))) (out out' : List (Info S A)) (ho : reduce D sem c = .ok out)
    (ho' : reduce D sem c' = .ok out') (i : Info S A) : i ∈ out ↔ i ∈ out' := by
  have hone : ∀ a ∈ lp, ∀ b ∈ lp, sem.enables a.capability b.capability = true → a = b := by
    have h1 : lp.Pairwise fun a b => a ≠ b → sem.enables a.capability b.capability = false := by
      unfold Irredundant at hi; exact hi.imp (S := fun a b => a ≠ b → sem.enables a.capability b.capability = false) (fun h _ => h.1)
    have h2 : lp.Pairwise fun a b => b ≠ a → sem.enables b.capability a.capability = false := by
      unfold Irredundant at hi; exact hi.imp (S := fun a b => b ≠ a → sem.enables b.capability a.capability = false) (fun h _ => h.2)
    have := h1.forall_of_forall_of_flip (fun a _ hne => absurd rfl hne) h2
    intro a ha b hb hab
    refine Classical.byContradiction fun hne => ?_
    rw [this ha hb hne] at hab
    cases hab
  have hs : NoneEnablesLater sem (understood D sem c'.ucan) := by
    have h0 : (lp.map (·.capability)).Pairwise fun a b => sem.enables a b = false ∧ sem.enables b a = false := by
      rw [List.pairwise_map]; exact hi
    have h1 : (understood D sem c'.ucan).Pairwise fun a b => sem.enables a b = false ∧ sem.enables b a = false :=
      hcl.symm.pairwise h0 fun h => ⟨h.2, h.1⟩
    exact h1.imp fun h => h.1
  rw [C94_irredundant_partial D E now w w' c p hw h sem hd k hk hp lp hlp hi] at ho
  cases ho
  obtain ⟨anc, ha, rfl⟩ := Split.report hr' ho' hs
  have ha : ∀ x, x ∈ anc ↔ x ∈ lp := by
    intro x
    rw [ha, hp']
    constructor
    · rintro ⟨q, hq, l, hl, hx⟩
      cases List.mem_singleton.1 hq
      rw [hlp] at hl
      cases hl
      exact hx
    · intro hx
      exact ⟨p, List.mem_singleton.2 rfl, lp, hlp, hx⟩
  have horig : ∀ j ∈ lp, originators sem c'.ucan anc j.capability = j.originators := by
    intro j hj
    obtain ⟨o₀, ho₀⟩ := C30_nonempty D sem p lp hlp j hj
    refine BSet.ext (sorted_originators _ _ _ _) (C30_sorted D sem p lp hlp j hj) fun o => ?_
    rw [mem_originators]
    constructor
    · rintro (⟨x, hx, hen, hm⟩ | ⟨_, hno⟩)
      · rw [← hone x ((ha x).1 hx) j hj hen]; exact hm
      · exact absurd ⟨o₀, j, (ha j).2 hj, hrefl j hj, ho₀⟩ hno
    · intro hm
      exact Or.inl ⟨j, (ha j).2 hj, hrefl j hj, hm⟩
  unfold handed
  simp only [List.mem_reverse, List.mem_map]
  constructor
  · rintro ⟨j, hj, rfl⟩
    exact ⟨j.capability, hcl.mem_iff.2 (List.mem_map.2 ⟨j, hj, rfl⟩), by rw [horig j hj, hn, he]⟩
  · rintro ⟨v, hv, rfl⟩
    obtain ⟨j, hj, rfl⟩ := List.mem_map.1 (hcl.mem_iff.1 hv)
    exact ⟨j, hj, by rw [horig j hj, hn, he]⟩

namespace Ex

def capDel : Capabilities := capsOf [("prf:0", ["ucan/DELEGATE"])]
theorem capDel_plain : Plain capDel := ⟨by unfold BMap.Sorted; decide, by unfold BMap.Sorted; decide, by decide⟩

/-- Key 3 hands on what key 2 granted. -/
def chain3d (D : Deps) (c1 c2 : Capabilities) : Chain := .mk (tok3 D capDel) [.mk (tok2 D c2) [.mk (tok1 D c1) [] []] []] [0]

theorem passes3 (D : Deps) : PassesOn D (tok3 D capDel) 0 := by
  refine ⟨⟨⟨"prf:0", "ucan/DELEGATE", .obj []⟩, by simp [tok3, ucan, payload, capDel, capsOf, Capabilities.iter], prf0 D (.obj [])⟩, fun c h => ?_⟩
  have : c = ⟨"prf:0", "ucan/DELEGATE", .obj []⟩ := by simpa [tok3, ucan, payload, capDel, capsOf, Capabilities.iter] using h
  rw [this]
  exact prf0 D _

theorem built3d (D : Deps) {c1 c2 : Capabilities} (h1 : Plain c1) (h2 : Plain c2) (r1 : NoRedel c1) (r2 : NoRedel c2) :
    ∃ w', Built D (still (dags3 D c1 c2) 7) none world w' (chain3d D c1 c2) := by
  have hd : ∀ k k' : UInt8, ∀ prf prf' : Option (List String), ∀ cap cap' : Capabilities,
      Delegates (ucan D k (did k') (some 20) (some 5) prf cap) (ucan D k' (did (k' + 1)) (some 20) (some 5) prf' cap') := by
    intro k k' prf prf' cap cap'
    exact ⟨rfl, fun n hn => ⟨n, hn, UInt64.le_refl _⟩, fun n hn => ⟨n, hn, UInt64.le_refl _⟩⟩
  have s1 : Resolves D (Holds (still (dags3 D c1 c2) 7)) (cid 1).toStr (tok1 D c1) := by
    refine ⟨cid 1, (tok1 D c1).encode D, cid_parse D 1, rfl, ?_, parses' D 1 (did 2) _ _ _ h1⟩
    exact memRead_bytes.2 (by show (if cid 1 = cid 1 then _ else _) = _; rw [if_pos rfl])
  have s2 : Resolves D (Holds (still (dags3 D c1 c2) 7)) (cid 2).toStr (tok2 D c2) := by
    refine ⟨cid 2, (tok2 D c2).encode D, cid_parse D 2, rfl, ?_, parses' D 2 (did 3) _ _ _ h2⟩
    exact memRead_bytes.2 (by
      show (if cid 2 = cid 1 then _ else if cid 2 = cid 2 then _ else _) = _
      rw [if_neg (by decide), if_pos rfl])
  have hr : RedelOk D (tok3 D capDel) 1 [0] := by
    refine ⟨by simp [BSet.Sorted], fun i => ?_, by simp⟩
    rw [List.mem_singleton]
    constructor
    · rintro rfl; exact (passes3 D).1
    · rintro ⟨cl, hcl, h⟩
      exact C19_unique D _ _ _ h.2 ((passes3 D).2 cl hcl).2
  obtain ⟨fuel, h⟩ := (C24_complete D (still (dags3 D c1 c2) 7) none 7 (fun _ => rfl) (fun _ _ _ => rfl)
    ((tok3 D capDel).encode D) world world_coherent (chain3d D c1 c2)).2
    ⟨parses' D 3 (did 4) _ _ _ capDel_plain, by
      unfold chain3d
      simp only [Sound, SoundAll]
      exact ⟨valid D 3 _ 20 5 _ _ 7 (by decide) (by decide), ⟨_, [], rfl, s2, hd 2 3 _ _ _ _,
        ⟨valid D 2 _ 20 5 _ _ 7 (by decide) (by decide), ⟨_, [], rfl, s1, hd 1 2 _ _ _ _,
          ⟨valid D 1 _ 20 5 _ _ 7 (by decide) (by decide), rfl, redelOk D _ _ r1⟩, rfl⟩, redelOk D _ _ r2⟩, rfl⟩, hr⟩⟩
  exact ⟨_, .ofToken fuel _ (Prod.ext h rfl)⟩

end Ex
open Ex

/-- C135 is violated: key 1 granted key 2 the weaker of two abilities on an address, key 2 grants key 3 both, of which the stronger is its own. If key 3 claims both, they
are reported with the stronger one for key 2 only; if key 3 hands the token on, the stronger one is reported for key 1 as well. -/
theorem C135_violated (D : Deps) : ∃ (E : Env) (w w₁ w₂ : World), Coherent w.parser ∧ Lawful mailSem ∧ NoDelegations D mailSem ∧
    PassesOn D (chain3d D capA capTwo).ucan 0 ∧ (chain3d D capA capTwo).proofs = (chain3 D capA capTwo capTwo).proofs ∧
    (understood D mailSem (chain3 D capA capTwo capTwo).ucan) = [mail "a@b" 1, mail "a@b" 2] ∧
    Built D E none w w₁ (chain3 D capA capTwo capTwo) ∧
    reduce D mailSem (chain3 D capA capTwo capTwo) = .ok [⟨[did 2], some 5, some 20, mail "a@b" 2⟩, ⟨[did 1, did 2], some 5, some 20, mail "a@b" 1⟩] ∧
    Built D E none w w₂ (chain3d D capA capTwo) ∧ reduce D mailSem (chain3d D capA capTwo) = .ok [⟨[did 1, did 2], some 5, some 20, mail "a@b" 2⟩] := by
  obtain ⟨w₁, h₁⟩ := built3 D capA_plain capTwo_plain capTwo_plain capA_noRedel capTwo_noRedel capTwo_noRedel
  obtain ⟨w₂, h₂⟩ := built3d D capA_plain capTwo_plain capA_noRedel capTwo_noRedel
  exact ⟨still (dags3 D capA capTwo) 7, world, w₁, w₂, world_coherent, mailSem_lawful, Restrict.noDelegations rfl rfl, passes3 D, rfl, rfl, h₁, rfl, h₂, rfl⟩

namespace Ex

/-- Beside C135: two addresses, one of them granted by key 1, handed on and claimed. -/
example (D : Deps) : ∃ w₁ w₂, Built D (still (dags3 D capA capApart) 7) none world w₁ (chain3d D capA capApart) ∧
    Built D (still (dags3 D capA capApart) 7) none world w₂ (chain3 D capA capApart capApart) ∧ PassesOn D (chain3d D capA capApart).ucan 0 ∧
    reduce D mailSem (.mk (tok2 D capApart) [.mk (tok1 D capA) [] []] []) = .ok [⟨[did 2], some 5, some 20, mail "c@d" 1⟩, ⟨[did 1], some 5, some 20, mail "a@b" 1⟩] ∧
    (understood D mailSem (tok3 D capApart)).Perm [mail "c@d" 1, mail "a@b" 1] ∧
    reduce D mailSem (chain3d D capA capApart) = .ok [⟨[did 1], some 5, some 20, mail "a@b" 1⟩, ⟨[did 2], some 5, some 20, mail "c@d" 1⟩] ∧
    reduce D mailSem (chain3 D capA capApart capApart) = .ok [⟨[did 2], some 5, some 20, mail "c@d" 1⟩, ⟨[did 1], some 5, some 20, mail "a@b" 1⟩] := by
  obtain ⟨w₁, h₁⟩ := built3d D capA_plain capApart_plain capA_noRedel capApart_noRedel
  obtain ⟨w₂, h₂⟩ := built3 D capA_plain capApart_plain capApart_plain capA_noRedel capApart_noRedel capApart_noRedel
  exact ⟨w₁, w₂, h₁, h₂, passes3 D, rfl, List.Perm.swap _ _ _, rfl, rfl⟩

end Ex
end Verif
