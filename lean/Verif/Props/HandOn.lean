import Verif.Spec.HandOn
import Verif.Props.Depends
import Verif.Props.Restrict

/-! # Property C94: handing a grant on unchanged -/

namespace Verif
open Spec Chain Reduce

variable {S A : Type}

namespace HandOn

theorem merged_capabilities {sem : Semantics S A} {l out : List (Info S A)} (h : Merged sem l out) :
    (out.map (·.capability)).Sublist (l.map (·.capability)).reverse := by
  induction h with
  | nil => exact List.Sublist.slnil
  | absorbed h1 h2 hm ih =>
    refine ih.trans ?_
    rw [h1]
    simp
  | kept hn hm ih => simpa using ih

/-- No earlier entry enables it. -/
theorem merged_kept {sem : Semantics S A} {l out : List (Info S A)} (h : Merged sem l out) (v : View S A) : v ∈ out.map (·.capability) ↔
    ∃ pre post, l.map (·.capability) = pre ++ v :: post ∧ ∀ y ∈ pre, sem.enables y v = false := by
  have last : ∀ (m : List (View S A)) (q : View S A), (∃ pre post, m ++ [q] = pre ++ v :: post ∧ ∀ y ∈ pre, sem.enables y v = false) ↔
      (∃ pre post, m = pre ++ v :: post ∧ ∀ y ∈ pre, sem.enables y v = false) ∨ (v = q ∧ ∀ y ∈ m, sem.enables y v = false) := by
    intro m q
    constructor
    · rintro ⟨pre, post, e, h⟩
      rcases List.eq_nil_or_concat post with rfl | ⟨post', z, rfl⟩
      · obtain ⟨rfl, e'⟩ := List.append_inj' e rfl
        exact Or.inr ⟨(List.cons.inj e').1.symm, h⟩
      · left
        refine ⟨pre, post', ?_, h⟩
        have : m ++ [q] = (pre ++ v :: post') ++ [z] := by rw [e]; simp
        exact (List.append_inj' this rfl).1
    · rintro (⟨pre, post, rfl, h⟩ | ⟨rfl, h⟩)
      · exact ⟨pre, post ++ [q], by simp, h⟩
      · exact ⟨m, [], rfl, h⟩
  induction h with
  | nil => simp
  | @absorbed l out pre post p r h1 h2 hm ih =>
    refine Iff.trans ih ?_
    have e : (pre ++ { r with originators := BSet.extend r.originators p.originators } :: post).map (·.capability) = l.map (·.capability) := by
      rw [h1]; simp
    rw [e, List.map_append, List.map_singleton, last]
    constructor
    · exact Or.inl
    · rintro (h | ⟨rfl, h⟩)
      · exact h
      · have := h r.capability (by rw [h1]; simp)
        rw [h2] at this
        cases this
  | @kept l out p hn hm ih =>
    rw [List.map_cons, List.mem_cons, List.map_append, List.map_singleton, last, Iff.intro (fun h => ih.1 h) fun h => ih.2 h]
    constructor
    · rintro (rfl | h)
      · right
        refine ⟨rfl, fun y hy => ?_⟩
        obtain ⟨r, hr, rfl⟩ := List.mem_map.1 hy
        exact hn r hr
      · exact Or.inl h
    · rintro (h | ⟨rfl, _⟩)
      · exact Or.inr h
      · exact Or.inl rfl

/-- Without anything enabled by something before it nothing is merged. -/
theorem merged_reverse {sem : Semantics S A} {l out : List (Info S A)} (h : Merged sem l out)
    (hp : l.Pairwise fun a b => sem.enables a.capability b.capability = false) : out = l.reverse := by
  induction h with
  | nil => rfl
  | @absorbed l out pre post p r h1 h2 hm ih =>
    rw [List.pairwise_append] at hp
    have := hp.2.2 r (by rw [h1]; simp) p (by simp)
    rw [h2] at this
    cases this
  | kept hn hm ih =>
    rw [List.pairwise_append] at hp
    rw [ih hp.1]
    simp

theorem mapWhile_none {α β : Type} (f : α → Option β) : ∀ l : List α, (∀ x ∈ l, f x = none) → mapWhile f l = []
  | [], _ => rfl
  | x :: xs, h => by rw [mapWhile, h x (by simp)]

/-- A token that hands a proof on reports what the proof reports, merged once more. -/
theorem reduce_handsOn {D : Deps} {V : Ucan → Prop} {F : Cid → Bytes → Prop} {sem : Semantics S A} (hs : NoDelegations D sem)
    {c p : Chain} (hc : Sound D V F c) {k : Nat} (hk : PassesOn D c.ucan k) (hp : c.proofs[k]? = some p) {out lp : List (Info S A)}
    (ho : reduce D sem c = .ok out) (hlp : reduce D sem p = .ok lp) : out = merge sem (handed c.ucan lp) := by
  obtain ⟨u, ps, r⟩ := c
  have hr := (Sound.all hc).2.2
  have hr1 : r = [k] := by
    refine RedelOk.unique (n := ps.length) (m := ps.length) (u := u) hr ⟨by simp [BSet.Sorted], fun i => ?_, ?_⟩
    · rw [List.mem_singleton]
      constructor
      · rintro rfl; exact hk.1
      · rintro ⟨cl, hcl, h⟩
        exact C19_unique D _ _ _ h.2 (hk.2 cl hcl).2
    · intro i hi
      rw [List.mem_singleton.1 hi]
      exact (List.getElem?_eq_some_iff.1 hp).1
  subst hr1
  have hself : ∀ n anc, selfInfos D sem u n anc = [] := by
    intro n anc
    unfold selfInfos
    have : mapWhile (sem.parseCapability D) u.capabilities.iter = [] :=
      mapWhile_none _ _ fun cl hcl => hs cl (hk.2 cl hcl).1
    rw [this]
    rfl
  rw [reduce, combine] at ho
  split at ho
  · cases ho
  · split at ho
    · cases ho
    · rename_i red hred
      cases ho
      rw [reduceAll_eq] at hred
      have hg : (ps.map (reduce D sem))[k]? = some (.ok lp) := by
        rw [List.getElem?_map]
        have : ps[k]? = some p := hp
        rw [this, Option.map_some, hlp]
      rw [redelegated, hg] at hred
      simp only [redelegated, List.append_nil, Except.ok.injEq] at hred
      rw [hself, ← hred]
      rfl

end HandOn
open HandOn

/-! ## C94 Handing a grant on unchanged changes nothing but its lifetime -/

/-- C94 (partial): if no capability that is reported for the proof enables another one, exactly these are reported for the token that hands it on, with
the same originators. Missing: proofs for which something redundant is reported; the claim is refuted there by `C94_violated`. -/
theorem C94_irredundant_partial (D : Deps) (E : Env) (now : Option UInt64) (w w' : World) (c p : Chain) (hw : Coherent w.parser)
    (h : Built D E now w w' c) (sem : Semantics S A) (hs : NoDelegations D sem) (k : Nat) (hk : PassesOn D c.ucan k)
    (hp : c.proofs[k]? = some p) (lp : List (Info S A)) (hlp : reduce D sem p = .ok lp) (hi : Irredundant sem lp) :
    reduce D sem c = .ok (handed c.ucan lp).reverse := by
  obtain ⟨out, ho⟩ := C27_no_panic D E now w w' c hw h sem
  rw [ho, reduce_handsOn hs (Chain.built_sound hw h) hk hp ho hlp, merged_reverse (merge_merged sem _)]
  unfold handed
  rw [List.pairwise_map]
  exact hi.imp fun h => h.1

/-- C94 (partial): what a token that hands on reports is irredundant, so from the second holder on nothing changes any more. -/
theorem C94_second_partial (D : Deps) (E : Env) (now : Option UInt64) (w w' : World) (c p : Chain) (hw : Coherent w.parser)
    (h : Built D E now w w' c) (sem : Semantics S A) (hs : NoDelegations D sem) (k : Nat) (hk : PassesOn D c.ucan k)
    (hp : c.proofs[k]? = some p) (out : List (Info S A)) (ho : reduce D sem c = .ok out) : Irredundant sem out := by
  obtain ⟨lp, hlp⟩ := C27_no_panic_inside D E now w w' c p hw h (.proof (List.mem_of_getElem? hp) (.self p)) sem
  have e := reduce_handsOn hs (Chain.built_sound hw h) hk hp ho hlp
  have h1 := C35_half_partial D sem c out ho
  have h2 := C35_half_partial D sem p lp hlp
  have h3 : (out.map (·.capability)).Pairwise fun a b => sem.enables a b = false := by
    rw [e]
    refine List.Pairwise.sublist (merged_capabilities (merge_merged sem _)) ?_
    rw [List.pairwise_reverse, handed, List.map_map, List.pairwise_map]
    exact h2
  rw [List.pairwise_map] at h3
  unfold Irredundant
  exact h3.imp₂ (fun _ _ a b => ⟨a, b⟩) h1

/-- C94, exactly: of what is reported for the proof, that which no earlier report enables is reported for the token that hands it on. -/
theorem C94_capabilities (D : Deps) (E : Env) (now : Option UInt64) (w w' : World) (c p : Chain) (hw : Coherent w.parser)
    (h : Built D E now w w' c) (sem : Semantics S A) (hs : NoDelegations D sem) (k : Nat) (hk : PassesOn D c.ucan k)
    (hp : c.proofs[k]? = some p) (lp out : List (Info S A)) (hlp : reduce D sem p = .ok lp) (ho : reduce D sem c = .ok out) (v : View S A) :
    v ∈ out.map (·.capability) ↔ ∃ pre post, lp.map (·.capability) = pre ++ v :: post ∧ ∀ y ∈ pre, sem.enables y v = false := by
  rw [reduce_handsOn hs (Chain.built_sound hw h) hk hp ho hlp, merged_kept (merge_merged sem _), handed, List.map_map]
  rfl

theorem HandOn.irredundant_handed {sem : Semantics S A} {l : List (Info S A)} (u : Ucan) (h : Irredundant sem l) : Irredundant sem (handed u l) := by
  unfold Irredundant handed
  rw [List.pairwise_map]
  exact h

theorem HandOn.irredundant_reverse {sem : Semantics S A} {l : List (Info S A)} (h : Irredundant sem l) : Irredundant sem l.reverse := by
  unfold Irredundant
  rw [List.pairwise_reverse]
  exact h.imp fun h => ⟨h.2, h.1⟩

theorem HandOn.handed_handed (u u' : Ucan) (l : List (Info S A)) : handed u (handed u' l) = handed u l := by
  unfold handed
  rw [List.map_map]
  rfl

theorem HandOn.reduce_handedOn {D : Deps} {V : Ucan → Prop} {F : Cid → Bytes → Prop} {sem : Semantics S A} (hs : NoDelegations D sem)
    {c p : Chain} (h : HandedOn D c p) : Sound D V F c → ∀ lp : List (Info S A), reduce D sem p = .ok lp → Irredundant sem lp →
      reduce D sem c = .ok (handed c.ucan lp) ∨ reduce D sem c = .ok (handed c.ucan lp).reverse := by
  induction h with
  | refl c =>
    intro _ lp hlp _
    left
    rw [hlp]
    congr 1
    have hlife := C29_lifetime D sem c lp hlp
    unfold handed
    refine (List.map_id lp).symm.trans (List.map_congr_left fun i hi => ?_)
    obtain ⟨h1, h2⟩ := hlife i hi
    rw [← h1, ← h2]
    rfl
  | @step c d p k hk hd _ ih =>
    intro hc lp hlp hi
    have hsub : Sub d c := .proof (List.mem_of_getElem? hd) (.self d)
    obtain ⟨out, ho⟩ := reduce_total D sem c (Chain.sound_inRange hc)
    rcases ih (Sound.sub hsub hc) lp hlp hi with h | h
    · right
      rw [ho, reduce_handsOn hs hc hk hd ho h, merged_reverse (merge_merged sem _), handed_handed]
      rw [handed_handed]
      exact (irredundant_handed _ hi).imp fun h => h.1
    · left
      have e : handed c.ucan (handed d.ucan lp).reverse = (handed c.ucan lp).reverse := by
        rw [← handed_handed c.ucan d.ucan lp]
        unfold handed
        rw [List.map_reverse]
      rw [ho, reduce_handsOn hs hc hk hd ho h, merged_reverse (merge_merged sem _), e, List.reverse_reverse]
      rw [e]
      exact (irredundant_reverse (irredundant_handed _ hi)).imp fun h => h.1

/-- C94 (partial): handed on by any number of holders, the same capabilities are reported with the same originators, if none enables another one (which
is so, by `C94_second_partial`, for everything that was handed on before). -/
theorem C94_any_number_partial (D : Deps) (E : Env) (now : Option UInt64) (w w' : World) (c p : Chain) (hw : Coherent w.parser)
    (h : Built D E now w w' c) (sem : Semantics S A) (hs : NoDelegations D sem) (hp : HandedOn D c p) (lp : List (Info S A))
    (hlp : reduce D sem p = .ok lp) (hi : Irredundant sem lp) :
    reduce D sem c = .ok (handed c.ucan lp) ∨ reduce D sem c = .ok (handed c.ucan lp).reverse :=
  HandOn.reduce_handedOn hs hp (Chain.built_sound hw h) lp hlp hi

namespace Ex

/-- Key 4 hands on what key 3 handed on to it: one address granted by key 1, all mail granted by key 2. -/
def relay (D : Deps) : Ucan := ucan D 4 (did 5) (some 20) (some 5) (some [(cid 3).toStr]) (capsOf [("prf:0", ["ucan/DELEGATE"])])

def held (D : Deps) : Chain := pairChain D false capBoth [0, 1]
def relayed (D : Deps) : Chain := .mk (relay D) [held D] [0]

def relayDags (D : Deps) : Store.Dags := fun c => if c = cid 3 then some (strBytes ((held D).ucan.encode D)) else pairDags D c
def relayEnv (D : Deps) : Env := still (relayDags D) 7

theorem relay_hands_on (D : Deps) : PassesOn D (relay D) 0 := by
  have hc : ∀ c ∈ (relay D).payload.cap.iter, c = ⟨"prf:" ++ asciiStr (Json.decBytes 0), "ucan/DELEGATE", .obj []⟩ := by
    intro c hc
    have : c = ⟨"prf:0", "ucan/DELEGATE", .obj []⟩ := by simpa [relay, ucan, payload, capsOf, Capabilities.iter] using hc
    rw [this]
    congr 1
  refine ⟨⟨⟨"prf:0", "ucan/DELEGATE", .obj []⟩, by simp [relay, ucan, payload, capsOf, Capabilities.iter], prf0 D (.obj [])⟩, fun c h => ?_⟩
  rw [hc c h]
  exact prf0 D _

theorem relay_sound (D : Deps) : Sound D (ValidAt none exCtors 7) (Holds (relayEnv D)) (relayed D) := by
  have hF : ∀ c b, Holds (pairEnv D) c b → Holds (relayEnv D) c b := by
    intro c b h
    have h : pairDags D c = some b := memRead_bytes.1 h
    refine memRead_bytes.2 ?_
    show (if c = cid 3 then _ else pairDags D c) = some b
    rw [if_neg, h]
    rintro rfl
    unfold pairDags at h
    rw [if_neg (by decide), if_neg (by decide)] at h
    cases h
  have hd : ∀ k k' : UInt8, ∀ prf prf' : Option (List String), ∀ cap cap' : Capabilities,
      Delegates (ucan D k (did k') (some 20) (some 5) prf cap) (ucan D k' (did (k' + 1)) (some 20) (some 5) prf' cap') := by
    intro k k' prf prf' cap cap'
    exact ⟨rfl, fun n hn => ⟨n, hn, UInt64.le_refl _⟩, fun n hn => ⟨n, hn, UInt64.le_refl _⟩⟩
  have hv : ∀ k : UInt8, ∀ aud prf cap, ValidAt none exCtors 7 (ucan D k aud (some 20) (some 5) prf cap) := fun k aud prf cap =>
    valid D k aud 20 5 prf cap 7 (by decide) (by decide)
  have hheld : Sound D (ValidAt none exCtors 7) (Holds (pairEnv D)) (held D) := by
    show Sound _ _ _ (.mk _ _ _)
    simp only [Sound, SoundAll]
    refine ⟨hv _ _ _ _, ⟨_, _, rfl, narrow_resolves D, hd _ _ _ _ _ _, ⟨hv _ _ _ _, rfl, redelOk D _ _ capA_noRedel⟩,
      _, _, rfl, broad_resolves D, hd _ _ _ _ _ _, ⟨hv _ _ _ _, rfl, redelOk D _ _ capAll_noRedel⟩, rfl⟩, by simp [BSet.Sorted, OrdKey.lt], fun i => ?_,
      by simp⟩
    show _ ↔ ∃ c ∈ capBoth.iter, Redelegates D c i
    rw [both_redel]
    simp
  have hres : Resolves D (Holds (relayEnv D)) (cid 3).toStr (held D).ucan := by
    refine ⟨cid 3, (held D).ucan.encode D, cid_parse D 3, rfl, ?_, parses' D 3 (did 4) _ _ _ capBoth_plain⟩
    exact memRead_bytes.2 (by show (if cid 3 = cid 3 then _ else _) = _; rw [if_pos rfl])
  unfold relayed
  simp only [Sound, SoundAll]
  refine ⟨hv _ _ _ _, ⟨_, _, rfl, hres, hd _ _ _ _ _ _, Sound.mono (fun _ h => h) hF _ hheld, rfl⟩, by simp [BSet.Sorted], fun i => ?_, by simp⟩
  rw [List.mem_singleton]
  constructor
  · rintro rfl; exact (relay_hands_on D).1
  · rintro ⟨cl, hcl, h⟩
    exact C19_unique D _ _ _ h.2 ((relay_hands_on D).2 cl hcl).2

theorem relay_built (D : Deps) : ∃ w', Built D (relayEnv D) none world w' (relayed D) := by
  obtain ⟨fuel, h⟩ := (C24_complete D (relayEnv D) none 7 (fun _ => rfl) (fun _ _ _ => rfl) ((relay D).encode D) world world_coherent (relayed D)).2
    ⟨parses' D 4 (did 5) (some 20) (some 5) (some [(cid 3).toStr]) (cap := capsOf [("prf:0", ["ucan/DELEGATE"])])
      ⟨by unfold BMap.Sorted; decide, by unfold BMap.Sorted; decide, by decide⟩, relay_sound D⟩
  exact ⟨_, .ofToken fuel _ (Prod.ext h rfl)⟩

end Ex
open Ex

/-- C94 is violated: key 3 holds one address from key 1 and all mail from key 2, and that is what is reported. After key 4 has handed it on, key 1 is
reported to have granted all mail. -/
theorem C94_violated (D : Deps) : ∃ (E : Env) (w w' : World) (c p : Chain), Lawful mailSem ∧ Coherent w.parser ∧ Built D E none w w' c ∧
    NoDelegations D mailSem ∧ PassesOn D c.ucan 0 ∧ c.proofs[0]? = some p ∧
    c.ucan.payload.nbf = p.ucan.payload.nbf ∧ c.ucan.payload.exp = p.ucan.payload.exp ∧
    reduce D mailSem p = .ok [⟨[did 2], some 5, some 20, mailAll 1⟩, ⟨[did 1], some 5, some 20, mail "a@b" 1⟩] ∧
    reduce D mailSem c = .ok [⟨[did 1, did 2], some 5, some 20, mailAll 1⟩] ∧
    ∀ d, Sub d c → d.ucan.payload.iss = did 1 → ∀ v, Claimed D mailSem d.ucan v → v = mail "a@b" 1 := by
  obtain ⟨w', hb⟩ := relay_built D
  refine ⟨relayEnv D, world, w', relayed D, held D, mailSem_lawful, world_coherent, hb, Restrict.noDelegations rfl rfl, relay_hands_on D, rfl, rfl, rfl, pair_reports D, ?_, ?_⟩
  · obtain ⟨out, ho⟩ := C27_no_panic D _ _ _ _ _ world_coherent hb mailSem
    rw [ho, reduce_handsOn (Restrict.noDelegations rfl rfl) (relay_sound D) (relay_hands_on D) rfl ho (pair_reports D)]
    rfl
  · have inv : ∀ {d e : Chain}, Sub d e → d = e ∨ ∃ f ∈ e.proofs, Sub d f := by
      intro d e h
      cases h with
      | self => exact Or.inl rfl
      | proof hf hs => exact Or.inr ⟨_, hf, hs⟩
    intro d hd hi v hv
    rcases inv hd with rfl | ⟨f, hf, hd⟩
    · exact absurd hi (by show ¬ did 4 = did 1; decide +kernel)
    · obtain rfl : f = held D := by simpa [relayed, Chain.proofs] using hf
      rcases inv hd with rfl | ⟨f, hf, hd⟩
      · exact absurd hi (by show ¬ did 3 = did 1; decide +kernel)
      · have hf : f ∈ [Chain.mk (narrow D) [] [], .mk (broad D) [] []] := hf
        simp only [List.mem_cons, List.not_mem_nil, or_false] at hf
        rcases hf with rfl | rfl
        · rcases inv hd with rfl | ⟨f, hf, _⟩
          · obtain ⟨pre, c, post, e, _, hp⟩ := hv
            have hc : c ∈ capA.iter := by
              show c ∈ (narrow D).payload.cap.iter
              have e : (narrow D).payload.cap.iter = pre ++ c :: post := e
              rw [e]; simp
            have : c = ⟨"mailto:a@b", "m/1", .obj []⟩ := by simpa [capA, capsOf, Capabilities.iter] using hc
            subst this
            exact (Option.some.inj hp).symm
          · cases hf
        · rcases inv hd with rfl | ⟨f, hf, _⟩
          · exact absurd hi (by show ¬ did 2 = did 1; decide +kernel)
          · cases hf

/-- Beside the partial theorems on C94: what key 4 hands on is irredundant, and the same chain handed on by `root` is reported as it was. -/
example (D : Deps) : PassesOn D (root D) 0 ∧ (chain D).proofs[0]? = some (leafChain D) ∧ HandedOn D (chain D) (leafChain D) ∧
    ∃ lp, reduce D mailSem (leafChain D) = .ok lp ∧ Irredundant mailSem lp ∧ reduce D mailSem (chain D) = .ok (handed (root D) lp).reverse := by
  have h : PassesOn D (root D) 0 := by
    refine ⟨(root_redel D 0).2 rfl, fun c hc => ?_⟩
    have : c = ⟨"prf:" ++ asciiStr (Json.decBytes 0), "ucan/DELEGATE", .obj []⟩ := by
      simpa [root, Ex.ucan, payload, caps, Capabilities.iter] using hc
    rw [this]
    exact prf0 D _
  exact ⟨h, rfl, .step 0 h rfl (.refl _), [⟨[did 1], some 5, some 20, mail "a@b" 0⟩], rfl, List.pairwise_singleton _ _, rfl⟩

end Verif
