import Verif.Spec.Restrict
import Verif.Props.Report
import Verif.Props.ReduceExamples

/-! # Property C93: caveats of delegated proofs -/

namespace Verif
open Spec Chain Reduce

variable {S A : Type}

namespace Restrict
open Report

theorem noDelegations {D : Deps} {sem : Semantics S A} (hd : sem.overridden = none) (hs : sem.parseAction "ucan/DELEGATE" = none) : NoDelegations D sem := by
  intro c h
  rw [Semantics.parseCapability_default hd]
  unfold Semantics.parse
  split
  · rfl
  · rw [h, hs]

theorem same_cons {c c' : Capability} {l l' : List Capability} (h : SameButDelegations (c :: l) (c' :: l')) :
    (c.resource = c'.resource ∧ c.ability = c'.ability ∧ (c.ability ≠ "ucan/DELEGATE" → c.caveat = c'.caveat)) ∧ SameButDelegations l l' :=
  ⟨h.2 0 c c' rfl rfl, by simpa using h.1, fun i x x' h1 h2 => h.2 (i + 1) x x' h1 h2⟩

theorem parsed_same {D : Deps} {sem : Semantics S A} (hs : NoDelegations D sem) :
    ∀ {l l' : List Capability}, SameButDelegations l l' → mapWhile (sem.parseCapability D) l = mapWhile (sem.parseCapability D) l'
  | [], [], _ => rfl
  | [], _ :: _, h => by simp [SameButDelegations] at h
  | _ :: _, [], h => by simp [SameButDelegations] at h
  | c :: l, c' :: l', h => by
    obtain ⟨⟨h1, h2, h3⟩, ht⟩ := same_cons h
    rw [mapWhile, mapWhile]
    by_cases hd : c.ability = "ucan/DELEGATE"
    · rw [hs _ hd, hs _ (h2 ▸ hd)]
    · have : c = c' := by
        obtain ⟨_, _, _⟩ := c
        obtain ⟨_, _, _⟩ := c'
        have h4 := h3 hd
        simp only at h1 h2 h4
        subst h1 h2 h4
        rfl
      rw [this, parsed_same hs ht]

theorem redelegates_same {D : Deps} {l l' : List Capability} (h : SameButDelegations l l') (i : Nat) (hx : ∃ c ∈ l, Redelegates D c i) :
    ∃ c ∈ l', Redelegates D c i := by
  obtain ⟨c, hc, hr⟩ := hx
  obtain ⟨j, hj⟩ := List.getElem?_of_mem hc
  have hlt : j < l'.length := by
    have := (List.getElem?_eq_some_iff.1 hj).1
    rw [← h.1]; exact this
  obtain ⟨h1, h2, _⟩ := h.2 j c l'[j] hj (List.getElem?_eq_getElem hlt)
  exact ⟨_, List.getElem_mem hlt, h2 ▸ hr.1, h1 ▸ hr.2⟩

theorem SameButDelegations.symm {l l' : List Capability} (h : SameButDelegations l l') : SameButDelegations l' l :=
  ⟨h.1.symm, fun i c c' h1 h2 =>
    let ⟨a, b, d⟩ := h.2 i c' c h2 h1
    ⟨a.symm, b.symm, fun hn => (d (by rw [b]; exact hn)).symm⟩⟩

theorem redel_same {D : Deps} {u u' : Ucan} {n n' : Nat} {r r' : BSet Nat} (h : SameButDelegations u.payload.cap.iter u'.payload.cap.iter)
    (hr : RedelOk D u n r) (hr' : RedelOk D u' n' r') : r = r' := by
  refine RedelOk.unique (n := n) (m := n') (u := u) hr ⟨hr'.sorted, fun i => ?_, hr'.inRange⟩
  rw [hr'.claimed]
  exact ⟨redelegates_same (SameButDelegations.symm h) i, redelegates_same h i⟩

theorem self_keys (D : Deps) (sem : Semantics S A) {u u' : Ucan} (hi : u.payload.iss = u'.payload.iss)
    (hc : mapWhile (sem.parseCapability D) u.payload.cap.iter = mapWhile (sem.parseCapability D) u'.payload.cap.iter)
    (n : Nat) {anc anc' : List (Info S A)} (ha : Keys anc anc') : Keys (selfInfos D sem u n anc) (selfInfos D sem u' n anc') := by
  unfold Keys selfInfos Ucan.capabilities
  rw [hc, List.map_map, List.map_map]
  refine List.map_congr_left fun v _ => ?_
  simp only [Function.comp, key, Ucan.issuer, originators, hi, gather_keys sem v anc anc' [] ha]

theorem combine_same (D : Deps) (sem : Semantics S A) {u u' : Ucan} (hi : u.payload.iss = u'.payload.iss)
    (hc : mapWhile (sem.parseCapability D) u.payload.cap.iter = mapWhile (sem.parseCapability D) u'.payload.cap.iter)
    (redel : BSet Nat) {rs rs' : List (Res (List (Info S A)))} (h : KeysAll rs rs') : KeysR (combine D sem u redel rs) (combine D sem u' redel rs') := by
  unfold combine
  rcases (ancestral_keys redel h 0).cases with ⟨e, h1, h2⟩ | ⟨a, a', h1, h2, ha⟩
  · rw [h1, h2]; exact rfl
  · rw [h1, h2]
    rcases (redelegated_keys h redel).cases with ⟨e, h3, h4⟩ | ⟨m, m', h3, h4, hm⟩
    · simp only [h3, h4]; exact rfl
    · simp only [h3, h4]
      rw [← h.length]
      exact merge_keys sem ((self_keys D sem hi hc _ ha).append (relifetime_keys u u' hm))

mutual
theorem reduce_same {D : Deps} {V V' : Ucan → Prop} {F F' : Cid → Bytes → Prop} (sem : Semantics S A) (hs : NoDelegations D sem) :
    ∀ c c' : Chain, Sound D V F c → Sound D V' F' c' → SameGrants c c' → KeysR (reduce D sem c) (reduce D sem c')
  | .mk u ps r, .mk u' ps' r', h1, h2, h => by
    rw [SameGrants] at h
    simp only [Sound] at h1 h2
    obtain ⟨hi, hc, hps⟩ := h
    obtain rfl := redel_same hc h1.2.2 h2.2.2
    rw [reduce, reduce]
    exact combine_same D sem hi (parsed_same hs hc) r (reduceAll_same sem hs ps ps' _ _ _ _ h1.2.1 h2.2.1 hps)
theorem reduceAll_same {D : Deps} {V V' : Ucan → Prop} {F F' : Cid → Bytes → Prop} (sem : Semantics S A) (hs : NoDelegations D sem) :
    ∀ (cs cs' : List Chain) (u u' : Ucan) (l l' : List String), SoundAll D V F u l cs → SoundAll D V' F' u' l' cs' → SameGrantsAll cs cs' →
      KeysAll (reduceAll D sem cs) (reduceAll D sem cs')
  | [], [], _, _, _, _, _, _, _ => .nil
  | [], _ :: _, _, _, _, _, _, _, h => by rw [SameGrantsAll] at h; exact h.elim; all_goals simp
  | _ :: _, [], _, _, _, _, _, _, h => by rw [SameGrantsAll] at h; exact h.elim; all_goals simp
  | c :: cs, c' :: cs', u, u', l, l', h1, h2, h => by
    rw [SameGrantsAll] at h
    simp only [SoundAll] at h1 h2
    obtain ⟨_, t, _, _, _, s1, r1⟩ := h1
    obtain ⟨_, t', _, _, _, s2, r2⟩ := h2
    rw [reduceAll, reduceAll]
    exact .cons (reduce_same sem hs c c' s1 s2 h.1) (reduceAll_same sem hs cs cs' u u' t t' r1 r2 h.2)
end

end Restrict
open Restrict Report

/-! ## C93 A caveat on a delegated proof restricts what is passed on -/

/-- C93 is violated, in general: the caveats under which proofs are delegated have no effect on what is reported, in any token of the chain,
under any semantics that does not read the claims that delegate. -/
theorem C93_ignored (D : Deps) (E E' : Env) (now now' : Option UInt64) (w w1 w' w1' : World) (c c' : Chain) (hw : Coherent w.parser)
    (hw' : Coherent w'.parser) (h : Built D E now w w1 c) (h' : Built D E' now' w' w1' c') (sem : Semantics S A)
    (hs : NoDelegations D sem) (hg : SameGrants c c') (hn : c.ucan.payload.nbf = c'.ucan.payload.nbf)
    (he : c.ucan.payload.exp = c'.ucan.payload.exp) : reduce D sem c = reduce D sem c' := by
  rcases (reduce_same sem hs c c' (Chain.built_sound hw h) (Chain.built_sound hw' h') hg).cases with ⟨e, h1, h2⟩ | ⟨l, l', h1, h2, hk⟩
  · rw [h1, h2]
  · rw [h1, h2]
    congr 1
    refine keys_eq hk (C29_lifetime D sem c l h1) fun i hi => ?_
    have := C29_lifetime D sem c' l' h2 i hi
    rw [hn, he]
    exact this

/-- C93 is violated, in general: a token that delegates a proof under any caveat has all that the proof offers covered by its report. -/
theorem C93_passed_on (D : Deps) (E : Env) (now : Option UInt64) (w w' : World) (c : Chain) (hw : Coherent w.parser) (h : Built D E now w w' c)
    (sem : Semantics S A) (hl : Lawful sem) (out : List (Info S A)) (ho : reduce D sem c = .ok out) (i : Nat) (m : List (String × Json))
    (hd : DelegatesUnder D c.ucan i m) : ∃ p, c.proofs[i]? = some p ∧ ∀ v, Offers D sem p v → ∃ r ∈ out, CoveredBy sem r.capability v := by
  have hr := (Sound.all (Chain.built_sound hw h)).2.2
  have hi := (hr.claimed i).2 hd.1
  have hlt := hr.inRange i hi
  exact ⟨_, List.getElem?_eq_getElem hlt, fun v hv => C33_offered_covered D sem hl c out ho v (.redelegated i hi (List.getElem?_eq_getElem hlt) hv)⟩

/-- C93 (partial): a proof is not delegated by an empty list of caveats. -/
theorem C93_empty_partial (D : Deps) (E : Env) (now : Option UInt64) (w w' : World) (c : Chain) (hw : Coherent w.parser) (h : Built D E now w w' c)
    (i : Nat) (hn : ∀ r as, (r, as) ∈ c.ucan.payload.cap → SelectsProof D r i → ∀ cs, ("ucan/DELEGATE", cs) ∈ as → cs = []) : i ∉ c.redel := by
  have hr := (Sound.all (Chain.built_sound hw h)).2.2
  rw [hr.claimed]
  rintro ⟨cl, hc, ha, hsel⟩
  unfold Capabilities.iter at hc
  simp only [List.mem_flatMap, List.mem_map] at hc
  obtain ⟨r, hr, a, hab, x, hx, rfl⟩ := hc
  have : a = ("ucan/DELEGATE", a.2) := Prod.ext ha rfl
  rw [hn r.1 r.2 hr hsel a.2 (this ▸ hab)] at hx
  cases hx

/-- C93 (partial): what is passed on keeps the caveats it came with, at every depth: whatever all claims of the tokens of the chain are subject to, all
reports are subject to. -/
theorem C93_kept_partial (D : Deps) (sem : Semantics S A) (m : List (String × Json)) (c : Chain) (out : List (Info S A)) (ho : reduce D sem c = .ok out)
    (hc : ∀ d, Sub d c → ∀ v, Claimed D sem d.ucan v → SubjectTo m v) : ∀ r ∈ out, SubjectTo m r.capability := by
  have key : ∀ (c : Chain) (v : View S A), Offers D sem c v → (∀ d, Sub d c → ∀ v, Claimed D sem d.ucan v → SubjectTo m v) → SubjectTo m v := by
    intro c v hv
    induction hv with
    | claim h => exact fun hc => hc _ (.self _) _ h
    | redelegated k _ hp _ ih => exact fun hc => ih fun d hd => hc d (.proof (List.mem_of_getElem? hp) hd)
  exact fun r hr => key c _ (C28_offered D sem c out ho r hr) hc

namespace Ex

/-- A limit of one. -/
def limit : List (String × Json) := [("limit", .str "one")]

def capLimited : Capabilities := [("prf:" ++ asciiStr (Json.decBytes 0), [("ucan/DELEGATE", [.obj limit])])]

/-- The token `root` with a limit on the delegated proof. -/
def limited (D : Deps) : Ucan := ucan D 2 (did 3) (some 10) (some 6) (some [(cid 1).toStr]) capLimited

def limitedChain (D : Deps) : Chain := .mk (limited D) [leafChain D] [0]

theorem limited_parses (D : Deps) : Ucan.fromStr D ((limited D).encode D) = .ok (limited D) := by
  refine C01_round_trip_general D _ ⟨by simp [limited, ucan, payload, capLimited, BMap.Sorted], by simp [limited, ucan, payload, capLimited, BMap.Sorted], ?_,
    by simp [limited, ucan, payload], ?_⟩ rfl
  · intro r hr a ha c hc
    simp only [limited, ucan, payload, capLimited, List.mem_singleton] at hr
    subst hr
    simp only [List.mem_singleton] at ha
    subst ha
    simp only [List.mem_singleton] at hc
    subst hc
    refine ⟨⟨trivial, trivial⟩, ⟨by simp [limit, BMap.Sorted], ?_, ⟨trivial, trivial⟩⟩, ⟨trivial, trivial⟩⟩
    rintro (⟨s, hs⟩ | ⟨s, hs⟩) <;> simp [limit] at hs
  · have := Codec.depth_payload (n := 10) (limited D).payload (by
      intro r hr a ha c hc
      simp only [limited, ucan, payload, capLimited, List.mem_singleton] at hr
      subst hr
      simp only [List.mem_singleton] at ha
      subst ha
      simp only [List.mem_singleton] at hc
      subst hc
      decide) (by omega) (by simp [limited, ucan, payload])
    simp only [Json.depthLimit]
    omega

theorem prf0 (D : Deps) (v : Json) : Redelegates D ⟨"prf:" ++ asciiStr (Json.decBytes 0), "ucan/DELEGATE", v⟩ 0 := by
  rw [← C19_index_iff]
  exact ⟨_, C19_decimal D 0 (by decide) _, rfl⟩

theorem limited_claims {D : Deps} {c : Capability} (hc : c ∈ (limited D).payload.cap.iter) :
    c = ⟨"prf:" ++ asciiStr (Json.decBytes 0), "ucan/DELEGATE", .obj limit⟩ := by
  simpa [limited, ucan, payload, capLimited, Capabilities.iter] using hc

theorem limited_redel (D : Deps) (i : Nat) : (∃ c ∈ (limited D).payload.cap.iter, Redelegates D c i) ↔ i = 0 := by
  constructor
  · rintro ⟨c, hc, hr⟩
    rw [limited_claims hc] at hr
    exact C19_unique D _ _ _ hr.2 (prf0 D _).2
  · rintro rfl
    exact ⟨_, by simp [limited, ucan, payload, capLimited, Capabilities.iter], prf0 D (.obj limit)⟩

theorem limited_sound (D : Deps) : Sound D (ValidAt none exCtors 7) (Holds (env D)) (limitedChain D) := by
  have h := chain_sound D
  unfold limitedChain
  unfold chain at h
  simp only [Sound, SoundAll] at h ⊢
  refine ⟨valid D 2 _ 10 6 _ _ 7 (by decide) (by decide), ?_, by simp [BSet.Sorted], fun i => ?_, h.2.2.inRange⟩
  · obtain ⟨s, ss, e, h1, h2, h3, h4⟩ := h.2.1
    exact ⟨s, ss, e, h1, ⟨h2.1, h2.2, h2.3⟩, h3, h4⟩
  · rw [limited_redel]
    simp

theorem limited_built (D : Deps) : ∃ w', Built D (env D) none world w' (limitedChain D) := by
  obtain ⟨fuel, h⟩ := (C24_complete D (env D) none 7 (fun _ => rfl) (fun _ _ _ => rfl) ((limited D).encode D) world world_coherent (limitedChain D)).2
    ⟨limited_parses D, limited_sound D⟩
  exact ⟨_, .ofToken fuel _ (Prod.ext h rfl)⟩

theorem limited_under (D : Deps) : DelegatesUnder D (limited D) 0 limit := by
  refine ⟨(limited_redel D 0).2 rfl, fun c hc _ => ?_⟩
  rw [limited_claims hc]

end Ex
open Ex

/-- C93 is violated: key 2 holds a grant and delegates it to key 3 with a limit of one; what is reported for key 3 has no limit. -/
theorem C93_violated (D : Deps) : ∃ (E : Env) (w w' : World) (c : Chain) (m : List (String × Json)) (out : List (Info String Nat)), Lawful mailSem ∧
    Coherent w.parser ∧ Built D E none w w' c ∧ (∀ cl ∈ c.ucan.payload.cap.iter, Redelegates D cl 0) ∧ DelegatesUnder D c.ucan 0 m ∧
    reduce D mailSem c = .ok out ∧ ∃ r ∈ out, ¬ SubjectTo m r.capability := by
  obtain ⟨w', hb⟩ := limited_built D
  refine ⟨env D, world, w', limitedChain D, limit, _, mailSem_lawful, world_coherent, hb, ?_, limited_under D, rfl, _, List.mem_singleton.2 rfl, ?_⟩
  · intro cl hcl
    rw [limited_claims hcl]
    exact prf0 D _
  · rintro ⟨m', hm, hk⟩
    cases hm
    obtain ⟨v, hv, _⟩ := hk "limit" (.str "one") (by simp [limit])
    cases hv

/-- Beside C93_ignored: the tokens with and without the limit. -/
example (D : Deps) : SameGrants (limitedChain D) (chain D) ∧ ¬ SameAuthority (limitedChain D) (chain D) ∧
    NoDelegations D mailSem ∧ reduce D mailSem (limitedChain D) = reduce D mailSem (chain D) := by
  refine ⟨?_, ?_, noDelegations rfl rfl, rfl⟩
  · unfold limitedChain chain leafChain
    simp only [SameGrants, SameGrantsAll, and_true]
    refine ⟨rfl, ⟨rfl, ?_⟩, trivial, rfl, ?_⟩
    · intro i c c' h1 h2
      obtain rfl : i = 0 := by
        have := (List.getElem?_eq_some_iff.1 h1).1
        have : i < 1 := this
        omega
      cases h1
      cases h2
      exact ⟨rfl, rfl, fun h => absurd rfl h⟩
    · intro i c c' h1 h2
      rw [h1] at h2
      cases h2
      exact ⟨rfl, rfl, fun _ => rfl⟩
  · unfold limitedChain chain
    simp only [SameAuthority]
    rintro ⟨_, h, _⟩
    revert h
    show ¬ [(⟨_, _, _⟩ : Capability)] = [⟨_, _, _⟩]
    simp [limit]

namespace Ex

/-- A delegation of the proof without any caveat, not even an empty one. -/
def capNone : Capabilities := [("prf:" ++ asciiStr (Json.decBytes 0), [("ucan/DELEGATE", [])])]

def noneToken (D : Deps) : Ucan := ucan D 2 (did 3) (some 10) (some 6) (some [(cid 1).toStr]) capNone

theorem none_built (D : Deps) : ∃ w', Built D (env D) none world w' (.mk (noneToken D) [leafChain D] []) := by
  have hs : Sound D (ValidAt none exCtors 7) (Holds (env D)) (.mk (noneToken D) [leafChain D] []) := by
    have h := chain_sound D
    unfold chain at h
    simp only [Sound, SoundAll] at h ⊢
    refine ⟨valid D 2 _ 10 6 _ _ 7 (by decide) (by decide), ?_, redelOk D _ _ ?_⟩
    · obtain ⟨s, ss, e, h1, h2, h3, h4⟩ := h.2.1
      exact ⟨s, ss, e, h1, ⟨h2.1, h2.2, h2.3⟩, h3, h4⟩
    · intro c hc
      cases hc
  obtain ⟨fuel, h⟩ := (C24_complete D (env D) none 7 (fun _ => rfl) (fun _ _ _ => rfl) ((noneToken D).encode D) world world_coherent
    (.mk (noneToken D) [leafChain D] [])).2 ⟨parses' D 2 (did 3) (some 10) (some 6) (some [(cid 1).toStr]) (cap := capNone) ⟨by simp [capNone, BMap.Sorted], by simp [capNone, BMap.Sorted], by simp [capNone]⟩, hs⟩
  exact ⟨_, .ofToken fuel _ (Prod.ext h rfl)⟩

end Ex

/-- Beside C93_empty_partial: the proof is named, but nothing is delegated. -/
example (D : Deps) : (∃ w', Built D (env D) none world w' (.mk (noneToken D) [leafChain D] [])) ∧
    (∃ as, ("prf:" ++ asciiStr (Json.decBytes 0), as) ∈ (noneToken D).payload.cap) ∧
    ∀ r as, (r, as) ∈ (noneToken D).payload.cap → SelectsProof D r 0 → ∀ cs, ("ucan/DELEGATE", cs) ∈ as → cs = [] := by
  refine ⟨none_built D, ⟨_, List.mem_singleton.2 rfl⟩, ?_⟩
  intro r as h _ cs hcs
  obtain ⟨rfl, rfl⟩ := Prod.mk.inj (List.mem_singleton.1 h)
  exact (Prod.mk.inj (List.mem_singleton.1 hcs)).2

/-- Beside C93_kept_partial: a chain all of whose claims are subject to a limit. -/
example (D : Deps) : ∃ out, reduce D mailSem (.mk (tok1 D [("mailto:a@b", [("m/1", [.obj limit])])]) [] []) = .ok out ∧
    ∀ r ∈ out, SubjectTo limit r.capability := by
  refine ⟨_, rfl, ?_⟩
  intro r hr
  rw [List.mem_singleton.1 hr]
  exact ⟨limit, rfl, .refl _⟩

end Verif
