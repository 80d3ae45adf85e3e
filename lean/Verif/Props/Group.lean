import Verif.Props.Authority
import Verif.Props.Split
import Verif.Props.Merge
import Verif.Spec.Group

/-! # C136: one of those listed granted what is reported -/

namespace Verif
open Spec Chain Reduce

variable {S A : Type}

/-- C136: among the originators of every report is one at the start of an unbroken chain of attenuations, for every semantics. -/
theorem C136_flows (D : Deps) (sem : Semantics S A) : ∀ (c : Chain) (out : List (Info S A)), reduce D sem c = .ok out →
    ∀ i ∈ out, ∃ o ∈ i.originators, Flows D sem c i.capability o := by
  intro c
  induction c using Chain.indAux with
  | h u ps r ih =>
    intro out h i hi
    obtain ⟨anc, l, hc, hm⟩ := reduce_ok h
    obtain ⟨x, hx, e, _, _, hsub⟩ := hm.source i hi
    rw [e]
    rcases (hc.members x).1 hx with ⟨hcl, _, _, ho⟩ | ⟨k, p, lp, y, hk, hp, hlp, hy, rfl⟩
    · by_cases hex : ∃ o', ∃ j ∈ anc, sem.enables j.capability x.capability = true ∧ o' ∈ j.originators
      · obtain ⟨_, j, hj, he, _⟩ := hex
        obtain ⟨k, p, lp, hp, hk, hlp, hjl⟩ := (hc.ancestors j).1 hj
        obtain ⟨o, hoj, hf⟩ := ih p (mem_of_getElem?' hp) lp hlp j hjl
        exact ⟨o, hsub o (by rw [ho, mem_originators]; exact Or.inl ⟨j, hj, he, hoj⟩), .attenuated k hcl hk hp hf he⟩
      · exact ⟨u.payload.iss, hsub _ (by rw [ho, mem_originators]; exact Or.inr ⟨rfl, hex⟩), .origin hcl⟩
    · obtain ⟨o, hoy, hf⟩ := ih p (mem_of_getElem?' hp) lp hlp y hy
      exact ⟨o, hsub o hoy, .redelegated k hk hp hf⟩

/-- C136: and, when enabling composes, one who granted it by the rules. -/
theorem C136_granted (D : Deps) (sem : Semantics S A) (ht : EnablesTrans sem) : ∀ (c : Chain) (out : List (Info S A)), reduce D sem c = .ok out →
    ∀ i ∈ out, ∃ o ∈ i.originators, Granted D sem c i.capability o := by
  intro c
  induction c using Chain.indAux with
  | h u ps r ih =>
    intro out h i hi
    obtain ⟨anc, l, hc, hm⟩ := reduce_ok h
    obtain ⟨x, hx, e, _, _, hsub⟩ := hm.source i hi
    rw [e]
    rcases (hc.members x).1 hx with ⟨hcl, _, _, ho⟩ | ⟨k, p, lp, y, hk, hp, hlp, hy, rfl⟩
    · by_cases hex : ∃ o', ∃ j ∈ anc, sem.enables j.capability x.capability = true ∧ o' ∈ j.originators
      · obtain ⟨_, j, hj, he, _⟩ := hex
        obtain ⟨k, p, lp, hp, hk, hlp, hjl⟩ := (hc.ancestors j).1 hj
        obtain ⟨o, hoj, hg⟩ := ih p (mem_of_getElem?' hp) lp hlp j hjl
        exact ⟨o, hsub o (by rw [ho, mem_originators]; exact Or.inl ⟨j, hj, he, hoj⟩), (granted_iff ..).2 (Or.inl ⟨hcl, Or.inl ⟨k, p, j.capability, hp, hk, hg, he⟩⟩)⟩
      · refine ⟨u.payload.iss, hsub _ (by rw [ho, mem_originators]; exact Or.inr ⟨rfl, hex⟩), (granted_iff ..).2 (Or.inl ⟨hcl, Or.inr ⟨rfl, ?_⟩⟩)⟩
        rintro ⟨o', k, p, v', hp, hk, hg, he⟩
        obtain ⟨lp, hlp⟩ := hc.proofsOk k p hp
        obtain ⟨j, hj, hcov, hoj⟩ := C33_covered_trans D sem ht p lp hlp v' o' hg
        refine hex ⟨o', j, (hc.ancestors j).2 ⟨k, p, lp, hp, hk, hlp, hj⟩, ?_, hoj⟩
        rcases hcov with e | hcov
        · rw [e]; exact he
        · exact ht _ _ _ hcov he
    · obtain ⟨o, hoy, hg⟩ := ih p (mem_of_getElem?' hp) lp hlp y hy
      exact ⟨o, hsub o hoy, (granted_iff ..).2 (Or.inr ⟨k, p, hk, hp, hg⟩)⟩

/-- C136: whatever the clock, the store and the keys of dishonest parties do, every capability reported got from one of those listed into the presented token through
tokens that were valid when read and, if their issuer is honest, have the content of a UCAN in the log of those signed with the issuer's key. -/
theorem C136_authority (D : Deps) (sem : Semantics S A) (E : Env) (nowTime : Option UInt64) (fuel : Nat) (token : String) (w w' : World)
    (hc : Coherent w.parser) (c : Chain) (h : ofToken D E nowTime fuel token w = (.ok c, w')) (honest : String → Prop) (H : String → Bytes → Prop) (Signed : Ucan → Prop)
    (hf : UnforgeableFor honest w.parser.ctors H) (ho : OnlyUcansFor D honest H Signed) (out : List (Info S A)) (hr : reduce D sem c = .ok out)
    (i : Info S A) (hi : i ∈ out) :
    ∃ o ∈ i.originators, Authority D sem (ReadIn E w.tick w'.tick)
      (fun u => ValidIn E nowTime w.parser.ctors w.tick w'.tick u ∧ (honest u.payload.iss → Genuine Signed u)) c.ucan i.capability o := by
  obtain ⟨hp, hs⟩ := ofToken_sound D E nowTime fuel token w c w' hc h
  obtain ⟨o, hoi, hfl⟩ := C136_flows D sem c out hr i hi
  refine ⟨o, hoi, Authority.flows_authority hfl hs fun d hd => ?_⟩
  have hv := (Sound.all (Sound.sub hd hs)).1
  exact ⟨hv, Authority.genuine hf ho (Authority.covered_sub hd hs (C59_parsed D _ _ hp)) hv.authentic⟩

/-- C136: so a service may accept requests in the name of a group of honest owners whenever a report that covers the request lists nobody else: no token, store or clock
leads to acceptance unless one of the group signed a UCAN that claims something covering it. -/
theorem C136_group (D : Deps) (sem : Semantics S A) (ht : EnablesTrans sem) (group : String → Prop) (H : String → Bytes → Prop) (Signed : Ucan → Prop) (request : View S A)
    (ho : OnlyUcansFor D group H Signed) (E : Env) (nowTime : Option UInt64) (fuel : Nat) (token : String) (w w' : World) (hc : Coherent w.parser)
    (hf : UnforgeableFor group w.parser.ctors H) (c : Chain) (h : ofToken D E nowTime fuel token w = (.ok c, w')) (out : List (Info S A)) (hr : reduce D sem c = .ok out)
    (hacc : AuthorisesGroup sem out group request) :
    ∃ u v, Signed u ∧ group u.payload.iss ∧ Claimed D sem u v ∧ CoveredBy sem v request := by
  obtain ⟨i, hi, hall, hcov⟩ := hacc
  obtain ⟨o, hoi, ha⟩ := C136_authority D sem E nowTime fuel token w w' hc c h group H Signed hf ho out hr i hi
  obtain ⟨q, v, ⟨_, hq⟩, hiss, hcl, hv⟩ := Authority.covers ht ha
  obtain ⟨u, hu, _, e⟩ := hq (hiss ▸ hall o hoi)
  exact ⟨u, v, hu, e ▸ hiss ▸ hall o hoi, Authority.claimed_congr e.symm hcl, coveredBy_trans ht _ _ _ hv hcov⟩

/-- C136: and if the group belongs to a circle of honest parties, who hand the authority on to nobody outside, nobody outside can present a token that is accepted. -/
theorem C136_circle (D : Deps) (sem : Semantics S A) (ht : EnablesTrans sem) (group circle : String → Prop) (hin : ∀ o, group o → circle o) (H : String → Bytes → Prop)
    (Signed : Ucan → Prop) (request : View S A) (ho : OnlyUcansFor D circle H Signed)
    (hclosed : ∀ u, Signed u → circle u.payload.iss → HandsOn D sem request u → circle u.payload.aud)
    (E : Env) (nowTime : Option UInt64) (fuel : Nat) (token : String) (w w' : World) (hc : Coherent w.parser) (hf : UnforgeableFor circle w.parser.ctors H) (c : Chain)
    (h : ofToken D E nowTime fuel token w = (.ok c, w')) (out : List (Info S A)) (hr : reduce D sem c = .ok out)
    (hacc : AuthorisesGroup sem out group request) : circle c.ucan.payload.iss := by
  obtain ⟨i, hi, hall, hcov⟩ := hacc
  obtain ⟨o, hoi, ha⟩ := C136_authority D sem E nowTime fuel token w w' hc c h circle H Signed hf ho out hr i hi
  have hown := hin o (hall o hoi)
  generalize hu : c.ucan = u at ha ⊢
  generalize i.capability = v at ha hcov
  clear hu hi hall hoi h hr
  induction ha with
  | granted _ _ => exact hown
  | attenuated k _ _ _ hdel hq he ih =>
    have hcov' := coveredBy_trans ht _ _ _ (Or.inr he) hcov
    have hiss := ih hown hcov'
    obtain ⟨⟨_, hs⟩, hh⟩ := Authority.handsOn hq hcov'
    obtain ⟨u', hu, _, e⟩ := hs hiss
    exact hdel.addressed ▸ (congrArg Payload.aud e ▸ hclosed u' hu (e ▸ hiss) (Authority.handsOn_congr e.symm hh))
  | redelegated k _ _ _ hdel hq ih =>
    have hiss := ih hown hcov
    obtain ⟨⟨_, hs⟩, hh⟩ := Authority.handsOn hq hcov
    obtain ⟨u', hu, _, e⟩ := hs hiss
    exact hdel.addressed ▸ (congrArg Payload.aud e ▸ hclosed u' hu (e ▸ hiss) (Authority.handsOn_congr e.symm hh))

/-- C136: what anybody granted is accepted in the name of the group if all who claimed something connected to it belong to the group. -/
theorem C136_accepts (D : Deps) (sem : Semantics S A) (ht : EnablesTrans sem) (c : Chain) (out : List (Info S A)) (h : reduce D sem c = .ok out) (group : String → Prop)
    (v request : View S A) (o : String) (hg : Granted D sem c v o) (hcov : CoveredBy sem v request)
    (hall : ∀ d, Sub d c → ∀ v', Claimed D sem d.ucan v' → Related D sem c v v' → group d.ucan.payload.iss) : AuthorisesGroup sem out group request := by
  obtain ⟨i, hi, hiv, _⟩ := C33_covered_trans D sem ht c out h v o hg
  refine ⟨i, hi, fun o' ho' => ?_, coveredBy_trans ht _ _ _ hiv hcov⟩
  obtain ⟨d, hd, rfl, v', hv', hrel⟩ := C31_related D sem c out h i hi o' ho'
  refine hall d hd v' hv' (.trans ?_ hrel)
  rcases hiv with e | e
  · rw [e]; exact .refl _
  · exact .symm (.enables (.self _) (.self _) (C28_offered D sem c out h i hi) (granted_offers D sem c v o hg) e)

namespace Ex

/-- Beside C136: the chain of party 1 is reported for party 1 alone, who is one of the group; the log is closed by `guard_accepts`. -/
example (D : Deps) : AuthorisesGroup mailSem [⟨[did 1], some 6, some 10, mail "a@b" 0⟩] guarded (mail "a@b" 0) ∧
    ∃ fuel w', ofToken D (env D) none fuel ((root D).encode D) (guardWorld D) = (.ok (chain D), w') ∧ OnlyUcansFor D guarded (guardLog D) (guardSigned D) ∧
      UnforgeableFor guarded (guardWorld D).parser.ctors (guardLog D) ∧ reduce D mailSem (chain D) = .ok [⟨[did 1], some 6, some 10, mail "a@b" 0⟩] := by
  obtain ⟨fuel, w', h⟩ := guard_built D
  refine ⟨⟨_, List.mem_singleton.2 rfl, ?_, Or.inl rfl⟩, fuel, w', h, guard_only D, guard_unforgeable D, redelegated_reduce D⟩
  intro o ho
  rcases List.mem_singleton.1 ho with rfl
  exact Or.inl rfl

/-- Beside C136_accepts: all who issued the tokens of that chain belong to the group. -/
example (D : Deps) : ∀ d, Sub d (chain D) → guarded d.ucan.payload.iss := by
  intro d hd
  cases hd with
  | self => exact Or.inr (Or.inl rfl)
  | proof hp hd =>
    rcases List.mem_singleton.1 hp with rfl
    cases hd with
    | self => exact Or.inl rfl
    | proof hp _ => cases hp

/-- Beside C136_granted: two are listed for all mail, and one of them, key 3, granted it. -/
example (D : Deps) : reduce D mailSem (chain3 D capA capA capAllA) = .ok [⟨[did 1, did 3], some 5, some 20, mailAll 1⟩] := rfl

end Ex
end Verif
