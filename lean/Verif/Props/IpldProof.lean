import Verif.Spec.IpldProof
import Verif.Props.Store
import Verif.Props.IpldCbor
import Verif.Props.Withdraw

/-! # C117 UCANs kept as IPLD blocks as proofs -/

namespace Verif
open Spec Chain

/-- C117: every proof reference in an accepted chain, at any depth, is to a raw block (codec 0x55). -/
theorem C117_raw {D : Deps} {E : Env} {nowTime : Option UInt64} {w w' : World} {c : Chain} (hc : Coherent w.parser) (hb : Built D E nowTime w w' c)
    (d : Chain) (hd : Sub d c) (cid : Cid) (h : NamesBlock D d.ucan cid) : cid.codec = 0x55 := by
  obtain ⟨s, hs, hp⟩ := h
  obtain ⟨_, ha, _⟩ := Sound.all (Sound.sub hd (built_sound hc hb))
  obtain ⟨i, hi, rfl⟩ := List.getElem_of_mem hs
  obtain ⟨hl, hr⟩ := SoundAll.entry ha
  obtain ⟨cid', _, hp', hraw, _⟩ := hr i _ (d.proofs[i]'(by omega)) (List.getElem?_eq_getElem _) (List.getElem?_eq_getElem _)
  rw [hp] at hp'
  cases hp'
  exact hraw

/-- C117 is violated: a token that names an authority by the block of its UCAN-IPLD form is part of no accepted chain, whatever store, hash function and time. -/
theorem C117_refused {D : Deps} {E : Env} {nowTime : Option UInt64} {w w' : World} {c : Chain} (hc : Coherent w.parser) (hb : Built D E nowTime w w' c)
    (d : Chain) (hd : Sub d c) (hasher : UInt64) (x : UcanIpld) : ¬ NamesBlock D d.ucan (ipldCid D hasher x) := by
  intro h
  have := C117_raw hc hb d hd _ h
  cases this

namespace Ex

/-- The IPLD form of the grant of the examples. -/
def leafIpld : UcanIpld :=
  ⟨"0.10.0-canary", ⟨[0xed, 1, 1]⟩, ⟨[0xed, 1, 2]⟩, IpldSig.ofAlg .EdDSA [1], caps "mailto:a@b" "msg/send", none, some 20, none, none, some 5⟩

theorem leaf_portable (D : Deps) : Portable D (leaf D) := by
  refine ⟨rfl, rfl, ⟨0xd0ed, by show ("EdDSA", _) ∈ algTable; decide⟩, fun h => ?_, fun s hs => ?_, did_safe 1, did_safe 2⟩
  · cases (show none = some [] from h)
  · cases (show s ∈ ([] : List String) from hs)

theorem leaf_to_ipld (D : Deps) : UcanIpld.ofUcan D (leaf D) = .ok leafIpld := by
  have h : ∀ k, Principle.ofStr (did k) = .ok ⟨[0xed, 1, k]⟩ := by
    intro k
    refine (C46_of _ _).2 (.key ?_)
    show strBytes ("did:key:z" ++ _) = _
    rw [strBytes_append, strBytes_asciiStr (Base58.encode_ascii _)]
  unfold UcanIpld.ofUcan
  have e1 : (leaf D).payload.iss = did 1 := rfl
  have e2 : (leaf D).payload.aud = did 2 := rfl
  have e3 : UcanIpld.prfOf D (leaf D).payload.prf = .ok none := rfl
  have e4 : JwtAlg.ofStr (leaf D).header.alg = some .EdDSA := rfl
  simp only [e1, e2, e3, e4, h]
  rfl

/-- Key 2 names the grant by its block. -/
def blockRoot (D : Deps) (hasher : UInt64) : Ucan :=
  ucan D 2 (did 3) (some 10) (some 6) (some [(ipldCid D hasher leafIpld).toStr]) (caps ("prf:" ++ asciiStr (Json.decBytes 0)) "ucan/DELEGATE")

end Ex

/-- C117 is violated: a valid grant with a UCAN-IPLD form that gives it back, and a valid token to which it delegates and which names it by the block of this
form, with any hash function. The token is never accepted, though the store may have the block, while the token that differs only in naming the grant's
text is. -/
theorem C117_violated (D : Deps) (hD : ShortDigests D) (hasher : UInt64) : ∃ (uA uB uC : Ucan) (x : UcanIpld) (t : UInt64) (w : World), Coherent w.parser ∧
    UcanIpld.ofUcan D uA = .ok x ∧ UcanIpld.toUcan D x = .ok uA ∧ Delegates uA uB ∧
    (∀ E : Env, ClockFixed E t → (uA.validate E none w).1 = .ok () ∧ (uB.validate E none w).1 = .ok ()) ∧
    NamesBlock D uB (ipldCid D hasher x) ∧
    (∀ E nowTime w w' c, Coherent w.parser → Built D E nowTime w w' c → c.ucan ≠ uB) ∧
    (uC.payload = { uB.payload with prf := uC.payload.prf } ∧ ∃ m w' c, Built D (still m t) none w w' c ∧ c.ucan = uC ∧ c.proofs.map Chain.ucan = [uA]) := by
  have hcite : NamesBlock D (Ex.blockRoot D hasher) (ipldCid D hasher Ex.leafIpld) := ⟨_, List.mem_singleton.2 rfl, C56_round_trip D _ rfl (hD _ _)⟩
  refine ⟨Ex.leaf D, Ex.blockRoot D hasher, Ex.root D, Ex.leafIpld, 7, Ex.world, Ex.world_coherent, Ex.leaf_to_ipld D, ?_, ⟨rfl, ?_, ?_⟩, ?_, hcite, ?_, rfl, ?_⟩
  · obtain ⟨x, h1, h2⟩ := C47_same D _ (Ex.leaf_portable D) (by show 1 < 2 ^ 64; omega) rfl
    rw [Ex.leaf_to_ipld] at h1
    cases h1
    exact h2
  · intro n hn; cases hn; exact ⟨6, rfl, by decide⟩
  · intro n hn; cases hn; exact ⟨10, rfl, by decide⟩
  · intro E hE
    have hv : ∀ u, ValidAt none exCtors 7 u → (u.validate E none Ex.world).1 = .ok () := by
      rintro u ⟨h1, h2, h3⟩
      rw [C12_validate_iff E u none Ex.world Ex.world_coherent]
      simp only [hE _]
      exact ⟨h2, h3, h1⟩
    exact ⟨hv _ (Ex.valid D 1 _ 20 5 _ _ 7 (by decide) (by decide)), hv _ (Ex.valid D 2 _ 10 6 _ _ 7 (by decide) (by decide))⟩
  · intro E nowTime w w' c hc hb e
    exact C117_refused hc hb c (.self _) hasher _ (by rw [e]; exact hcite)
  · obtain ⟨fuel, w', h⟩ := Ex.built D
    exact ⟨Ex.dags D, w', Ex.chain D, .ofToken fuel _ h, rfl, rfl⟩

/-- C117 (partial), what holds: from the block of a portable token, read back and converted, one has the text that references to the token name: writing it to
the store makes them resolve. Missing from the full statement: naming the block itself. -/
theorem C117_text_partial (D : Deps) (hD : ShortDigests D) (limit : Nat) (u : Ucan) (hp : Portable D u) (hl : u.signature.length < 2 ^ 64)
    (hu : Ucan.fromStr D (u.encode D) = .ok u) (hs : ∀ x, UcanIpld.ofUcan D u = .ok x → SoundUcanIpld x ∧ nesting (ucanIpldDoc x) < limit) :
    ∃ x x' u', UcanIpld.ofUcan D u = .ok x ∧ UcanIpld.ofCbor limit x.toCbor = some x' ∧ UcanIpld.toUcan D x' = .ok u' ∧
      ∀ m, (Store.writeToken D m (u'.encode D)).1 = .ok (u.toCid D Builder.defaultHasher) ∧
        Resolves D (fun c b => (Store.writeToken D m (u'.encode D)).2 c = some b) (u.toCid D Builder.defaultHasher).toStr u := by
  obtain ⟨x, x', u', h1, h2, h3, h4⟩ := C73_token D limit u hp hl hs
  refine ⟨x, x', u', h1, h2, h3, fun m => ?_⟩
  rw [h4]
  exact ⟨C63_same_cid D m u, C63_default_resolves D hD m u hu⟩

/-- Beside `C117_text_partial`: the grant of the examples. -/
theorem Ex.leafIpld_sound : SoundUcanIpld Ex.leafIpld where
  v := by decide +kernel
  iss := by decide +kernel
  aud := by decide +kernel
  s := by decide +kernel
  cap := by
    simp only [Ex.leafIpld, Ex.caps, capDoc, List.map, SoundValue, SoundMembers, SoundValues]
    exact ⟨by decide +kernel, by simp [BMap.Sorted], by decide +kernel, ⟨by decide +kernel, by simp [BMap.Sorted], by decide +kernel,
      ⟨by decide +kernel, ⟨by decide +kernel, by simp [BMap.Sorted], trivial⟩, trivial⟩, trivial⟩, trivial⟩
  prf := by intro l h; cases h
  fct := by intro f h; cases h
  nnc := by intro s h; cases h

example (D : Deps) (hD : ShortDigests D) : ∃ x x' u', UcanIpld.ofUcan D (Ex.leaf D) = .ok x ∧ UcanIpld.ofCbor 128 x.toCbor = some x' ∧
    UcanIpld.toUcan D x' = .ok u' ∧ ∀ m, (Store.writeToken D m (u'.encode D)).1 = .ok ((Ex.leaf D).toCid D Builder.defaultHasher) ∧
      Resolves D (fun c b => (Store.writeToken D m (u'.encode D)).2 c = some b) ((Ex.leaf D).toCid D Builder.defaultHasher).toStr (Ex.leaf D) := by
  refine C117_text_partial D hD 128 (Ex.leaf D) (Ex.leaf_portable D) (by show 1 < 2 ^ 64; omega) (Ex.parses D 1 (Ex.did 2) _ _ _ _ _) fun x h => ?_
  rw [Ex.leaf_to_ipld] at h
  cases h
  exact ⟨Ex.leafIpld_sound, by decide +kernel⟩

end Verif
