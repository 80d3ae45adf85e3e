import Verif.Spec.Revoke
import Verif.Props.Store
import Verif.Props.Withdraw
import Verif.Props.Crypto

/-! # C115 Withdrawing a token by its CID -/

namespace Verif
open Spec Chain

theorem Revoke.sub_covered {D : Deps} {V : Ucan → Prop} {F : Cid → Bytes → Prop} {d c : Chain} (h : Sub d c) :
    Sound D V F c → Covered D c.ucan → Covered D d.ucan := by
  induction h with
  | self => exact fun _ h => h
  | proof he hs ih =>
    rename_i d' e
    intro hc hcov
    obtain ⟨_, ha, _⟩ := Sound.all hc
    obtain ⟨i, hi, rfl⟩ := List.getElem_of_mem he
    obtain ⟨hl, hr⟩ := SoundAll.entry ha
    obtain ⟨_, _, _, _, _, hp⟩ := hr i ((d'.ucan.payload.prf.getD [])[i]'(by omega)) (d'.proofs[i]) (List.getElem?_eq_getElem _) (List.getElem?_eq_getElem _)
    exact ih (Sound.sub (.proof he (.self _)) hc) (C59_parsed D _ _ hp)

/-- C115 is violated: whoever has a token writes anything behind it, stores that, and has another reference to the same UCAN, which is none of its CIDs. -/
theorem C115_renamed (D : Deps) (hD : ShortDigests D) (t : String) (u : Ucan) (h : Ucan.fromStr D t = .ok u) (x : String)
    (hx : D.digest 0x1e (strBytes (t ++ "." ++ x)) ≠ D.digest 0x1e (strBytes (u.encode D))) :
    ∃ s cid, Cid.parse D s = some cid ∧ (∀ hasher, cid ≠ u.toCid D hasher) ∧
      ∀ m, (Store.writeToken D m (t ++ "." ++ x)).1 = .ok cid ∧ Resolves D (fun c b => (Store.writeToken D m (t ++ "." ++ x)).2 c = some b) s u := by
  have hp : Cid.parse D (Store.blockCid D (strBytes (t ++ "." ++ x))).toStr = some (Store.blockCid D (strBytes (t ++ "." ++ x))) :=
    C56_round_trip D _ rfl (hD _ _)
  refine ⟨_, _, hp, fun hasher e => ?_, fun m => ⟨rfl, _, _, hp, rfl, ?_, C04_extra_segments D t u x h⟩⟩
  · rw [Ucan.toCid, ← Ucan.strBytes_encode] at e
    have e1 := congrArg Cid.hashCode e
    have e2 := congrArg Cid.digest e
    simp only [Store.blockCid] at e1 e2
    rw [← e1] at e2
    exact hx e2
  · show (if _ = _ then _ else _) = _
    rw [if_pos rfl]

/-- C115 is violated by keys with a second signature of the same bytes, too: the UCAN with this signature is as valid, parses from its text, says the same, and
has other CIDs, unless the hash function does not tell the two texts apart. -/
theorem C115_second_signature (D : Deps) (E : Env) (nowTime : Option UInt64) (w : World) (hc : Coherent w.parser) (u : Ucan) (he : Codec.Encodable D u.payload)
    (hd : u.signedData = Ucan.signingInput D u.header u.payload) (key : Key) (hk : Denotes w.parser.ctors u.payload.iss key) (s : Bytes) (hs : s ≠ u.signature)
    (hv : key.verify u.signedData s = .ok ()) (hu : (u.validate E nowTime w).1 = .ok ()) :
    ((resigned u s).validate E nowTime w).1 = .ok () ∧ Ucan.fromStr D ((resigned u s).encode D) = .ok (resigned u s) ∧
      (resigned u s).header = u.header ∧ (resigned u s).payload = u.payload ∧ (resigned u s).encode D ≠ u.encode D ∧
      ∀ hasher, D.digest hasher (strBytes ((resigned u s).encode D)) ≠ D.digest hasher (strBytes (u.encode D)) →
        (resigned u s).toCid D hasher ≠ u.toCid D hasher := by
  have hp : Ucan.fromStr D ((resigned u s).encode D) = .ok (resigned u s) := C01_round_trip_general D _ he hd
  have hp0 : Ucan.fromStr D (u.encode D) = .ok u := C01_round_trip_general D _ he hd
  refine ⟨?_, hp, rfl, rfl, ?_, ?_⟩
  · rw [C12_validate_iff E _ nowTime w hc] at hu ⊢
    exact ⟨hu.1, hu.2.1, key, hk, hv⟩
  · intro e
    rw [e, hp0] at hp
    exact hs (congrArg Ucan.signature (Except.ok.inj hp)).symm
  · intro hasher hn e
    rw [Ucan.toCid, Ucan.toCid, ← Ucan.strBytes_encode, ← Ucan.strBytes_encode] at e
    exact hn (congrArg Cid.digest e)

/-- C115, what works: computing the CID of every token of the chain, not looking at the references. If the keys have one signature for every message and the
service refuses chains with a token whose CID is listed, then what was signed with a listed token is in no accepted chain, under whatever reference and
in whatever text it was stored. Missing from the full statement: services that look at the references, and keys with several signatures. -/
theorem C115_walk_partial {D : Deps} {E : Env} {nowTime : Option UInt64} {w w' : World} {c : Chain} (hc : Coherent w.parser) (hb : Built D E nowTime w w' c)
    (ht : Covered D c.ucan) (h1 : OneSignature w.parser.ctors) (hasher : UInt64) (Listed : Cid → Prop) (hn : ∀ d, Sub d c → ¬ Listed (d.ucan.toCid D hasher))
    (u : Ucan) (hu : Covered D u) (ha : Authentic w.parser.ctors u) (hl : Listed (u.toCid D hasher)) (d : Chain) (hd : Sub d c) :
    d.ucan.signedData ≠ u.signedData := by
  intro e
  obtain ⟨e1, e2⟩ := C59_unique D _ _ (Revoke.sub_covered hd (built_sound hc hb) ht) hu e
  obtain ⟨key, hk, hv⟩ := (C21_all_valid hc hb d hd).authentic
  obtain ⟨key', hk', hv'⟩ := ha
  rw [← e2] at hk'
  rw [DidParser.denotes_unique hk' hk, ← e] at hv'
  have e3 := h1 _ _ _ _ _ hk hv hv'
  have : d.ucan = u := by
    obtain ⟨⟨uh, up, ud, us⟩, _, _⟩ := d
    obtain ⟨vh, vp, vd, vs⟩ := u
    simp only [Chain.ucan] at e1 e2 e3 e
    subst e1 e2 e3 e
    rfl
  exact hn d hd (this ▸ hl)

namespace Ex

/-- The grant with a dot behind it. -/
def dotted (D : Deps) : String := (leaf D).encode D ++ "." ++ ""

/-- The memory store after the dotted text was written to it. -/
def dottedStore (D : Deps) : Store.Dags := (Store.writeToken D (fun _ => none) (dotted D)).2

def dottedCid (D : Deps) : Cid := Store.blockCid D (strBytes (dotted D))

/-- Key 2 redelegates the grant to key 3, citing the dotted text. -/
def dottedRoot (D : Deps) : Ucan :=
  ucan D 2 (did 3) (some 10) (some 6) (some [(dottedCid D).toStr]) (caps ("prf:" ++ asciiStr (Json.decBytes 0)) "ucan/DELEGATE")

def dottedChain (D : Deps) : Chain := .mk (dottedRoot D) [leafChain D] [0]

theorem dotted_parse (D : Deps) (hD : ShortDigests D) : Cid.parse D (dottedCid D).toStr = some (dottedCid D) := C56_round_trip D _ rfl (hD _ _)

theorem dotted_resolves (D : Deps) (hD : ShortDigests D) : Resolves D (Holds (still (dottedStore D) 7)) (dottedCid D).toStr (leaf D) := by
  refine ⟨dottedCid D, dotted D, dotted_parse D hD, rfl, ?_, C04_extra_segments D _ _ _ (parses D 1 (did 2) _ _ _ _ _)⟩
  exact memRead_bytes.2 (if_pos rfl)

theorem dotted_sound (D : Deps) (hD : ShortDigests D) : Sound D (ValidAt none exCtors 7) (Holds (still (dottedStore D) 7)) (dottedChain D) := by
  unfold dottedChain leafChain
  simp only [Sound, SoundAll]
  refine ⟨valid D 2 _ 10 6 _ _ 7 (by decide) (by decide),
    ⟨_, [], rfl, dotted_resolves D hD, ⟨rfl, ?_, ?_⟩, ⟨valid D 1 _ 20 5 _ _ 7 (by decide) (by decide), rfl, ?_⟩, rfl⟩, ?_⟩
  · intro n hn; cases hn; exact ⟨6, rfl, by decide⟩
  · intro n hn; cases hn; exact ⟨10, rfl, by decide⟩
  · refine ⟨by simp [BSet.Sorted], fun i => ?_, by simp⟩
    constructor
    · intro h; cases h
    · intro h; exact absurd h (leaf_no_redel D i)
  · refine ⟨by simp [BSet.Sorted], fun i => ?_, by simp⟩
    exact Iff.trans (by simp) (root_redel D i).symm

theorem dotted_sub (D : Deps) (d : Chain) (h : Sub d (dottedChain D)) : d = dottedChain D ∨ d = leafChain D := by
  cases h with
  | self => exact Or.inl rfl
  | proof he hs =>
    cases List.mem_singleton.1 he
    cases hs with
    | self => exact Or.inr rfl
    | proof he _ => cases he

end Ex

/-- C115 is violated: there is an accepted chain that rests on a token without any token in the chain referring to it by a CID of its own. The store has only
what was written to it, and finds it under its hash. -/
theorem C115_violated (D : Deps) (hD : ShortDigests D) (hx : D.digest 0x1e (strBytes (Ex.dotted D)) ≠ D.digest 0x1e (strBytes ((Ex.leaf D).encode D))) :
    ∃ (m : Store.Dags) (t : String) (w w' : World) (fuel : Nat) (token : String) (c : Chain) (u : Ucan), Coherent w.parser ∧
      m = (Store.writeToken D (fun _ => none) t).2 ∧ Ucan.fromStr D t = .ok u ∧ ofToken D (still m 7) none fuel token w = (.ok c, w') ∧
      (∃ d ∈ c.proofs, d.ucan = u) ∧ NeverCites D c u := by
  obtain ⟨fuel, h⟩ := (C24_complete D (still (Ex.dottedStore D) 7) none 7 (fun _ => rfl) (fun _ _ _ => rfl) ((Ex.dottedRoot D).encode D) Ex.world Ex.world_coherent
    (Ex.dottedChain D)).2 ⟨Ex.parses D 2 _ _ _ _ _ _, Ex.dotted_sound D hD⟩
  refine ⟨Ex.dottedStore D, Ex.dotted D, Ex.world, _, fuel, _, Ex.dottedChain D, Ex.leaf D, Ex.world_coherent, rfl,
    C04_extra_segments D _ _ _ (Ex.parses D 1 (Ex.did 2) _ _ _ _ _), by rw [← h], ⟨Ex.leafChain D, List.mem_singleton.2 rfl, rfl⟩, ?_⟩
  rintro hasher ⟨d, hd, s, hs, hp⟩
  rcases Ex.dotted_sub D d hd with rfl | rfl
  · have : s = (Ex.dottedCid D).toStr := by simpa [Ex.dottedChain, Ex.dottedRoot, Ex.ucan, Ex.payload, Chain.ucan] using hs
    subst this
    rw [Ex.dotted_parse D hD, Ucan.toCid, ← Ucan.strBytes_encode] at hp
    have e := Option.some.inj hp
    have e1 := congrArg Cid.hashCode e
    have e2 := congrArg Cid.digest e
    simp only [Ex.dottedCid, Store.blockCid] at e1 e2
    rw [← e1] at e2
    exact hx e2
  · cases hs

/-- Beside C115: a digest that meets what is assumed (it counts the bytes). -/
def Ex.counting (D : Deps) : Deps := { D with digest := fun _ b => [UInt8.ofNat b.length] }

example (D : Deps) : ShortDigests (Ex.counting D) ∧
    (Ex.counting D).digest 0x1e (strBytes (Ex.dotted (Ex.counting D))) ≠ (Ex.counting D).digest 0x1e (strBytes ((Ex.leaf (Ex.counting D)).encode (Ex.counting D))) := by
  refine ⟨fun _ _ => by simp [Ex.counting], ?_⟩
  have hdot : strBytes ("." ++ "") = [46] := by decide +kernel
  show [UInt8.ofNat _] ≠ [UInt8.ofNat _]
  unfold Ex.dotted
  rw [String.append_assoc, strBytes_append, hdot]
  intro h
  have := congrArg UInt8.toNat (List.cons.inj h).1
  simp only [List.length_append, List.length_cons, List.length_nil, UInt8.toNat_ofNat'] at this
  omega

/-- Beside `C115_walk_partial`: the example keys have one signature each, and listing another token leaves the chain of the examples accepted. -/
example (D : Deps) : OneSignature exCtors ∧ Covered D (Ex.chain D).ucan ∧ (∃ w', Built D (Ex.env D) none Ex.world w' (Ex.chain D)) ∧
    Covered D (Ex.ucan D 5 "did:key:z3" none none none (Ex.caps "mailto:a@b" "msg/send")) ∧
    Authentic exCtors (Ex.ucan D 5 "did:key:z3" none none none (Ex.caps "mailto:a@b" "msg/send")) := by
  refine ⟨?_, C59_parsed D _ _ (Ex.parses D 2 _ _ _ _ _ _), ?_, C59_parsed D _ _ (Ex.parses D 5 _ _ _ _ _ _), Ex.authentic D 5 _ _ _ _ _⟩
  · rintro did key m s s' ⟨b0, b1, rest, ctor, _, hg, hr⟩ h h'
    have hc : ctor = fun b => .ok (exKey b) := by
      simp only [exCtors, BMap.get?] at hg
      split at hg
      · exact (Option.some.inj hg).symm
      · cases hg
    subst hc
    cases hr
    simp only [exKey] at h h'
    split at h
    · split at h'
      · rename_i a b; rw [a, b]
      · cases h'
    · cases h
  · obtain ⟨fuel, w', h⟩ := Ex.built D
    exact ⟨w', .ofToken fuel _ h⟩

/-- Beside `C115_second_signature`: a key that accepts two signatures. -/
def Ex.twoKey : Key := ⟨"EdDSA", .ok "x", fun _ => err .noPrivateKey, fun _ s => if s = [1] ∨ s = [2] then .ok () else err .badSignature⟩

example (D : Deps) : ∃ (w : World) (u : Ucan) (key : Key) (s : Bytes), Coherent w.parser ∧ Codec.Encodable D u.payload ∧
    u.signedData = Ucan.signingInput D u.header u.payload ∧ Denotes w.parser.ctors u.payload.iss key ∧ s ≠ u.signature ∧ key.verify u.signedData s = .ok () ∧
    (u.validate (Ex.env D) none w).1 = .ok () := by
  have hk : Denotes [(Did.ed25519Magic, fun _ => .ok Ex.twoKey)] (Ex.did 1) Ex.twoKey := by
    refine ⟨0xed, 1, [1], fun _ => .ok Ex.twoKey, ?_, rfl, rfl⟩
    show strBytes ("did:key:z" ++ _) = _
    rw [strBytes_append, strBytes_asciiStr (Base58.encode_ascii _)]
  refine ⟨⟨0, ⟨[(Did.ed25519Magic, fun _ => .ok Ex.twoKey)], []⟩⟩, Ex.leaf D, Ex.twoKey, [2], DidParser.coherent_fresh _, Ex.encodable D 1 _ _ _ _ _ _, rfl, hk,
    by show [2] ≠ [1]; decide, rfl, ?_⟩
  rw [C12_validate_iff _ _ _ _ (DidParser.coherent_fresh _)]
  refine ⟨?_, ?_, Ex.twoKey, hk, rfl⟩
  · intro e he; cases he; show (7 : UInt64) ≤ 20; decide
  · intro e he; cases he; show (5 : UInt64) ≤ 7; decide

end Verif
