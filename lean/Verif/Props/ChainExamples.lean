import Verif.Props.Chain

/-! # Concrete chains beside C21–C26, C36 and C37 -/

namespace Verif
namespace Ex
open Spec Chain

/-- The DID of the key that verifies the one-byte signature `k` (see `exCtors`). -/
def did (k : UInt8) : String := "did:key:z" ++ asciiStr (Base58.encode [0xed, 1, k])

/-- One claim with an empty caveat. -/
def caps (r a : String) : Capabilities := [(r, [(a, [.obj []])])]

def payload (k : UInt8) (aud : String) (exp nbf : Option UInt64) (prf : Option (List String)) (cap : Capabilities) : Payload :=
  ⟨ucanVersion, did k, aud, exp, nbf, none, cap, none, prf⟩

/-- A UCAN signed by the key `k`. -/
def ucan (D : Deps) (k : UInt8) (aud : String) (exp nbf : Option UInt64) (prf : Option (List String)) (cap : Capabilities) : Ucan :=
  ⟨⟨"EdDSA", "JWT"⟩, payload k aud exp nbf prf cap, Ucan.signingInput D ⟨"EdDSA", "JWT"⟩ (payload k aud exp nbf prf cap), [k]⟩

theorem good_empty (D : Deps) : Codec.Good D (.obj []) := by
  refine ⟨trivial, ⟨by simp [BMap.Sorted], ?_, trivial⟩, trivial⟩
  rintro (⟨s, hs⟩ | ⟨s, hs⟩) <;> simp at hs

theorem encodable (D : Deps) (k : UInt8) (aud : String) (exp nbf : Option UInt64) (prf : Option (List String)) (r a : String) :
    Codec.Encodable D (payload k aud exp nbf prf (caps r a)) := by
  refine ⟨by simp [payload, caps, BMap.Sorted], by simp [payload, caps, BMap.Sorted], ?_, by simp [payload], ?_⟩
  · intro r hr a ha c hc
    simp only [payload, caps, List.mem_singleton] at hr
    subst hr
    simp only [List.mem_singleton] at ha
    subst ha
    simp only [List.mem_singleton] at hc
    subst hc
    exact good_empty D
  · have := Codec.depth_payload (n := 10) (payload k aud exp nbf prf (caps r a)) (by
      intro r hr a ha c hc
      simp only [payload, caps, List.mem_singleton] at hr
      subst hr
      simp only [List.mem_singleton] at ha
      subst ha
      simp only [List.mem_singleton] at hc
      subst hc
      decide) (by omega) (by simp [payload])
    simp only [Json.depthLimit]
    omega

theorem parses (D : Deps) (k : UInt8) (aud : String) (exp nbf : Option UInt64) (prf : Option (List String)) (r a : String) :
    Ucan.fromStr D ((ucan D k aud exp nbf prf (caps r a)).encode D) = .ok (ucan D k aud exp nbf prf (caps r a)) :=
  C01_round_trip_general D _ (encodable D k aud exp nbf prf r a) rfl

theorem authentic (D : Deps) (k : UInt8) (aud : String) (exp nbf : Option UInt64) (prf : Option (List String)) (cap : Capabilities) :
    Authentic exCtors (ucan D k aud exp nbf prf cap) := by
  refine ⟨exKey [k], ⟨0xed, 1, [k], fun b => .ok (exKey b), ?_, rfl, rfl⟩, ?_⟩
  · show strBytes ("did:key:z" ++ _) = _
    rw [strBytes_append, strBytes_asciiStr (Base58.encode_ascii _)]
  · show (if [k] = [k] then _ else _) = _
    rw [if_pos rfl]

theorem valid (D : Deps) (k : UInt8) (aud : String) (exp nbf : UInt64) (prf : Option (List String)) (cap : Capabilities) (t : UInt64)
    (h1 : nbf ≤ t) (h2 : t ≤ exp) : ValidAt none exCtors t (ucan D k aud (some exp) (some nbf) prf cap) := by
  refine ⟨authentic D k aud _ _ prf cap, ?_, ?_⟩
  · intro e he; cases he; exact h2
  · intro e he; cases he; exact h1

/-- A CID with a one-byte digest. -/
def cid (n : UInt8) : Cid := ⟨true, Cid.rawCodec, Cid.blake3, [n]⟩

theorem cid_parse (D : Deps) (n : UInt8) : Cid.parse D (cid n).toStr = some (cid n) := Cid.parse_toStr D (cid n) rfl (by simp [cid])

/-- A grant from key 1 to key 2, valid from 5 to 20. -/
def leaf (D : Deps) : Ucan := ucan D 1 (did 2) (some 20) (some 5) none (caps "mailto:a@b" "msg/send")

/-- Key 2 redelegates its only proof to key 3, from 6 to 10. -/
def root (D : Deps) : Ucan :=
  ucan D 2 (did 3) (some 10) (some 6) (some [(cid 1).toStr]) (caps ("prf:" ++ asciiStr (Json.decBytes 0)) "ucan/DELEGATE")

/-- A store that holds the grant under `cid 1`, and the clock at 7. -/
def dags (D : Deps) : Store.Dags := fun c => if c = cid 1 then some (strBytes ((leaf D).encode D)) else none

def env (D : Deps) : Env := still (dags D) 7

def leafChain (D : Deps) : Chain := .mk (leaf D) [] []
def chain (D : Deps) : Chain := .mk (root D) [leafChain D] [0]

theorem leaf_no_redel (D : Deps) (i : Nat) : ¬ ∃ c ∈ (leaf D).payload.cap.iter, Redelegates D c i := by
  rintro ⟨c, hc, ha, _⟩
  have : c = ⟨"mailto:a@b", "msg/send", .obj []⟩ := by simpa [leaf, ucan, payload, caps, Capabilities.iter] using hc
  subst this
  revert ha
  show ¬ "msg/send" = "ucan/DELEGATE"
  decide

theorem root_redel (D : Deps) (i : Nat) : (∃ c ∈ (root D).payload.cap.iter, Redelegates D c i) ↔ i = 0 := by
  have h0 : Redelegates D ⟨"prf:" ++ asciiStr (Json.decBytes 0), "ucan/DELEGATE", .obj []⟩ 0 := by
    rw [← C19_index_iff]
    exact ⟨_, C19_decimal D 0 (by decide) _, rfl⟩
  constructor
  · rintro ⟨c, hc, hr⟩
    have : c = ⟨"prf:" ++ asciiStr (Json.decBytes 0), "ucan/DELEGATE", .obj []⟩ := by
      simpa [root, ucan, payload, caps, Capabilities.iter] using hc
    subst this
    exact C19_unique D _ _ _ hr.2 h0.2
  · rintro rfl
    exact ⟨_, by simp [root, ucan, payload, caps, Capabilities.iter], h0⟩

theorem leaf_resolves (D : Deps) : Resolves D (Holds (env D)) (cid 1).toStr (leaf D) := by
  refine ⟨cid 1, (leaf D).encode D, cid_parse D 1, rfl, ?_, parses D 1 (did 2) _ _ _ _ _⟩
  exact memRead_bytes.2 (by show (if cid 1 = cid 1 then _ else _) = _; rw [if_pos rfl])

theorem chain_sound (D : Deps) : Sound D (ValidAt none exCtors 7) (Holds (env D)) (chain D) := by
  unfold chain leafChain
  simp only [Sound, SoundAll]
  refine ⟨valid D 2 _ 10 6 _ _ 7 (by decide) (by decide), ⟨_, [], rfl, leaf_resolves D, ⟨rfl, ?_, ?_⟩, ⟨valid D 1 _ 20 5 _ _ 7 (by decide) (by decide), rfl, ?_⟩, rfl⟩, ?_⟩
  · intro n hn; cases hn; exact ⟨6, rfl, by decide⟩
  · intro n hn; cases hn; exact ⟨10, rfl, by decide⟩
  · refine ⟨by simp [BSet.Sorted], fun i => ?_, by simp⟩
    constructor
    · intro h; cases h
    · intro h; exact absurd h (leaf_no_redel D i)
  · refine ⟨by simp [BSet.Sorted], fun i => ?_, by simp⟩
    rw [root_redel]
    simp

/-- A fresh world with the example keys. -/
def world : World := ⟨0, ⟨exCtors, []⟩⟩

theorem world_coherent : Coherent world.parser := DidParser.coherent_fresh exCtors

/-- Beside C21 to C25 and C27: a run that returns a chain of two levels with a redelegation. -/
theorem built (D : Deps) : ∃ fuel w', Chain.ofToken D (env D) none fuel ((root D).encode D) world = (.ok (chain D), w') := by
  obtain ⟨fuel, h⟩ := (C24_complete D (env D) none 7 (fun _ => rfl) (fun _ _ _ => rfl) ((root D).encode D) world world_coherent (chain D)).2
    ⟨parses D 2 _ _ _ _ _ _, chain_sound D⟩
  exact ⟨fuel, _, by rw [← h]⟩

example (D : Deps) : ∃ w', Built D (env D) none world w' (chain D) := by
  obtain ⟨fuel, w', h⟩ := built D
  exact ⟨w', .ofToken fuel _ h⟩

/-- Beside C26: with the clock at 21 the grant is a defect, two levels below the token. -/
example (D : Deps) : Reaches D (Holds (still (dags D) 21)) (root D) (leaf D) ∧
    Defect D (ValidAt none exCtors 21) (Holds (still (dags D) 21)) (leaf D) := by
  refine ⟨.step (s := (cid 1).toStr) (v := leaf D) ?_ (leaf_resolves D) (.self _), .invalid (fun h => ?_)⟩
  · show _ ∈ [(cid 1).toStr]
    simp
  · have := h.unexpired 20 rfl
    revert this
    decide

/-- Beside C36: references are well founded in the example store. -/
example (D : Deps) : Acc (Refers D (env D)) (root D) := by
  have hleaf : Acc (Refers D (env D)) (leaf D) := by
    refine ⟨_, ?_⟩
    rintro v ⟨s, hs, _⟩
    exact absurd (show s ∈ ([] : List String) from hs) (by simp)
  refine ⟨_, ?_⟩
  rintro v ⟨s, hs, cid', tok, h1, h2, ⟨i, h3⟩, h4⟩
  have hs : s = (cid 1).toStr := by simpa using (show s ∈ [(cid 1).toStr] from hs)
  subst hs
  have : leaf D = v := Resolves.unique (holds_functional (env D)) (leaf_resolves D) ⟨cid', tok, h1, h2, h3, h4⟩
  exact this ▸ hleaf

/-- A token that names itself as its proof, in a store that answers without regard to hashes. -/
def selfish (D : Deps) : Ucan := ucan D 1 (did 1) (some 20) (some 5) (some [(cid 1).toStr]) (caps "mailto:a@b" "msg/send")

def cyclic (D : Deps) : Env := ⟨fun _ => 7, fun _ _ => .ok (some (.bytes (strBytes ((selfish D).encode D))))⟩

/-- C36: the hypotheses of `C36_endless` are met by a self-referential token. -/
theorem cyclic_endless (D : Deps) : Endless D (cyclic D) none exCtors (· = selfish D) := by
  refine ⟨?_, ?_⟩
  · rintro u rfl w hc hct
    obtain ⟨w', h⟩ := validate_ok_of_validAt (E := cyclic D) (nowTime := none) (t := 7) (fun _ => rfl) hc (u := selfish D)
      (by rw [hct]; exact valid D 1 _ 20 5 _ _ 7 (by decide) (by decide))
    rw [h]
  · rintro u rfl
    exact ⟨_, [], selfish D, rfl, ⟨cid 1, _, cid_parse D 1, rfl, fun _ => rfl, parses D 1 _ _ _ _ _ _⟩, rfl⟩

end Ex

/-- C36: there is a store and a token for which construction recurses beyond every depth. -/
theorem C36_cyclic_store (D : Deps) : ∃ (E : Env) (token : String) (w : World), Spec.Coherent w.parser ∧
    ∀ fuel, (Chain.ofToken D E none fuel token w).1 = .error .diverge := by
  have hp : Ucan.fromStr D ((Ex.selfish D).encode D) = .ok (Ex.selfish D) := Ex.parses D 1 _ _ _ _ _ _
  refine ⟨Ex.cyclic D, (Ex.selfish D).encode D, Ex.world, Ex.world_coherent, ?_⟩
  generalize (Ex.selfish D).encode D = token at hp
  intro fuel
  cases fuel with
  | zero => rw [Chain.ofToken, M.lift_apply]
  | succ fuel =>
    have := C36_endless D _ none exCtors _ (Ex.cyclic_endless D) fuel _ Ex.world rfl Ex.world_coherent rfl
    rw [Chain.ofToken, hp]
    rw [← this]
    exact congrArg Prod.fst (M.bind_of_ok rfl)

/-- Beside C37: a store to which the example grant is added between two reads. -/
example (D : Deps) (b : Bytes) : Spec.Grows D (fun _ => none) (Store.memWrite D (fun _ => none) (.bytes b)).2 :=
  .write b (.refl _) (by simp)

end Verif
