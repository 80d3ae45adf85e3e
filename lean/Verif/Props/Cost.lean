import Verif.Props.Authority

/-! # Property C68: the cost of validation -/

namespace Verif
open Spec Chain

/-! ## C68 Cost of shared proofs -/

/-- Readings of the clock by one validation. -/
def Spec.clockReads (nowTime : Option UInt64) (u : Ucan) : Nat :=
  (if nowTime = none ∧ u.payload.exp.isSome then 1 else 0) + (if u.payload.nbf.isSome then 1 else 0)

mutual
/-- Readings of the clock and the store for a tree: one of the store for every node but the root. -/
def Spec.accesses (nowTime : Option UInt64) : Chain → Nat
  | .mk u proofs _ => clockReads nowTime u + accessesAll nowTime proofs
def Spec.accessesAll (nowTime : Option UInt64) : List Chain → Nat
  | [] => 0
  | c :: cs => (1 + accesses nowTime c) + accessesAll nowTime cs
end

theorem Chain.validate_tick {E : Env} {u : Ucan} {nowTime : Option UInt64} {w w' : World}
    (h : u.validate E nowTime w = (.ok (), w')) : w'.tick = w.tick + clockReads nowTime u := by
  unfold Ucan.validate at h
  obtain ⟨b, hb⟩ := (C10_total E u nowTime w).1
  have hb' : u.isExpired E nowTime w = (.ok b, (u.isExpired E nowTime w).2) := by rw [← hb]
  obtain ⟨hp1, ht1, _⟩ := isExpired_false hb'
  rw [M.bind_of_ok hb'] at h
  cases b with
  | true => simp [err] at h
  | false =>
    simp only [Bool.false_eq_true, if_false] at h
    obtain ⟨c, hcc⟩ := (C10_total E u nowTime (u.isExpired E nowTime w).2).2
    have hc' : u.isTooEarly E (u.isExpired E nowTime w).2 = (.ok c, (u.isTooEarly E (u.isExpired E nowTime w).2).2) := by rw [← hcc]
    rw [M.bind_of_ok hc'] at h
    cases c with
    | true => simp [err] at h
    | false =>
      simp only [Bool.false_eq_true, if_false] at h
      rw [(checkSignature_world h).1, isTooEarly_eq]
      change _ = w.tick + expiryReads u nowTime at ht1
      have : expiryReads u nowTime = if nowTime = none ∧ u.payload.exp.isSome then 1 else 0 := rfl
      unfold clockReads
      rw [← this]
      cases u.payload.nbf <;> simp [ht1] <;> omega

theorem Chain.proofsLoop_tick (D : Deps) (E : Env) (nowTime : Option UInt64) (rec : String → M Chain) (u : Ucan)
    (hrec : ∀ t w c w', rec t w = (.ok c, w') → w'.tick = w.tick + accesses nowTime c) (ss : List String) :
    ∀ (w w' : World) (cs : List Chain), proofsLoop D E rec u ss w = (.ok cs, w') → w'.tick = w.tick + accessesAll nowTime cs := by
  induction ss with
  | nil => intro w w' cs h; cases h; simp [accessesAll]
  | cons s ss ih =>
    intro w w' cs h
    unfold proofsLoop at h
    obtain ⟨cid, w1, h1, h⟩ := M.bind_ok.1 h
    obtain ⟨tok, w2, h2, h⟩ := M.bind_ok.1 h
    obtain ⟨c, w3, h3, h⟩ := M.bind_ok.1 h
    obtain ⟨⟨⟩, w4, h4, h⟩ := M.bind_ok.1 h
    obtain ⟨cs', w5, h5, h⟩ := M.bind_ok.1 h
    cases h
    obtain ⟨_, rfl⟩ := Prod.mk.inj h1
    obtain ⟨_, rfl⟩ := Prod.mk.inj h4
    obtain ⟨_, _, hw2⟩ := requireToken_ok h2
    have e3 := hrec _ _ _ _ h3
    have e5 := ih _ _ _ h5
    rw [hw2] at e3
    simp only [accessesAll]
    simp only at e3
    omega

/-- C68: how often a successful construction reads the store and the clock, exactly. -/
theorem C68_accesses (D : Deps) (E : Env) (nowTime : Option UInt64) (fuel : Nat) : ∀ (t : String) (w : World) (c : Chain) (w' : World),
    ofToken D E nowTime fuel t w = (.ok c, w') → w'.tick = w.tick + accesses nowTime c := by
  induction fuel with
  | zero => intro t w c w' h; cases h
  | succ fuel ih =>
    intro t w c w' h
    unfold ofToken at h
    obtain ⟨u, w1, h1, h⟩ := M.bind_ok.1 h
    obtain ⟨_, rfl⟩ := Prod.mk.inj h1
    unfold fromUcanWith at h
    obtain ⟨⟨⟩, w2, h2, h⟩ := M.bind_ok.1 h
    obtain ⟨cs, w3, h3, h⟩ := M.bind_ok.1 h
    obtain ⟨redel, w4, h4, h⟩ := M.bind_ok.1 h
    cases h
    obtain ⟨_, rfl⟩ := Prod.mk.inj h4
    have e2 := validate_tick h2
    have e3 := proofsLoop_tick D E nowTime _ u ih _ _ _ _ h3
    simp only [accesses]
    omega

mutual
theorem Chain.accesses_bounds (nowTime : Option UInt64) : ∀ c : Chain, nodes c ≤ accesses nowTime c + 1 ∧ accesses nowTime c + 1 ≤ 3 * nodes c
  | .mk u ps r => by
    have := accessesAll_bounds nowTime ps
    have : clockReads nowTime u ≤ 2 := by
      unfold clockReads
      split <;> split <;> omega
    simp only [nodes, accesses]
    omega
theorem Chain.accessesAll_bounds (nowTime : Option UInt64) : ∀ cs : List Chain,
    nodesAll cs ≤ accessesAll nowTime cs ∧ accessesAll nowTime cs ≤ 3 * nodesAll cs
  | [] => by simp [nodesAll, accessesAll]
  | c :: cs => by
    have := accesses_bounds nowTime c
    have := accessesAll_bounds nowTime cs
    simp only [nodesAll, accessesAll]
    omega
end

/-- C68: it is proportional to the number of nodes of the tree. -/
theorem C68_nodes (D : Deps) (E : Env) (nowTime : Option UInt64) (fuel : Nat) (t : String) (w : World) (c : Chain) (w' : World)
    (h : ofToken D E nowTime fuel t w = (.ok c, w')) : w.tick + nodes c ≤ w'.tick + 1 ∧ w'.tick + 1 ≤ w.tick + 3 * nodes c := by
  have := C68_accesses D E nowTime fuel t w c w' h
  have := accesses_bounds nowTime c
  omega

theorem Chain.nodes_of_single : ∀ c : Chain, (∀ d, Sub d c → d.proofs.length ≤ 1) → nodes c = levels c := by
  intro c
  induction c using Chain.indAux with
  | h u ps r ih =>
    intro hs
    have h0 : ps.length ≤ 1 := hs _ (.self _)
    match ps, h0 with
    | [], _ => simp [nodes, nodesAll, levels, levelsAll]
    | [p], _ =>
      have := ih p (by simp) fun d hd => hs d (.proof (by simp [Chain.proofs]) hd)
      simp only [nodes, nodesAll, levels, levelsAll]
      omega

/-- C68 (partial): when every token cites at most one proof, the number of accesses is at most three times the number of tokens. The full claim, for
all proof lists, is refuted by `C68_exponential`. -/
theorem C68_single_proof_partial (D : Deps) (E : Env) (nowTime : Option UInt64) (fuel : Nat) (t : String) (w : World) (c : Chain) (w' : World)
    (h : ofToken D E nowTime fuel t w = (.ok c, w')) (hs : ∀ d, Sub d c → d.proofs.length ≤ 1) : w'.tick + 1 ≤ w.tick + 3 * levels c := by
  have := (C68_nodes D E nowTime fuel t w c w' h).2
  rw [nodes_of_single c hs] at this
  exact this

/-! A party hands a token on to themselves: token `k + 1` cites token `k` twice. -/

namespace Ex

/-- A CID for each number below 2^32. -/
def numCid (k : Nat) : Cid :=
  ⟨true, Cid.rawCodec, Cid.blake3, [UInt8.ofNat k, UInt8.ofNat (k / 256), UInt8.ofNat (k / 65536), UInt8.ofNat (k / 16777216)]⟩

theorem numCid_inj {j k : Nat} (hj : j < 2 ^ 32) (hk : k < 2 ^ 32) (h : numCid j = numCid k) : j = k := by
  simp only [numCid, Cid.mk.injEq, List.cons.injEq, true_and, and_true] at h
  obtain ⟨h1, h2, h3, h4⟩ := h
  have h1 := congrArg UInt8.toNat h1
  have h2 := congrArg UInt8.toNat h2
  have h3 := congrArg UInt8.toNat h3
  have h4 := congrArg UInt8.toNat h4
  simp only [UInt8.toNat_ofNat'] at h1 h2 h3 h4
  omega

def twice (D : Deps) : Nat → Ucan
  | 0 => ucan D 1 (did 1) (some 20) (some 5) none (caps "mailto:a@b" "msg/send")
  | k + 1 => ucan D 1 (did 1) (some 20) (some 5) (some [(numCid k).toStr, (numCid k).toStr]) (caps "mailto:a@b" "msg/send")

theorem twice_parses (D : Deps) : ∀ k, Ucan.fromStr D ((twice D k).encode D) = .ok (twice D k)
  | 0 => parses D 1 _ _ _ _ _ _
  | _ + 1 => parses D 1 _ _ _ _ _ _

theorem twice_valid (D : Deps) : ∀ k, ValidAt none exCtors 7 (twice D k)
  | 0 => valid D 1 _ 20 5 _ _ 7 (by decide) (by decide)
  | _ + 1 => valid D 1 _ 20 5 _ _ 7 (by decide) (by decide)

theorem twice_iss (D : Deps) : ∀ k, (twice D k).payload.iss = did 1
  | 0 => rfl
  | _ + 1 => rfl
theorem twice_bounds (D : Deps) : ∀ k, (twice D k).payload.aud = did 1 ∧ (twice D k).payload.nbf = some 5 ∧ (twice D k).payload.exp = some 20 ∧
    (twice D k).payload.cap = caps "mailto:a@b" "msg/send"
  | 0 => ⟨rfl, rfl, rfl, rfl⟩
  | _ + 1 => ⟨rfl, rfl, rfl, rfl⟩

/-- The store holds the first `n` tokens. -/
def twiceDags (D : Deps) (n : Nat) : Store.Dags := fun c =>
  ((List.range n).find? fun k => decide (c = numCid k)).map fun k => strBytes ((twice D k).encode D)

theorem twiceDags_get (D : Deps) {n k : Nat} (hn : n ≤ 2 ^ 32) (hk : k < n) : twiceDags D n (numCid k) = some (strBytes ((twice D k).encode D)) := by
  unfold twiceDags
  have : (List.range n).find? (fun j => decide (numCid k = numCid j)) = some k := by
    rw [List.find?_range_eq_some]
    refine ⟨decide_eq_true rfl, List.mem_range.2 hk, fun j hj => ?_⟩
    have : numCid k ≠ numCid j := fun h => by
      have := numCid_inj (by omega) (by omega) h
      omega
    simp [this]
  rw [this]
  rfl

def twiceChain (D : Deps) : Nat → Chain
  | 0 => .mk (twice D 0) [] []
  | k + 1 => .mk (twice D (k + 1)) [twiceChain D k, twiceChain D k] []

theorem twiceChain_ucan (D : Deps) : ∀ k, (twiceChain D k).ucan = twice D k
  | 0 => rfl
  | _ + 1 => rfl

theorem twice_redel (D : Deps) (k n : Nat) : RedelOk D (twice D k) n [] := by
  refine ⟨by simp [BSet.Sorted], fun i => ⟨(fun h => by cases h), ?_⟩, by simp⟩
  rintro ⟨c, hc, hr⟩
  rw [(twice_bounds D k).2.2.2] at hc
  exact absurd ⟨c, hc, hr⟩ (leaf_no_redel D i)

theorem twiceChain_sound (D : Deps) (n : Nat) (hn : n ≤ 2 ^ 32) : ∀ k, k ≤ n → Sound D (ValidAt none exCtors 7) (Holds (still (twiceDags D n) 7)) (twiceChain D k)
  | 0, _ => by
    simp only [twiceChain, Sound, SoundAll]
    exact ⟨twice_valid D 0, rfl, twice_redel D 0 _⟩
  | k + 1, hk => by
    have ih := twiceChain_sound D n hn k (by omega)
    have hr : Resolves D (Holds (still (twiceDags D n) 7)) (numCid k).toStr (twiceChain D k).ucan := by
      rw [twiceChain_ucan]
      exact ⟨numCid k, _, Cid.parse_toStr D _ rfl (by simp [numCid]), rfl, memRead_bytes.2 (twiceDags_get D hn (by omega)), twice_parses D k⟩
    have hd : Delegates (twiceChain D k).ucan (twice D (k + 1)) := by
      rw [twiceChain_ucan]
      obtain ⟨h1, h2, h3, _⟩ := twice_bounds D k
      obtain ⟨_, h5, h6, _⟩ := twice_bounds D (k + 1)
      refine ⟨h1.trans (twice_iss D (k + 1)).symm, fun m hm => ⟨5, h5, ?_⟩, fun e he => ⟨20, h6, ?_⟩⟩
      · rw [h2] at hm; cases hm; decide
      · rw [h3] at he; cases he; decide
    simp only [twiceChain, Sound, SoundAll]
    exact ⟨twice_valid D (k + 1), ⟨_, _, rfl, hr, hd, ih, _, [], rfl, hr, hd, ih, rfl⟩, twice_redel D (k + 1) _⟩

theorem twiceChain_nodes (D : Deps) : ∀ k, nodes (twiceChain D k) + 1 = 2 ^ (k + 1)
  | 0 => by simp [twiceChain, nodes, nodesAll]
  | k + 1 => by
    have := twiceChain_nodes D k
    simp only [twiceChain, nodes, nodesAll, Nat.pow_succ] at *
    omega

end Ex

/-- C68 is violated: with `n` tokens in the store, validating one more token can take `2^(n+1) - 2` accesses and more. -/
theorem C68_exponential (D : Deps) (n : Nat) (hn : n ≤ 2 ^ 32) : ∃ (E : Env) (tokens : List Bytes) (token : String) (w w' : World) (c : Chain) (fuel : Nat),
    tokens.length = n ∧ (∀ i cid b, E.read i cid = .ok (some (.bytes b)) → b ∈ tokens) ∧
    ofToken D E none fuel token w = (.ok c, w') ∧ w.tick + 2 ^ (n + 1) ≤ w'.tick + 2 := by
  have h := C24_depth D (still (Ex.twiceDags D n) 7) none 7 (fun _ => rfl) (fun _ _ _ => rfl) ((Ex.twice D n).encode D) Ex.world Ex.world_coherent
    (Ex.twiceChain D n) (by rw [Ex.twiceChain_ucan]; exact Ex.twice_parses D n) (Ex.twiceChain_sound D n hn n (Nat.le_refl _)) _ (Nat.le_refl _)
  have h' : ∃ w', ofToken D (still (Ex.twiceDags D n) 7) none (levels (Ex.twiceChain D n)) ((Ex.twice D n).encode D) Ex.world = (.ok (Ex.twiceChain D n), w') :=
    ⟨_, by rw [← h]⟩
  obtain ⟨w', h'⟩ := h'
  refine ⟨_, (List.range n).map fun k => strBytes ((Ex.twice D k).encode D), _, _, w', _, _, by simp, ?_, h', ?_⟩
  · intro i cid b hb
    have := memRead_bytes.1 hb
    unfold Ex.twiceDags at this
    obtain ⟨k, hk, rfl⟩ := Option.map_eq_some_iff.1 this
    exact List.mem_map.2 ⟨k, List.mem_of_find?_eq_some hk, rfl⟩
  · have h1 := (C68_nodes D _ none _ _ _ _ _ h').1
    have h2 := Ex.twiceChain_nodes D n
    omega

end Verif
