import Verif.Spec.DidKey
import Verif.Props.Encoding
import Verif.Props.CidText
import Verif.Props.WebKey

/-! # The `did:key` method (C77) -/

namespace Verif
open Spec KeySupport

/-- The library's constant for a key type. -/
def magicOf : KeyType → Bytes
  | .ed25519 => Did.ed25519Magic
  | .rsa => Did.rsaMagic
  | .bls12381g1 => Did.bls12381g1Magic
  | .bls12381g2 => Did.bls12381g2Magic
  | .p256 => Did.p256Magic
  | .secp256k1 => Did.secp256k1Magic

theorem leb_two {a b : UInt8} (ha : 128 ≤ a.toNat) (hb : b.toNat < 128) (h0 : b ≠ 0) : Leb128 [a, b] (a.toNat - 128 + 128 * b.toNat) :=
  ⟨.more ha (.last hb), Or.inr (by simpa using h0)⟩

/-- C77: the constants are the multicodec codes of their key types. -/
theorem C77_codes (k : KeyType) : Leb128 (magicOf k) k.code := by
  cases k <;> exact leb_two (by decide) (by decide) (by decide)

theorem leb_unique {p q : Bytes} {n m : Nat} (hp : Leb p n) : Leb q m → p.length = q.length → n = m → p = q := by
  induction hp generalizing q m with
  | @last b hb =>
    intro hq hl hn
    cases hq with
    | @last c hc => rw [UInt8.toNat_inj.1 hn]
    | more _ h => cases h <;> simp at hl
  | @more b t v hb h ih =>
    intro hq hl hn
    cases hq with
    | last => cases h <;> simp at hl
    | @more c t' v' hc h' =>
      have hbl := b.toNat_lt
      have hcl := c.toNat_lt
      have e1 : b.toNat = c.toNat := by omega
      have e2 : v = v' := by omega
      rw [UInt8.toNat_inj.1 e1, ih h' (by simpa using hl) e2]

theorem leb128_length {p : Bytes} {n : Nat} (h : Leb128 p n) (hn : 128 ≤ n) (hn' : n < 128 * 128) : p.length = 2 := by
  obtain ⟨hl, hc⟩ := h
  cases hl with
  | last hb => omega
  | @more b t v hb ht =>
    cases ht with
    | last => rfl
    | @more c t' v' hc' ht' =>
      exfalso
      have hbl := b.toNat_lt
      have hcl := c.toNat_lt
      have hv : v' = 0 := by omega
      have : ∀ {p : Bytes} {n : Nat}, Leb p n → n = 0 → p.getLast? = some 0 := by
        intro p n hp
        induction hp with
        | @last b _ =>
          intro h0
          have : b = 0 := UInt8.toNat_inj.1 (by simpa using h0)
          rw [this]; rfl
        | @more b t v hb h ih =>
          intro h0
          have := ih (by omega)
          cases t with
          | nil => cases h
          | cons x t => rw [List.getLast?_cons_cons]; exact this
      have hlast := this ht' hv
      rcases hc with hc | hc
      · simp at hc
      · cases t' with
        | nil => cases ht'
        | cons x t' =>
          rw [List.getLast?_cons_cons, List.getLast?_cons_cons] at hc
          exact hc hlast

theorem leb128_code {p : Bytes} {k : KeyType} (h : Leb128 p k.code) : p = magicOf k := by
  refine leb_unique h.1 (C77_codes k).1 ?_ rfl
  rw [leb128_length h (by cases k <;> decide) (by cases k <;> decide)]
  cases k <;> rfl

theorem didKey_iff (k : KeyType) (b : Bytes) (did : String) : DidKey k.code b did ↔ did = didOf (magicOf k ++ b) := by
  have hs : strBytes "did:key:" ++ strBytes "z" = strBytes "did:key:z" := by decide +kernel
  constructor
  · rintro ⟨c, t, hc, ht, hd⟩
    rw [leb128_code hc] at ht
    rw [hs] at hd
    apply strBytes_inj
    rw [hd, strBytes_didOf, (C69_base58_encode _ _).2 ht]
  · rintro rfl
    exact ⟨_, _, C77_codes k, (C69_base58_encode _ _).1 rfl, by rw [hs, strBytes_didOf]⟩

/-- C77: the DIDs and algorithm names of the three kinds of keys. -/
theorem C77_did (sc : SigScheme) (pub : sc.Pub) (priv : Option sc.Priv) (b : Bytes) (he : Exports sc pub b) (did : String) :
    ((ed25519Key sc pub priv).did = .ok did ↔ DidKey 0xed b did) ∧ (ed25519Key sc pub priv).alg = "EdDSA" ∧
    ((p256Key sc pub priv).did = .ok did ↔ DidKey 0x1200 b did) ∧ (p256Key sc pub priv).alg = "ES256" ∧
    ((rsaKey sc pub priv).did = .ok did ↔ DidKey 0x1205 b did) ∧ (rsaKey sc pub priv).alg = "RS256" := by
  have key : ∀ (x : String), ((Except.ok x : Res String) = .ok did) ↔ did = x := by
    intro x
    constructor
    · intro h; injection h with h; exact h.symm
    · rintro rfl; rfl
  refine ⟨?_, rfl, ?_, rfl, ?_, rfl⟩
  · rw [show DidKey 0xed b did ↔ _ from didKey_iff .ed25519 b did]
    unfold ed25519Key curveKey
    rw [he.writes]
    exact key _
  · rw [show DidKey 0x1200 b did ↔ _ from didKey_iff .p256 b did]
    unfold p256Key curveKey
    rw [he.writes]
    exact key _
  · rw [show DidKey 0x1205 b did ↔ _ from didKey_iff .rsa b did]
    unfold rsaKey
    rw [he.writes]
    exact key _

/-- C77: the parser gives the bytes after the code to the constructor for that code, and answers what that answers. -/
theorem C77_parse (ctors : BMap Bytes KeyCtor) (p : DidParser) (hp : Reachable ctors p) (k : KeyType) (ctor : KeyCtor)
    (hreg : BMap.get? ctors (magicOf k) = some ctor) (pub : Bytes) (did : String) (h : DidKey k.code pub did) : (p.parse did).1 = ctor pub := by
  rw [C38_cache_transparent ctors p hp, (didKey_iff k pub did).1 h]
  obtain ⟨a, b, hm⟩ : ∃ a b, magicOf k = [a, b] := by cases k <;> exact ⟨_, _, rfl⟩
  have hpre : Did.didKeyPrefix = strBytes "did:key:z" := by decide +kernel
  unfold DidParser.parse
  rw [strBytes_didOf, if_pos (by rw [← hpre]; exact DidParser.isPrefixOf_iff.2 ⟨_, rfl⟩)]
  simp only [BMap.get?]
  have : DidParser.resolve ctors (didOf (magicOf k ++ pub)) = ctor pub := by
    unfold DidParser.resolve
    rw [strBytes_didOf, ← hpre, List.drop_left, C40_decode_encode, hm]
    simp only [List.cons_append, List.nil_append]
    rw [← hm, hreg]
  rw [this]
  cases ctor pub <;> rfl

/-- C77: a DID names one type and one public key. -/
theorem C77_unique (k k' : KeyType) (b b' : Bytes) (did : String) (h : DidKey k.code b did) (h' : DidKey k'.code b' did) : k = k' ∧ b = b' := by
  have e : didOf (magicOf k ++ b) = didOf (magicOf k' ++ b') := by rw [← (didKey_iff k b did).1 h, ← (didKey_iff k' b' did).1 h']
  have hm : ∀ k, magicOf k ∈ [Did.ed25519Magic, Did.rsaMagic, Did.bls12381g1Magic, Did.bls12381g2Magic, Did.p256Magic, Did.secp256k1Magic] := by
    intro k; cases k <;> simp [magicOf]
  obtain ⟨h1, h2⟩ := C41_types_differ _ _ b b' (hm k) (hm k') e
  refine ⟨?_, h2⟩
  have hk := C77_codes k
  rw [h1] at hk
  revert h1
  cases k <;> cases k' <;> first | (intro _; rfl) | (intro h1; exact absurd h1 (by decide))

/-! ## What the DIDs look like -/

theorem numeral_lt (r : Nat) (hr : 0 < r) : ∀ ds : List Nat, (∀ d ∈ ds, d < r) → numeral r ds < r ^ ds.length
  | [], _ => by simp [numeral]
  | d :: ds, h => by
    have ih := numeral_lt r hr ds (fun x hx => h x (by simp [hx]))
    have hd := h d (by simp)
    rw [numeral, List.length_cons, Nat.pow_succ, Nat.mul_comm _ r]
    have : (d + 1) * r ^ ds.length ≤ r * r ^ ds.length := Nat.mul_le_mul_right _ hd
    rw [Nat.add_mul] at this
    omega

theorem numeral_ge (r : Nat) (d : Nat) (ds : List Nat) (h0 : d ≠ 0) : r ^ ds.length ≤ numeral r (d :: ds) := by
  rw [numeral]
  have : 1 * r ^ ds.length ≤ d * r ^ ds.length := Nat.mul_le_mul_right _ (by omega)
  omega

/-- A base58 text whose number lies between two powers of the radix has that many digits. -/
theorem base58_digits {b t : Bytes} (h : Base58Text b t) (hb : b.head? ≠ some 0) (n : Nat)
    (hlo : 58 ^ n ≤ numeral 256 (b.map UInt8.toNat)) (hhi : numeral 256 (b.map UInt8.toNat) < 58 ^ (n + 1)) :
    ∃ ds : List Nat, ds.length = n + 1 ∧ (∀ d ∈ ds, d < 58) ∧ numeral 58 ds = numeral 256 (b.map UInt8.toNat) ∧
      t.map some = ds.map ((strBytes base58btc)[·]?) := by
  obtain ⟨z, rest, ds, h1, h2, h3, h4, h5, h6⟩ := h
  have hz : z = 0 := by
    cases z with
    | zero => rfl
    | succ z => rw [h1] at hb; simp [List.replicate] at hb
  subst hz
  simp only [List.replicate_zero, List.nil_append] at h1 h3
  subst h1
  refine ⟨ds, ?_, h5, h6, h3⟩
  cases ds with
  | nil =>
    rw [numeral] at h6
    have : 0 < 58 ^ n := Nat.pow_pos (by decide)
    omega
  | cons d ds =>
    have hd : d ≠ 0 := by simpa using h4
    have hge := numeral_ge 58 d ds hd
    have hlt := numeral_lt 58 (by decide) _ h5
    rw [h6] at hge hlt
    have a1 : 58 ^ ds.length < 58 ^ (n + 1) := by omega
    have a2 : 58 ^ n < 58 ^ (ds.length + 1) := by
      rw [List.length_cons] at hlt; omega
    have b1 := (Nat.pow_lt_pow_iff_right (by decide : 1 < 58)).1 a1
    have b2 := (Nat.pow_lt_pow_iff_right (by decide : 1 < 58)).1 a2
    simp only [List.length_cons]
    omega

theorem bytes_lt (b : Bytes) : numeral 256 (b.map UInt8.toNat) < 256 ^ b.length := by
  have := numeral_lt 256 (by decide) (b.map UInt8.toNat) (by
    intro d hd
    obtain ⟨x, _, rfl⟩ := List.mem_map.1 hd
    exact x.toNat_lt)
  simpa using this

theorem leading3 {ds : List Nat} {n N c0 c1 c2 : Nat} (hl : ds.length = n + 3) (hd : ∀ d ∈ ds, d < 58) (hN : numeral 58 ds = N)
    (hc1 : c1 < 58) (hc2 : c2 < 58) (hlo : (c0 * 58 * 58 + c1 * 58 + c2) * 58 ^ n ≤ N) (hhi : N < (c0 * 58 * 58 + c1 * 58 + c2 + 1) * 58 ^ n) :
    ∃ rest, ds = c0 :: c1 :: c2 :: rest ∧ rest.length = n := by
  obtain ⟨d0, d1, d2, rest, rfl⟩ : ∃ d0 d1 d2 rest, ds = d0 :: d1 :: d2 :: rest := by
    match ds, hl with
    | [], h => simp at h
    | [_], h => simp at h
    | [_, _], h => simp at h
    | d0 :: d1 :: d2 :: rest, _ => exact ⟨d0, d1, d2, rest, rfl⟩
  have hr : rest.length = n := by simpa using hl
  have hlt := numeral_lt 58 (by decide) rest (fun x hx => hd x (by simp [hx]))
  have h0 := hd d0 (by simp)
  have h1 := hd d1 (by simp)
  have h2 := hd d2 (by simp)
  have e : N = (d0 * 58 * 58 + d1 * 58 + d2) * 58 ^ n + numeral 58 rest := by
    rw [← hN]
    simp only [numeral, List.length_cons, Nat.pow_succ, hr, Nat.add_mul]
    have q1 : d0 * (58 ^ n * 58 * 58) = d0 * 58 * 58 * 58 ^ n := by
      rw [Nat.mul_comm (58 ^ n * 58), ← Nat.mul_assoc, Nat.mul_comm (58 ^ n), ← Nat.mul_assoc]
    have q2 : d1 * (58 ^ n * 58) = d1 * 58 * 58 ^ n := by
      rw [Nat.mul_comm (58 ^ n), ← Nat.mul_assoc]
    rw [q1, q2]
    omega
  rw [hr] at hlt
  have hdiv : N / 58 ^ n = d0 * 58 * 58 + d1 * 58 + d2 := by
    rw [e, Nat.mul_comm, Nat.mul_add_div (Nat.pow_pos (by decide)), Nat.div_eq_of_lt hlt, Nat.add_zero]
  have hdiv' : N / 58 ^ n = c0 * 58 * 58 + c1 * 58 + c2 := by
    apply Nat.div_eq_of_lt_le
    · rw [Nat.mul_comm]; rw [Nat.mul_comm] at hlo; exact (Nat.mul_comm _ _) ▸ hlo
    · exact hhi
  have := hdiv.symm.trans hdiv'
  have e0 : d0 = c0 := by omega
  have e1 : d1 = c1 := by omega
  have e2 : d2 = c2 := by omega
  subst e0 e1 e2
  exact ⟨rest, rfl, hr⟩

theorem text3 {t : Bytes} {rest : List Nat} {c0 c1 c2 : Nat} {x y z : UInt8} (h : t.map some = (c0 :: c1 :: c2 :: rest).map ((strBytes base58btc)[·]?))
    (hx : (strBytes base58btc)[c0]? = some x) (hy : (strBytes base58btc)[c1]? = some y) (hz : (strBytes base58btc)[c2]? = some z) :
    ∃ t', t = x :: y :: z :: t' ∧ t'.length = rest.length := by
  match t, h with
  | [], h => simp at h
  | [_], h => simp at h
  | [_, _], h => simp at h
  | x' :: y' :: z' :: t, h =>
    simp only [List.map_cons, List.cons.injEq, hx, hy, hz, Option.some.injEq] at h
    obtain ⟨rfl, rfl, rfl, ht⟩ := h
    exact ⟨t, rfl, by simpa using congrArg List.length ht⟩

/-- C77: the DID of every Ed25519 key has 56 characters and begins with `did:key:z6Mk`. -/
theorem C77_z6Mk (sc : SigScheme) (pub : sc.Pub) (priv : Option sc.Priv) (b : Bytes) (he : Exports sc pub b) (hb : b.length = 32) :
    ∃ did t, (ed25519Key sc pub priv).did = .ok did ∧ strBytes did = strBytes "did:key:z6Mk" ++ t ∧ t.length = 44 := by
  have hd : (ed25519Key sc pub priv).did = .ok (didOf (Did.ed25519Magic ++ b)) := by unfold ed25519Key curveKey; rw [he.writes]; rfl
  have ht := (C69_base58_encode (Did.ed25519Magic ++ b) _).1 rfl
  have hlt := bytes_lt b
  rw [hb] at hlt
  have hN : numeral 256 ((Did.ed25519Magic ++ b).map UInt8.toNat) = 0xed * 256 ^ 33 + (0x01 * 256 ^ 32 + numeral 256 (b.map UInt8.toNat)) := by
    show numeral 256 (0xed :: 0x01 :: b.map UInt8.toNat) = _
    simp only [numeral, List.length_cons, List.length_map, hb]
  generalize numeral 256 (b.map UInt8.toNat) = r at hN hlt
  obtain ⟨ds, h1, h2, h3, h4⟩ := base58_digits ht (by simp [Did.ed25519Magic]) 46 (by rw [hN]; omega) (by rw [hN]; omega)
  obtain ⟨rest, rfl, hr⟩ := leading3 (n := 44) (c0 := 5) (c1 := 20) (c2 := 43) h1 h2 (h3.trans hN) (by decide) (by decide) (by omega) (by omega)
  obtain ⟨t', e, hl⟩ := text3 h4 (x := 54) (y := 77) (z := 107) (by decide +kernel) (by decide +kernel) (by decide +kernel)
  refine ⟨_, t', hd, ?_, hl.trans hr⟩
  have hs : strBytes "did:key:z6Mk" = strBytes "did:key:z" ++ [54, 77, 107] := by decide +kernel
  rw [strBytes_didOf, e, hs, List.append_assoc]
  rfl

/-- C77: the DID of every P-256 key, whose public part is a compressed point, has 57 characters and begins with `did:key:zDna`. -/
theorem C77_zDna (sc : SigScheme) (pub : sc.Pub) (priv : Option sc.Priv) (sign : UInt8) (x : Bytes) (he : Exports sc pub (sign :: x))
    (hs : sign = 2 ∨ sign = 3) (hx : x.length = 32) :
    ∃ did t, (p256Key sc pub priv).did = .ok did ∧ strBytes did = strBytes "did:key:zDna" ++ t ∧ t.length = 45 := by
  have hd : (p256Key sc pub priv).did = .ok (didOf (Did.p256Magic ++ sign :: x)) := by unfold p256Key curveKey; rw [he.writes]; rfl
  have ht := (C69_base58_encode (Did.p256Magic ++ sign :: x) _).1 rfl
  have hlt := bytes_lt x
  rw [hx] at hlt
  have hsn : sign.toNat = 2 ∨ sign.toNat = 3 := by rcases hs with rfl | rfl <;> simp
  have hN : numeral 256 ((Did.p256Magic ++ sign :: x).map UInt8.toNat) =
      0x80 * 256 ^ 34 + (0x24 * 256 ^ 33 + (sign.toNat * 256 ^ 32 + numeral 256 (x.map UInt8.toNat))) := by
    show numeral 256 (0x80 :: 0x24 :: sign.toNat :: x.map UInt8.toNat) = _
    simp only [numeral, List.length_cons, List.length_map, hx]
  generalize numeral 256 (x.map UInt8.toNat) = r at hN hlt
  generalize sign.toNat = s at hN hsn
  obtain ⟨ds, h1, h2, h3, h4⟩ := base58_digits ht (by simp [Did.p256Magic]) 47 (by rw [hN]; omega) (by rw [hN]; omega)
  obtain ⟨rest, rfl, hr⟩ := leading3 (n := 45) (c0 := 12) (c1 := 45) (c2 := 33) h1 h2 (h3.trans hN) (by decide) (by decide) (by omega) (by omega)
  obtain ⟨t', e, hl⟩ := text3 h4 (x := 68) (y := 110) (z := 97) (by decide +kernel) (by decide +kernel) (by decide +kernel)
  refine ⟨_, t', hd, ?_, hl.trans hr⟩
  have hs : strBytes "did:key:zDna" = strBytes "did:key:z" ++ [68, 110, 97] := by decide +kernel
  rw [strBytes_didOf, e, hs, List.append_assoc]
  rfl

/-! ## Instances -/

namespace Ex77

/-- A scheme whose public keys are byte strings. -/
def bytesScheme : SigScheme where
  Pub := Bytes
  Priv := Unit
  pubBytes := some
  pubOfBytes := some
  sign _ m := some m
  verify _ m s := decide (m = s)

/-- The key of `tests/crypto.rs` 17-18. -/
def pub : Bytes := [30, 255, 128, 85, 16, 246, 89, 72, 212, 20, 235, 18, 53, 187, 38, 174, 159, 95, 162, 75, 176, 173, 73, 227, 5, 202, 253, 217, 253, 36, 199, 14]

/-- Beside C77: the vector of `tests/crypto.rs`. -/
example : (ed25519Key bytesScheme pub none).did = .ok "did:key:z6MkgYGF3thn8k1Fv4p4dWXKtsXCnLH7q9yw4QgNPULDmDKB" := by decide +kernel

example : DidKey 0xed pub "did:key:z6MkgYGF3thn8k1Fv4p4dWXKtsXCnLH7q9yw4QgNPULDmDKB" :=
  (C77_did bytesScheme pub none pub ⟨rfl, rfl⟩ _).1.1 (by decide +kernel)

example : ∃ did t, (ed25519Key bytesScheme pub none).did = .ok did ∧ strBytes did = strBytes "did:key:z6Mk" ++ t ∧ t.length = 44 :=
  C77_z6Mk bytesScheme pub none pub ⟨rfl, rfl⟩ rfl

example : ∃ did t, (p256Key bytesScheme (2 :: pub : Bytes) none).did = .ok did ∧ strBytes did = strBytes "did:key:zDna" ++ t ∧ t.length = 45 :=
  C77_zDna bytesScheme (2 :: pub : Bytes) none 2 pub ⟨rfl, rfl⟩ (Or.inl rfl) rfl

/-- Beside `C77_parse`: a parser for two key types, after any calls. -/
example (did : String) (h : DidKey 0xed pub did) : (DidParser.parse ⟨toyCtors, []⟩ did).1 = ed25519Ctor toyScheme pub :=
  C77_parse toyCtors _ .fresh .ed25519 _ rfl pub did h

end Ex77
end Verif
