import Verif.Spec.Der
import Verif.Props.Crypto

/-! # WebCrypto keys (C76) -/

namespace Verif
open Spec KeySupport

/-! ## Lengths -/

theorem derNumber_from (ds : Bytes) : ∀ a, ds.foldl (fun a d => a * 256 + d.toNat) a = a * 256 ^ ds.length + derNumber ds := by
  induction ds with
  | nil => intro a; simp [derNumber]
  | cons d ds ih =>
    intro a
    unfold derNumber
    simp only [List.foldl_cons, List.length_cons]
    rw [ih, ih, Nat.pow_succ]
    simp only [Nat.add_mul, Nat.mul_assoc, Nat.mul_comm (256 ^ ds.length)]
    omega

theorem derNumber_cons (d : UInt8) (ds : Bytes) : derNumber (d :: ds) = d.toNat * 256 ^ ds.length + derNumber ds := by
  have := derNumber_from ds d.toNat
  rw [← this, derNumber]
  simp

theorem derNumber_lt (ds : Bytes) : derNumber ds < 256 ^ ds.length := by
  induction ds with
  | nil => simp [derNumber]
  | cons d ds ih =>
    rw [derNumber_cons, List.length_cons, Nat.pow_succ]
    have h1 := d.toNat_lt
    have h2 : d.toNat * 256 ^ ds.length ≤ 255 * 256 ^ ds.length := Nat.mul_le_mul_right _ (by omega)
    omega

theorem derNumber_ge (d : UInt8) (ds : Bytes) (k : Nat) (h : k ≤ d.toNat) : k * 256 ^ ds.length ≤ derNumber (d :: ds) := by
  rw [derNumber_cons]
  have := Nat.mul_le_mul_right (256 ^ ds.length) h
  omega

/-- How many length octets there are. -/
theorem Spec.LengthText.octets {n : Nat} {l : Bytes} (h : LengthText n l) :
    (n < 128 ∧ l.length = 1) ∨ (128 ≤ n ∧ n < 256 ∧ l.length = 2) ∨ (256 ≤ n ∧ n < 65536 ∧ l.length = 3) ∨ (65536 ≤ n ∧ 4 ≤ l.length) := by
  cases h with
  | short h => exact .inl ⟨h, rfl⟩
  | long h1 h2 h3 =>
    rename_i d ds
    have hd : 1 ≤ d.toNat := by
      have : d.toNat ≠ 0 := fun e => h2 (UInt8.toNat_inj.1 e)
      omega
    have h4 := derNumber_ge d ds 1 hd
    have h5 := derNumber_lt (d :: ds)
    rw [List.length_cons] at h5
    simp only [List.length_cons]
    by_cases e0 : ds.length = 0
    · rw [e0] at h5 ⊢; right; left; simp at h5 ⊢; omega
    · by_cases e1 : ds.length = 1
      · rw [e1] at h4 h5 ⊢; right; right; left; simp at h4 h5 ⊢; omega
      · right; right; right
        have : 256 ^ 2 ≤ 256 ^ ds.length := Nat.pow_le_pow_right (by omega) (by omega)
        simp at h4 this
        omega

theorem Spec.Tlv.length {tag : UInt8} {body t : Bytes} (h : Tlv tag body t) :
    (body.length < 128 ∧ t.length = body.length + 2) ∨ (128 ≤ body.length ∧ body.length < 256 ∧ t.length = body.length + 3) ∨
      (256 ≤ body.length ∧ body.length < 65536 ∧ t.length = body.length + 4) ∨ (65536 ≤ body.length ∧ body.length + 5 ≤ t.length) := by
  obtain ⟨l, hl, rfl⟩ := h
  have := hl.octets
  simp only [List.length_cons, List.length_append]
  omega

/-- The bytes before the key in a `SubjectPublicKeyInfo`. -/
theorem spki_head {b s : Bytes} (h : Spki b s) : ∃ p, s = p ++ b ∧
    (p.length = 24 ↔ 255 ≤ b.length ∧ b.length ≤ 65515) ∧ (b.length < 255 → p.length < 24) ∧ (128 ≤ b.length → 22 ≤ p.length) := by
  obtain ⟨bits, ⟨l1, h1, rfl⟩, ⟨l2, h2, rfl⟩⟩ := h
  refine ⟨48 :: (l2 ++ (rsaIdentifier ++ 3 :: (l1 ++ [0]))), by simp, ?_⟩
  have e1 := h1.octets
  have e2 := h2.octets
  simp only [List.length_append, List.length_cons, List.length_nil, rsaIdentifier] at e1 e2 ⊢
  omega

/-! ## The conversion -/

/-- C76: cutting off 24 bytes leaves the key exactly for keys of 255 to 65515 bytes. -/
theorem C76_conversion_iff (b s : Bytes) (h : Spki b s) : convertSpki s = .ok b ↔ 255 ≤ b.length ∧ b.length ≤ 65515 := by
  obtain ⟨p, rfl, hp, _, _⟩ := spki_head h
  rw [← hp]
  unfold convertSpki
  constructor
  · intro h
    split at h
    · cases h
    · rename_i hl
      injection h with h
      have := congrArg List.length h
      simp only [List.length_drop, List.length_append] at this hl
      omega
  · intro h
    rw [if_neg (by simp only [List.length_append]; omega), ← h, List.drop_left]

/-- C76: the conversion panics exactly on less than 24 bytes. -/
theorem C76_conversion_panics (s : Bytes) : convertSpki s = panicked .sliceSpki ↔ s.length < 24 := by
  unfold convertSpki
  split
  · exact ⟨fun _ => ‹_›, fun _ => rfl⟩
  · exact ⟨fun h => by (cases h), fun h => absurd h ‹_›⟩

theorem Spec.DerNatural.length {n : Nat} {c : Bytes} (h : DerNatural n c) (m : Nat) (hb : Bits n m) : c.length = m / 8 + 1 := by
  obtain ⟨rfl, d, ds, rfl, h1, h2⟩ := h
  obtain ⟨b1, b2, b3⟩ := hb
  have hd : d.toNat < 128 := h1
  have up : derNumber (d :: ds) < 2 ^ (7 + 8 * ds.length) := by
    rw [derNumber_cons, Nat.pow_add, Nat.pow_mul]
    have := derNumber_lt ds
    have h3 : d.toNat * 256 ^ ds.length ≤ 127 * 256 ^ ds.length := Nat.mul_le_mul_right _ (by omega)
    show _ < 128 * 256 ^ ds.length
    omega
  have h3 : m - 1 < 7 + 8 * ds.length := by
    refine (Nat.pow_lt_pow_iff_right (a := 2) (by omega)).1 ?_
    omega
  have h4 : 8 * ds.length ≤ m := by
    cases ds with
    | nil => exact Nat.zero_le _
    | cons d' ds' =>
      have lo : 2 ^ (7 + 8 * ds'.length) ≤ derNumber (d :: d' :: ds') := by
        rw [Nat.pow_add, Nat.pow_mul]
        show 128 * 256 ^ ds'.length ≤ _
        by_cases e : d = 0
        · have h5 : 128 ≤ d'.toNat := h2 e d' ds' rfl
          have := derNumber_ge d' ds' 128 h5
          rw [derNumber_cons]
          omega
        · have : d.toNat ≠ 0 := fun h => e (UInt8.toNat_inj.1 h)
          have := derNumber_ge d (d' :: ds') 1 (by omega)
          rw [List.length_cons, Nat.pow_succ] at this
          omega
      have : 7 + 8 * ds'.length < m := (Nat.pow_lt_pow_iff_right (a := 2) (by omega)).1 (by omega)
      simp only [List.length_cons]
      omega
  simp only [List.length_cons]
  omega

/-- C76: in terms of the size of the key, with the usual exponent 65537 (the one the library asks for). -/
theorem C76_sizes (n m : Nat) (hm : Bits n m) (b s : Bytes) (hb : Pkcs1 n 65537 b) (hs : Spki b s) :
    convertSpki s = .ok b ↔ 1944 ≤ m ∧ m < 524016 := by
  rw [C76_conversion_iff b s hs]
  obtain ⟨nc, ec, ni, ei, h1, h2, h3, h4, h5⟩ := hb
  have l1 := h1.length m hm
  have l2 := h2.length 17 ⟨by decide, by decide, by decide⟩
  have l3 := h3.length
  have l4 := h4.length
  have l5 := h5.length
  rw [List.length_append] at l5
  omega

/-! ## The DID -/

/-- The environment holds the key pair of `pub`: it exports the public key in the standard form, and its signatures verify. -/
structure Serves (sc : SigScheme) (js : WebCrypto) (pub : sc.Pub) (b : Bytes) : Prop where
  subtle : js.subtle = .ok ()
  exported : ∃ s, js.exportSpki = some s ∧ Spki b s
  signs : ∀ m s, js.sign m = some s → sc.verify pub m s = true

/-- C76 (partial): for keys in that range, which excludes those `C76_small_keys` is about, the DID is that of the RSA key, and a parser that knows RSA makes of it a key that verifies whatever is signed. -/
theorem C76_did_partial (sc : SigScheme) (js : WebCrypto) (pub : sc.Pub) (b : Bytes) (he : Exports sc pub b) (hj : Serves sc js pub b)
    (hl : 255 ≤ b.length ∧ b.length ≤ 65515) (priv : Option sc.Priv) (p : DidParser) (hc : Coherent p)
    (hreg : BMap.get? p.ctors Did.rsaMagic = some (rsaCtor sc)) :
    (webKey sc js).did = (rsaKey sc pub priv).did ∧ (webKey sc js).alg = (rsaKey sc pub priv).alg ∧
      ∃ did key, (webKey sc js).did = .ok did ∧ (p.parse did).1 = .ok key ∧ Accepts key (webKey sc js) ∧ key.did = .ok did := by
  obtain ⟨s, h1, h2⟩ := hj.exported
  have hd : (webKey sc js).did = (rsaKey sc pub priv).did := by
    show webDid sc js = _
    unfold webDid
    rw [hj.subtle, h1]
    simp only
    rw [(C76_conversion_iff b s h2).2 hl]
    simp only
    rw [he.reads]
    rfl
  obtain ⟨did, key, k1, k2, _, k4, _⟩ := C41_rsa sc pub none b he (by simp) p hc hreg
  have hsame : (rsaKey sc pub priv).did = (rsaKey sc pub none).did := rfl
  refine ⟨hd, rfl, did, key, by rw [hd, hsame, k1], k2, ?_, k4⟩
  have hkey : key = rsaKey sc pub none := by
    rw [DidParser.parse_ok_iff hc] at k2
    have hd2 : did = didOf (Did.rsaMagic ++ b) := by
      have : (rsaKey sc pub none).did = .ok (didOf (Did.rsaMagic ++ b)) := by
        show Except.ok (didOf (match sc.pubBytes pub with | some b => Did.rsaMagic ++ b | none => [])) = _
        rw [he.writes]
      rw [this] at k1
      injection k1 with k1
      exact k1.symm
    subst hd2
    refine C40_denotes_unique _ _ _ _ k2 (denotes_didOf hreg ?_)
    show rsaCtor sc b = _
    unfold rsaCtor
    rw [he.reads]
  subst hkey
  intro m s hs
  show (if sc.verify pub m s = true then Except.ok () else _) = _
  have hs : webSign js m = .ok s := hs
  unfold webSign at hs
  split at hs
  · rw [hj.subtle] at hs
    rw [if_pos (hj.signs m s (orErr_eq_ok.1 hs))]
  · cases hs

/-- C76 (partial): so a UCAN signed with such a key is accepted, by others too, exactly in its window. -/
theorem C76_token_partial (D : Deps) (sc : SigScheme) (js : WebCrypto) (pub : sc.Pub) (b : Bytes) (he : Exports sc pub b) (hj : Serves sc js pub b)
    (hl : 255 ≤ b.length ∧ b.length ≤ 65515) (s : Signable) (hi : s.issuer = webKey sc js) (hs : SignableOk D s) (rnd : Bytes) (u : Ucan)
    (h : s.sign D rnd = .ok u) (w : World) (hc : Coherent w.parser) (hreg : BMap.get? w.parser.ctors Did.rsaMagic = some (rsaCtor sc))
    (E : Env) (t : UInt64) (ht : ∀ i, E.clock i = t) :
    ∃ u', Ucan.fromStr D (u.encode D) = .ok u' ∧ ((u'.validate E none w).1 = .ok () ↔ Within s.notBefore s.expiration t.toNat) := by
  obtain ⟨_, _, did, key, hd, hp, ha, _⟩ := C76_did_partial sc js pub b he hj hl none w.parser hc hreg
  refine C42_parsed_validates D s rnd u hs h w hc key (fun d hd' => ?_) (by rw [hi]; exact ha) E t ht
  rw [hi, hd] at hd'
  injection hd' with hd'
  exact hd' ▸ (DidParser.parse_ok_iff hc did key).1 hp

/-- C76 is violated for keys of 1024 bits, among others: where the decoder insists on the tag of a sequence, the key has no DID. -/
theorem C76_small_keys (sc : SigScheme) (js : WebCrypto) (pub : sc.Pub) (body b : Bytes) (ht : Tlv 0x30 body b) (hj : Serves sc js pub b)
    (hl : 128 ≤ body.length ∧ b.length < 255) (hseq : ∀ x k, sc.pubOfBytes x = some k → x.head? = some 0x30) :
    (webKey sc js).did = err .keyCtor := by
  obtain ⟨s, h1, h2⟩ := hj.exported
  obtain ⟨p, rfl, h0, h3, h4⟩ := spki_head h2
  clear h0
  have hlen := ht.length
  obtain ⟨l, h5, rfl⟩ := ht
  have h6 := h5.octets
  replace h3 := h3 hl.2
  replace h4 := h4 (by omega)
  generalize hn : body.length = n at h5
  cases h5 with
  | short h => omega
  | long h7 h8 h9 =>
    rename_i d ds
    have hds : ds = [] := by
      cases ds with
      | nil => rfl
      | cons d' ds' => simp only [List.length_cons, List.length_append] at h6 hl; omega
    subst hds
    show webDid sc js = _
    unfold webDid
    rw [hj.subtle, h1]
    have hconv : ∃ y ys, convertSpki (p ++ 48 :: ((UInt8.ofNat (129 + ([] : Bytes).length) :: [d]) ++ body)) = .ok (y :: ys) ∧ y ≠ 48 := by
      unfold convertSpki
      rw [if_neg (by simp only [List.length_append, List.length_cons]; omega), List.drop_append, List.drop_eq_nil_of_le (by omega)]
      rcases (by omega : 24 - p.length = 1 ∨ 24 - p.length = 2) with e | e
      · rw [e]
        exact ⟨_, _, rfl, by decide⟩
      · rw [e]
        refine ⟨_, _, rfl, ?_⟩
        rintro rfl
        simp [derNumber] at h7
    obtain ⟨y, ys, hy, hne⟩ := hconv
    simp only
    rw [hy]
    simp only
    cases hp : sc.pubOfBytes (y :: ys) with
    | none => rfl
    | some k =>
      have := hseq _ _ hp
      simp at this
      exact absurd this hne

/-! ## Instances -/

namespace Ex76

/-- Length octets. -/
def len (n : Nat) : Bytes := if n < 128 then [UInt8.ofNat n] else if n < 256 then [0x81, UInt8.ofNat n] else [0x82, UInt8.ofNat (n / 256), UInt8.ofNat n]

theorem len_text (n : Nat) (h : n < 65536) : LengthText n (len n) := by
  unfold len
  split
  · exact .short ‹_›
  · split
    · have : derNumber [UInt8.ofNat n] = n := by simp [derNumber, UInt8.toNat_ofNat']; omega
      have := LengthText.long (d := UInt8.ofNat n) (ds := []) (by omega) (by rintro e; simp [e, derNumber] at this; omega) (by simp)
      rwa [‹derNumber _ = n›] at this
    · have e : derNumber [UInt8.ofNat (n / 256), UInt8.ofNat n] = n := by simp [derNumber, UInt8.toNat_ofNat']; omega
      have := LengthText.long (d := UInt8.ofNat (n / 256)) (ds := [UInt8.ofNat n]) (by omega) (by
        intro h0
        have := congrArg UInt8.toNat h0
        simp [UInt8.toNat_ofNat'] at this
        omega) (by simp)
      rwa [e] at this

def tlv (tag : UInt8) (b : Bytes) : Bytes := tag :: (len b.length ++ b)

theorem tlv_text (tag : UInt8) (b : Bytes) (h : b.length < 65536) : Tlv tag b (tlv tag b) := ⟨_, len_text _ h, rfl⟩

/-- A modulus of `8 * k` bits: a byte 128 and zeros. -/
def modulus (k : Nat) : Bytes := 0 :: 128 :: List.replicate (k - 1) 0

theorem derNumber_zeros (k : Nat) : derNumber (List.replicate k 0) = 0 := by
  induction k with
  | zero => rfl
  | succ k ih => rw [List.replicate_succ, derNumber_cons, ih]; simp

theorem modulus_natural (k : Nat) : DerNatural (128 * 256 ^ (k - 1)) (modulus k) := by
  refine ⟨?_, _, _, rfl, by decide, ?_⟩
  · rw [modulus, derNumber_cons, derNumber_cons, derNumber_zeros, List.length_replicate]
    simp
  · rintro _ d' ds' h
    cases h
    decide

theorem modulus_bits (k : Nat) (h : 0 < k) : Bits (128 * 256 ^ (k - 1)) (8 * k) := by
  have e : 8 * k - 1 = 7 + 8 * (k - 1) := by omega
  have e' : 8 * k = 8 + 8 * (k - 1) := by omega
  have hp : 0 < 256 ^ (k - 1) := Nat.pow_pos (by omega)
  refine ⟨?_, ?_, by omega⟩
  · rw [e, Nat.pow_add, Nat.pow_mul]; exact Nat.le_refl _
  · rw [e', Nat.pow_add, Nat.pow_mul]
    show 128 * 256 ^ (k - 1) < 256 * 256 ^ (k - 1)
    omega

def keyBody (k : Nat) : Bytes := tlv 2 (modulus k) ++ tlv 2 [1, 0, 1]
def key (k : Nat) : Bytes := tlv 0x30 (keyBody k)
def info (k : Nat) : Bytes := tlv 0x30 (rsaIdentifier ++ tlv 3 (0 :: key k))

theorem tlv_length (tag : UInt8) (b : Bytes) : (tlv tag b).length ≤ b.length + 4 ∧ b.length + 2 ≤ (tlv tag b).length := by
  simp only [tlv, List.length_cons, List.length_append, len]
  split
  · simp only [List.length_cons, List.length_nil]; omega
  · split
    · simp only [List.length_cons, List.length_nil]; omega
    · simp only [List.length_cons, List.length_nil]; omega

theorem modulus_length (k : Nat) : (modulus k).length = k - 1 + 2 := by simp [modulus]

theorem key_pkcs1 (k : Nat) (h : k < 10000) : Pkcs1 (128 * 256 ^ (k - 1)) 65537 (key k) := by
  have h1 := tlv_length 2 (modulus k)
  refine ⟨modulus k, [1, 0, 1], _, _, modulus_natural k, ⟨by decide, 1, [0, 1], rfl, by decide, fun h => by cases h⟩,
    tlv_text _ _ ?_, tlv_text _ _ (by decide), tlv_text _ _ ?_⟩
  · simp [modulus]; omega
  · have h2 := tlv_length 2 [1, 0, 1]
    rw [List.length_append]
    simp only [modulus_length, List.length_cons, List.length_nil] at h1 h2
    omega

theorem key_info (k : Nat) (h : k < 10000) : Spki (key k) (info k) := by
  have h1 := tlv_length 2 (modulus k)
  have h2 := tlv_length 2 [1, 0, 1]
  have h3 := tlv_length 0x30 (keyBody k)
  have h4 := tlv_length 3 (0 :: key k)
  have h5 : (keyBody k).length = (tlv 2 (modulus k)).length + (tlv 2 [1, 0, 1]).length := List.length_append
  have h6 : (key k).length = (tlv 0x30 (keyBody k)).length := rfl
  simp only [modulus_length, List.length_cons, List.length_nil] at h1 h2 h4
  refine ⟨_, tlv_text _ _ ?_, tlv_text _ _ ?_⟩
  · simp only [List.length_cons]; omega
  · simp only [List.length_append, rsaIdentifier, List.length_cons, List.length_nil]; omega

/-- Beside `C76_sizes`: keys of 2048, 3072 and 4096 bits work, keys of 1024 bits do not. -/
example : convertSpki (info 256) = .ok (key 256) ∧ convertSpki (info 384) = .ok (key 384) ∧ convertSpki (info 512) = .ok (key 512) ∧
    convertSpki (info 128) ≠ .ok (key 128) := by
  have := fun (k : Nat) (h0 : 0 < k) (h : k < 10000) => C76_sizes _ _ (modulus_bits k h0) _ _ (key_pkcs1 k h) (key_info k h)
  refine ⟨(this 256 (by omega) (by omega)).2 (by omega), (this 384 (by omega) (by omega)).2 (by omega), (this 512 (by omega) (by omega)).2 (by omega), ?_⟩
  rw [Ne, this 128 (by omega) (by omega)]
  omega

/-- Keys are the bytes of sequences; a key verifies nothing but the empty signature. -/
def seqScheme : SigScheme := ⟨Bytes, Unit, some, fun b => if b.head? = some 0x30 then some b else none, fun _ _ => some [], fun _ _ s => s.isEmpty⟩

def seqCrypto (k : Nat) : WebCrypto := ⟨.ok (), some (info k), true, fun _ => some [], fun _ s => some s.isEmpty⟩

theorem seq_serves (k : Nat) (h : k < 10000) : Serves seqScheme (seqCrypto k) (key k) (key k) :=
  ⟨rfl, ⟨_, rfl, key_info k h⟩, fun m s hs => by cases hs; rfl⟩

/-- Beside `C76_small_keys`: a key of 1024 bits. -/
example : (webKey seqScheme (seqCrypto 128)).did = err .keyCtor :=
  C76_small_keys seqScheme (seqCrypto 128) (key 128) (keyBody 128) (key 128) (tlv_text _ _ (by decide +kernel)) (seq_serves 128 (by omega)) (by decide +kernel)
    fun x k h => by
      have h : (if x.head? = some 0x30 then some x else none) = some k := h
      split at h
      · assumption
      · cases h

/-- Beside `C76_did_partial`: a key of 2048 bits. -/
example : ∃ did, (webKey seqScheme (seqCrypto 256)).did = .ok did := by
  have := (C76_did_partial seqScheme (seqCrypto 256) (key 256) (key 256) ⟨rfl, rfl⟩ (seq_serves 256 (by omega)) (by decide +kernel) none
    ⟨[(Did.rsaMagic, rsaCtor seqScheme)], []⟩ (DidParser.coherent_fresh _) rfl).2.2
  obtain ⟨did, _, h, _⟩ := this
  exact ⟨did, h⟩

end Ex76

end Verif
