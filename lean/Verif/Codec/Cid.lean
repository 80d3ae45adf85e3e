import Verif.Base.Deps
import Verif.Codec.Base32
import Verif.Codec.Base58
import Verif.Codec.Varint

/-!
# Content identifiers

The `cid` crate (with `multihash` and `multibase`) as used by `ucan/src/ucan.rs` 199-204 (`Cid::new_v1`),
`ucan/src/chain.rs` 67 (`Cid::try_from(&str)`), `ucan/src/builder.rs` 222 (`to_string`) and
`ucan/src/ipld/ucan.rs`.
-/

namespace Verif

structure Cid where
  v1 : Bool
  codec : UInt64
  hashCode : UInt64
  digest : Bytes
deriving DecidableEq, Inhabited

namespace Cid

/-- Raw codec `0x55`. -/
def rawCodec : UInt64 := 0x55
/-- `dag-pb`, the implicit codec of version 0. -/
def dagPb : UInt64 := 0x70
/-- `Code::Blake3_256` (`ucan/src/builder.rs` 280, `ucan/src/store.rs`). -/
def blake3 : UInt64 := 0x1e

/-- What the Rust type can hold: digests of at most 64 bytes, version 0 only for sha2-256/dag-pb. -/
def Valid (c : Cid) : Prop :=
  c.digest.length ≤ 64 ∧ (c.v1 = false → c.codec = dagPb ∧ c.hashCode = 0x12 ∧ c.digest.length = 32)

/-- `Multihash::to_bytes`. -/
def mhBytes (c : Cid) : Bytes :=
  Varint.encode c.hashCode ++ (Varint.encode (UInt64.ofNat c.digest.length) ++ c.digest)

/-- `Cid::to_bytes`. -/
def toBytes (c : Cid) : Bytes :=
  if c.v1 then Varint.encode 1 ++ (Varint.encode c.codec ++ mhBytes c) else mhBytes c

/-- `Cid::to_string`: base32 with prefix `b` for version 1, bare base58btc for version 0. -/
def toStrBytes (c : Cid) : Bytes :=
  if c.v1 then 98 :: Base32.encode (toBytes c) else Base58.encode (toBytes c)

def toStr (c : Cid) : String := asciiStr (toStrBytes c)

/-- `Multihash::read`. -/
def readMh (b : Bytes) : Option (UInt64 × Bytes) :=
  match Varint.decode b with
  | none => none
  | some (code, r) =>
    match Varint.decode r with
    | none => none
    | some (size, r') =>
      if 64 < size.toNat ∨ r'.length < size.toNat then none
      else some (code, r'.take size.toNat)

/-- `Cid::try_from(&[u8])`; bytes after the CID are ignored. -/
def ofBytes (b : Bytes) : Option Cid :=
  match Varint.decode b with
  | none => none
  | some (version, r) =>
    match Varint.decode r with
    | none => none
    | some (codec, r') =>
      if version = 0x12 ∧ codec = 0x20 then
        if r'.length < 32 then none else some ⟨false, dagPb, 0x12, r'.take 32⟩
      else if version = 1 then
        match readMh r' with
        | none => none
        | some (code, digest) => some ⟨true, codec, code, digest⟩
      else none

/-- `str::find("/ipfs/")` then everything after it. -/
def cutIpfs : Bytes → Option Bytes
  | [] => none
  | c :: cs =>
    if List.isPrefixOf [47, 105, 112, 102, 115, 47] (c :: cs) then some ((c :: cs).drop 6) else cutIpfs cs

/-- `multibase::decode`. -/
def multibase (D : Deps) : Bytes → Option Bytes
  | [] => none
  | c :: cs => if c = 98 then Base32.decode cs else if c = 122 then Base58.decode cs else D.otherBase c cs

/-- `Cid::try_from(&str)`. -/
def parseBytes (D : Deps) (s : Bytes) : Option Cid :=
  let h := (cutIpfs s).getD s
  if h.length < 2 then none
  else
    match (if h.length = 46 ∧ List.isPrefixOf [81, 109] h = true then Base58.decode h else multibase D h) with
    | none => none
    | some b => ofBytes b

def parse (D : Deps) (s : String) : Option Cid := parseBytes D (strBytes s)

/-! ## Round trips -/

theorem readMh_mhBytes (c : Cid) (h : c.digest.length ≤ 64) (rest : Bytes) :
    readMh (mhBytes c ++ rest) = some (c.hashCode, c.digest) := by
  unfold readMh mhBytes
  rw [List.append_assoc, Varint.decode_encode]
  simp only [List.append_assoc]
  rw [Varint.decode_encode]
  simp only []
  have : (UInt64.ofNat c.digest.length).toNat = c.digest.length := by simp; omega
  rw [this, if_neg (by simp; omega)]
  simp

theorem ofBytes_toBytes (c : Cid) (hv : c.v1 = true) (h : c.digest.length ≤ 64) (rest : Bytes) :
    ofBytes (toBytes c ++ rest) = some c := by
  unfold ofBytes toBytes
  rw [if_pos hv, List.append_assoc, Varint.decode_encode]
  simp only [List.append_assoc]
  rw [Varint.decode_encode]
  simp only []
  rw [if_neg (by intro h; exact absurd h.1 (by decide)), if_pos trivial, readMh_mhBytes c h]
  obtain ⟨v1, codec, hc, dg⟩ := c
  simp at hv
  subst hv
  rfl

theorem cutIpfs_none {s : Bytes} (h : (47 : UInt8) ∉ s) : cutIpfs s = none := by
  induction s with
  | nil => rfl
  | cons c s ih =>
    have hc : c ≠ 47 := fun e => h (by simp [e])
    have : List.isPrefixOf [47, 105, 112, 102, 115, 47] (c :: s) = false := by
      simp [List.isPrefixOf]
      intro e; exact absurd e.symm hc
    simp [cutIpfs, this, ih (fun hm => h (by simp [hm]))]

theorem toStr_ascii (c : Cid) : IsAscii (toStrBytes c) := by
  unfold toStrBytes
  split
  · intro x hx
    rcases List.mem_cons.1 hx with rfl | hx
    · decide
    · exact (Base32.encode_alphabet _ x hx).1
  · exact Base58.encode_ascii _

theorem strBytes_toStr (c : Cid) : strBytes (toStr c) = toStrBytes c := strBytes_asciiStr (toStr_ascii c)

theorem encode_ne_nil : ∀ {b : Bytes}, b ≠ [] → Base32.encode b ≠ []
  | [], h => absurd rfl h
  | [_], _ => by simp [Base32.encode]
  | [_, _], _ => by simp [Base32.encode]
  | [_, _, _], _ => by simp [Base32.encode]
  | [_, _, _, _], _ => by simp [Base32.encode]
  | _ :: _ :: _ :: _ :: _ :: _, _ => by simp [Base32.encode]

theorem parse_toStr (D : Deps) (c : Cid) (hv : c.v1 = true) (h : c.digest.length ≤ 64) :
    parse D (toStr c) = some c := by
  unfold parse
  rw [strBytes_toStr]
  unfold parseBytes toStrBytes
  rw [if_pos hv]
  have hcut : cutIpfs (98 :: Base32.encode (toBytes c)) = none := by
    apply cutIpfs_none
    intro hm
    rcases List.mem_cons.1 hm with e | hm
    · exact absurd e (by decide)
    · exact (Base32.encode_alphabet _ _ hm).2 rfl
  rw [hcut]
  simp only [Option.getD_none]
  have hne : toBytes c ≠ [] := by
    unfold toBytes
    rw [if_pos hv]
    intro e
    have := (List.append_eq_nil_iff.1 e).1
    exact absurd this (Varint.encodeAux_ne_nil _ _)
  have hlen : 1 ≤ (Base32.encode (toBytes c)).length := by
    have := encode_ne_nil hne
    cases hb : Base32.encode (toBytes c) with
    | nil => exact absurd hb this
    | cons x t => simp
  rw [if_neg (by simp; omega), if_neg (by simp [List.isPrefixOf])]
  simp only [multibase, if_true, Base32.decode_encode]
  have := ofBytes_toBytes c hv h []
  rwa [List.append_nil] at this

theorem toStr_inj {a b : Cid} (ha : a.v1 = true) (hb : b.v1 = true) (hla : a.digest.length ≤ 64)
    (hlb : b.digest.length ≤ 64) (h : toStr a = toStr b) : a = b := by
  have D : Deps := ⟨fun _ => [], fun _ => none, false, false, fun _ _ => none, fun _ _ => [], fun _ => none, fun _ => none, false⟩
  have h1 := parse_toStr D a ha hla
  have h2 := parse_toStr D b hb hlb
  rw [h, h2] at h1
  exact (Option.some.inj h1).symm

end Cid
end Verif
