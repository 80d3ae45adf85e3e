import Verif.Spec.Encoding
import Verif.Spec.Ipld

/-! # Specification of content identifiers and of the texts that denote them -/

namespace Verif.Spec

/-- The shortest little-endian base 128 bytes of a number. -/
def Leb128 (p : Bytes) (n : Nat) : Prop := Leb p n ∧ (p.length = 1 ∨ p.getLast? ≠ some 0)

/-- The bytes of a version 1 CID. -/
def CidBytes (codec hash : UInt64) (digest b : Bytes) : Prop :=
  ∃ pc ph pl, b = 1 :: (pc ++ (ph ++ (pl ++ digest))) ∧ Leb128 pc codec.toNat ∧ Leb128 ph hash.toNat ∧ Leb128 pl digest.length

/-- Bytes that start with a CID: version 1, or version 0 (a bare sha2-256 multihash). Something may follow. -/
inductive StartsWithCid : Bytes → Cid → Prop
  | v0 {pv pl digest tail : Bytes} : VarintOf pv 0x12 → VarintOf pl 0x20 → digest.length = 32 →
      StartsWithCid (pv ++ (pl ++ (digest ++ tail))) ⟨false, 0x70, 0x12, digest⟩
  | v1 {pv pc ph pl digest tail : Bytes} {codec hash n : UInt64} : VarintOf pv 1 → VarintOf pc codec → VarintOf ph hash → VarintOf pl n →
      n.toNat = digest.length → digest.length ≤ 64 → StartsWithCid (pv ++ (pc ++ (ph ++ (pl ++ (digest ++ tail))))) ⟨true, codec, hash, digest⟩

/-- What follows the first `/ipfs/`, or everything if there is none. -/
def AfterIpfs (s h : Bytes) : Prop :=
  (∃ pre, s = pre ++ (strBytes "/ipfs/" ++ h) ∧ ∀ pre' h', s = pre' ++ (strBytes "/ipfs/" ++ h') → pre.length ≤ pre'.length) ∨
  (h = s ∧ ¬ ∃ pre h', s = pre ++ (strBytes "/ipfs/" ++ h'))

/-- `Qm` and 44 more symbols. -/
def LooksV0 (h : Bytes) : Prop := h.length = 46 ∧ ∃ r, h = strBytes "Qm" ++ r

/-- The bytes a text denotes: version 0 CIDs are bare base58, everything else carries a multibase prefix. -/
inductive TextBytes (D : Deps) : Bytes → Bytes → Prop
  | v0 {h b : Bytes} : LooksV0 h → Base58Text b h → TextBytes D h b
  | base32 {t b : Bytes} : BitText 5 base32lower b t → TextBytes D (strBytes "b" ++ t) b
  | base58 {t b : Bytes} : Base58Text b t → TextBytes D (strBytes "z" ++ t) b
  | other {p : UInt8} {t b : Bytes} : ¬ LooksV0 (p :: t) → [p] ≠ strBytes "b" → [p] ≠ strBytes "z" → D.otherBase p t = some b → TextBytes D (p :: t) b

/-- The text denotes the CID. -/
def DenotesCid (D : Deps) (s : String) (c : Cid) : Prop :=
  ∃ h b, AfterIpfs (strBytes s) h ∧ 2 ≤ h.length ∧ TextBytes D h b ∧ StartsWithCid b c

end Verif.Spec
