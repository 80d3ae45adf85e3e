import Verif.Model.Builder
import Verif.Model.KeySupport
import Verif.Spec.Time

/-! # Specification of signing -/

namespace Verif.Spec

/-- The public key can be written and read back. -/
structure Exports (sc : SigScheme) (pub : sc.Pub) (b : Bytes) : Prop where
  writes : sc.pubBytes pub = some b
  reads : sc.pubOfBytes b = some pub

/-- The private key belongs to the public key: what one signs the other verifies. -/
def Matches (sc : SigScheme) (pub : sc.Pub) (priv : sc.Priv) : Prop := ∀ m s, sc.sign priv m = some s → sc.verify pub m s = true

/-- `verifier` accepts whatever `signer` signs. -/
def Accepts (verifier signer : Key) : Prop := ∀ m s, signer.sign m = .ok s → verifier.verify m s = .ok ()

/-- Signatures cannot be forged: every message for which a signature verifies under the key of a DID is in the history `H` of
messages signed with that key. -/
def Unforgeable (ctors : BMap Bytes KeyCtor) (H : String → Bytes → Prop) : Prop :=
  ∀ did key, Denotes ctors did key → ∀ m s, key.verify m s = .ok () → H did m

/-- The history `H` consists of UCANs signed that satisfy `Signed`. -/
def OnlyUcans (H : String → Bytes → Prop) (Signed : Ucan → Prop) : Prop :=
  ∀ did m, H did m → ∃ u, Signed u ∧ u.payload.iss = did ∧ u.signedData = m

/-- The signed bytes are the text of a header and payload that read as those of `u`. -/
def Covered (D : Deps) (u : Ucan) : Prop :=
  ∃ h p, Codec.headerOfBytes D h = some u.header ∧ Codec.payloadOfBytes D p = some u.payload ∧
    u.signedData = Base64.encode h ++ 46 :: Base64.encode p

end Verif.Spec
