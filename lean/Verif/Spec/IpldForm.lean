import Verif.Spec.IpldCbor
import Verif.Spec.Cid

/-! # Specification of the UCAN-IPLD form of a token, and of the token of a UCAN-IPLD value -/

namespace Verif.Spec

/-! ## From tokens -/

/-- A signature with its algorithm in front: the code of the algorithm and the length, both in as few bytes as possible, then the signature. -/
def SignatureBytes (alg : String) (signature b : Bytes) : Prop :=
  ∃ code p q, (alg, code) ∈ algTable ∧ Leb128 p code.toNat ∧ Leb128 q signature.length ∧ b = p ++ (q ++ signature)

/-- References: the CIDs that the texts denote, in order; an empty list counts as none. -/
def References (D : Deps) (prf : Option (List String)) (cids : Option (List Cid)) : Prop :=
  (prf.getD []).length = (cids.getD []).length ∧ cids ≠ some [] ∧
    ∀ (i : Nat) s c, (prf.getD [])[i]? = some s → (cids.getD [])[i]? = some c → DenotesCid D s c

/-- The UCAN-IPLD value of a token. The `typ` of the header is not represented. -/
structure FormOf (D : Deps) (u : Ucan) (x : UcanIpld) : Prop where
  v : x.v = u.payload.ucv
  iss : Principal u.payload.iss x.iss.bytes
  aud : Principal u.payload.aud x.aud.bytes
  s : SignatureBytes u.header.alg u.signature x.s.bytes
  cap : x.cap = u.payload.cap
  prf : References D u.payload.prf x.prf
  exp : x.exp = u.payload.exp
  fct : x.fct = u.payload.fct
  nnc : x.nnc = u.payload.nnc
  nbf : x.nbf = u.payload.nbf

/-! ## To tokens -/

/-- The DID that principal bytes stand for. -/
inductive Names : Bytes → String → Prop
  | other {t : String} : Names (0x9d :: 0x1a :: strBytes t) ("did:" ++ t)
  | key {b0 b1 : UInt8} {r t : Bytes} {s : String} : b0 ≠ 0x9d ∨ b1 ≠ 0x1a → Base58Text (b0 :: b1 :: r) t → strBytes s = strBytes "did:key:z" ++ t →
      Names (b0 :: b1 :: r) s

/-- Bytes that stand for no DID. -/
def Nameless (b : Bytes) : Prop := b.length < 2 ∨ ∃ r, b = 0x9d :: 0x1a :: r ∧ ¬ ∃ t, r = strBytes t

/-- The text written for a CID: base32 with its prefix for version 1, bare base58 for version 0. -/
inductive WrittenCid : Cid → String → Prop
  | v1 {c : Cid} {t b : Bytes} {s : String} : c.v1 = true → CidBytes c.codec c.hashCode c.digest b → BitText 5 base32lower b t →
      strBytes s = strBytes "b" ++ t → WrittenCid c s
  | v0 {c : Cid} {t ph pl : Bytes} {s : String} : c.v1 = false → Leb128 ph c.hashCode.toNat → Leb128 pl c.digest.length →
      Base58Text (ph ++ (pl ++ c.digest)) t → strBytes s = t → WrittenCid c s

/-- A signature with its algorithm in front, as it is read: longer integers and further bytes are tolerated. -/
def ReadSignature (b : Bytes) (alg : String) (signature : Bytes) : Prop :=
  ∃ p q rest code len, b = p ++ (q ++ (signature ++ rest)) ∧ VarintOf p code ∧ VarintOf q len ∧ (alg, code) ∈ algTable ∧ len.toNat = signature.length

/-- A known algorithm and a length beyond the end. -/
def CutSignature (b : Bytes) : Prop :=
  ∃ p q body code len alg, b = p ++ (q ++ body) ∧ VarintOf p code ∧ VarintOf q len ∧ (alg, code) ∈ algTable ∧ body.length < len.toNat

/-- The header, payload and signature of the token of a UCAN-IPLD value. Version and type are not taken from it. -/
structure TokenForm (x : UcanIpld) (h : Header) (p : Payload) (signature : Bytes) : Prop where
  alg : ReadSignature x.s.bytes h.alg signature
  typ : h.typ = "JWT"
  ucv : p.ucv = "0.10.0-canary"
  iss : Names x.iss.bytes p.iss
  aud : Names x.aud.bytes p.aud
  exp : p.exp = x.exp
  nbf : p.nbf = x.nbf
  nnc : p.nnc = x.nnc
  cap : p.cap = x.cap
  fct : p.fct = x.fct
  prf : p.prf.isSome = x.prf.isSome ∧ (p.prf.getD []).length = (x.prf.getD []).length ∧
    ∀ (i : Nat) s c, (p.prf.getD [])[i]? = some s → (x.prf.getD [])[i]? = some c → WrittenCid c s

/-! ## Tokens that fit into memory -/

/-- Sizes are those of values in memory, caveats and facts are what `serde_json::Value` can hold. -/
structure HeldToken (u : Ucan) : Prop where
  ucv : Fits (strBytes u.payload.ucv).length
  iss : Fits ((strBytes u.payload.iss).length + 2)
  aud : Fits ((strBytes u.payload.aud).length + 2)
  signature : Fits (u.signature.length + 20)
  cap : SoundValue (capDoc u.payload.cap)
  prf : Fits (u.payload.prf.getD []).length
  fct : ∀ f, u.payload.fct = some f → SoundValue (.obj f)
  nnc : ∀ s, u.payload.nnc = some s → Fits (strBytes s).length

/-- The document of a token in UCAN-IPLD, given the bytes of issuer, audience and signature and the references. -/
def tokenDoc (u : Ucan) (iss aud signature : Bytes) (prf : Option (List Cid)) : Ipld := .map
  [("s", octets signature), ("v", .str u.payload.ucv), ("aud", octets aud), ("cap", treeOf (capDoc u.payload.cap)),
   ("exp", orNull (fun n : UInt64 => .int n.toNat) u.payload.exp), ("fct", orNull (fun f => treeOf (.obj f)) u.payload.fct), ("iss", octets iss),
   ("nbf", orNull (fun n : UInt64 => .int n.toNat) u.payload.nbf), ("nnc", orNull .str u.payload.nnc),
   ("prf", orNull (fun l => .list (l.map .link)) prf)]

/-- How deep a reader must be able to go: capabilities and facts are one level down. -/
def FitsDepth (u : Ucan) (limit : Nat) : Prop :=
  2 < limit ∧ nesting (treeOf (capDoc u.payload.cap)) + 1 < limit ∧ ∀ f, u.payload.fct = some f → nesting (treeOf (.obj f)) + 1 < limit

end Verif.Spec
