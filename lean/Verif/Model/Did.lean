import Verif.Base.BTree
import Verif.Base.Fail
import Verif.Codec.Base58

/-! # `ucan/src/crypto/key.rs` and `ucan/src/crypto/did.rs` -/

namespace Verif

/-- `trait KeyMaterial` (key.rs 22-39): a key is what its methods do. Implementations are assumed to
be functions of their arguments (no hidden state). `Box<dyn KeyMaterial>` and `Arc<K>` (key.rs 40-81) forward every method, so a boxed or
shared key is the key. -/
structure Key where
  alg : String
  did : Res String
  sign : Bytes → Res Bytes
  verify : Bytes → Bytes → Res Unit

/-- `BytesToKey` (did.rs 6). -/
abbrev KeyCtor := Bytes → Res Key

namespace Did

/-- `DID_PREFIX` (did.rs 11), `"did:"`. -/
def didPrefix : Bytes := [100, 105, 100, 58]
/-- `DID_KEY_PREFIX` (did.rs 12), `"did:key:z"`. -/
def didKeyPrefix : Bytes := [100, 105, 100, 58, 107, 101, 121, 58, 122]

example : didPrefix = strBytes "did:" := by decide +kernel
example : didKeyPrefix = strBytes "did:key:z" := by decide +kernel

/-- did.rs 14-19. -/
def ed25519Magic : Bytes := [0xed, 0x01]
def rsaMagic : Bytes := [0x85, 0x24]
def bls12381g1Magic : Bytes := [0xea, 0x01]
def bls12381g2Magic : Bytes := [0xeb, 0x01]
def p256Magic : Bytes := [0x80, 0x24]
def secp256k1Magic : Bytes := [0xe7, 0x01]

end Did

/-- `struct DidParser` (did.rs 25-28). -/
structure DidParser where
  ctors : BMap Bytes KeyCtor
  cache : BMap String Key

namespace DidParser

/-- `DidParser::new` (did.rs 31-40): later constructors for the same prefix win. -/
def new (l : List (Bytes × KeyCtor)) : DidParser := ⟨BMap.ofList l, []⟩

/-- The part of `parse` after the cache lookup that computes the key (did.rs 52-64). -/
def resolve (ctors : BMap Bytes KeyCtor) (did : String) : Res Key :=
  match Base58.decode ((strBytes did).drop Did.didKeyPrefix.length) with
  | none => err .base58
  | some b =>
    match b with
    | b0 :: b1 :: rest =>
      match BMap.get? ctors [b0, b1] with
      | some ctor => ctor rest
      | none => err .unknownMagic
    | _ => panicked .sliceDid

/-- `DidParser::parse` (did.rs 42-66). -/
def parse (p : DidParser) (did : String) : Res Key × DidParser :=
  if Did.didKeyPrefix.isPrefixOf (strBytes did) then
    match BMap.get? p.cache did with
    | some key => (.ok key, p)
    | none =>
      match resolve p.ctors did with
      | .ok key => (.ok key, { p with cache := BMap.insert p.cache did key })
      | .error e => (.error e, p)
  else (err .notDidKey, p)

end DidParser
end Verif
