import Verif.Model.Debug

/-!
# The texts of refusals

What `{}` prints of the errors that validation returns. The functions are those of `Model/Did`, `Model/Ucan`, `Model/Store` and `Model/Chain`, with the
texts of `anyhow!` and `context` (of which `{}` shows the outermost). Errors that come from other crates (base58, the key types, CIDs, UTF-8) and from stores
have a text of their own, which is not modelled; nor are panics.
-/

namespace Verif.Told

/-- An error: what goes wrong and, where this library words it, its text. -/
structure Refusal where
  fail : Fail
  text : Option (List Char)

/-- Like `M`, with texts. -/
def T (α : Type) := World → Except Refusal α × World

namespace T

def pure {α : Type} (a : α) : T α := fun w => (.ok a, w)
def bind {α β : Type} (x : T α) (f : α → T β) : T β := fun w =>
  match x w with
  | (.ok a, w') => f a w'
  | (.error e, w') => (.error e, w')

instance : Monad T where
  pure := pure
  bind := bind

/-- A pure computation. -/
def lift {α : Type} (r : Except Refusal α) : T α := fun w => (r, w)

/-- An error of someone else. -/
def foreign {α : Type} (x : M α) : T α := fun w =>
  match x w with
  | (.ok a, w') => (.ok a, w')
  | (.error e, w') => (.error ⟨e, none⟩, w')

end T

/-- `Err(anyhow!(…))`. -/
def says {α : Type} (e : Err) (text : List Char) : Except Refusal α := .error ⟨.err e, some text⟩

/-- An error of another crate. -/
def other {α : Type} : Res α → Except Refusal α
  | .ok a => .ok a
  | .error e => .error ⟨e, none⟩

/-- `Display` of an unsigned integer. -/
def decimal (n : Nat) : List Char := if n = 0 then ['0'] else (toDigits 10 n).map Debug.hexChar

/-- `{:#x}` of an unsigned integer. -/
def hex (n : Nat) : List Char := "0x".toList ++ (if n = 0 then ['0'] else (toDigits 16 n).map Debug.hexChar)

/-- `DidParser::parse` after the cache lookup (did.rs 52-64); `{:?}` of two bytes. -/
def resolve (ctors : BMap Bytes KeyCtor) (did : String) : Except Refusal Key :=
  match Base58.decode ((strBytes did).drop Did.didKeyPrefix.length) with
  | none => other (err .base58)
  | some b =>
    match b with
    | b0 :: b1 :: rest =>
      match BMap.get? ctors [b0, b1] with
      | some ctor => other (ctor rest)
      | none => says .unknownMagic ("Unrecognized magic bytes: [".toList ++ decimal b0.toNat ++ ", ".toList ++ decimal b1.toNat ++ "]".toList)
    | _ => other (panicked .sliceDid)

/-- `DidParser::parse` (did.rs 42-66). -/
def parse (p : DidParser) (did : String) : Except Refusal Key × DidParser :=
  if Did.didKeyPrefix.isPrefixOf (strBytes did) then
    match BMap.get? p.cache did with
    | some key => (.ok key, p)
    | none =>
      match resolve p.ctors did with
      | .ok key => (.ok key, { p with cache := BMap.insert p.cache did key })
      | .error e => (.error e, p)
  else (says .notDidKey ("Expected valid did:key, got: ".toList ++ did.toList), p)

/-- `did_parser.parse(did)`. -/
def parseDid (did : String) : T Key := fun w =>
  match parse w.parser did with
  | (r, p) => (r, { w with parser := p })

/-- `check_signature` (ucan.rs 86-89). -/
def checkSignature (u : Ucan) : T Unit := do
  let key ← parseDid u.payload.iss
  T.lift (other (key.verify u.signedData u.signature))

/-- `validate` (ucan.rs 69-83). -/
def validate (E : Env) (u : Ucan) (nowTime : Option UInt64) : T Unit := do
  let expired ← T.foreign (Ucan.isExpired E u nowTime)
  if expired then T.lift (says .expired "Expired".toList)
  else do
    let early ← T.foreign (Ucan.isTooEarly E u)
    if early then T.lift (says .tooEarly "Not active yet (too early)".toList)
    else checkSignature u

/-- One segment (ucan.rs 244-256): the context of the base64 error and that of the JSON error. -/
def decodePart {α : Type} (f : Bytes → Option α) (name : String) (part : Bytes) : Except Refusal α :=
  match Base64.decode part with
  | none => says .base64 ("Could not decode UCAN ".toList ++ name.toList ++ " base64".toList)
  | some b =>
    match f b with
    | none => says .json ("Could not parse UCAN ".toList ++ name.toList ++ " JSON".toList)
    | some a => .ok a

/-- `from_str` (ucan.rs 226-270) on the bytes of the token. -/
def ofBytes (D : Deps) (token : Bytes) : Except Refusal Ucan :=
  let parts := splitByte 46 token
  let signed := Ucan.signedText parts
  match parts with
  | [] => says .missingPart "Missing UCAN header in token part".toList
  | p0 :: rest =>
    match decodePart (Codec.headerOfBytes D) "header" p0 with
    | .error e => .error e
    | .ok header =>
      match rest with
      | [] => says .missingPart "Missing UCAN payload in token part".toList
      | p1 :: rest =>
        match decodePart (Codec.payloadOfBytes D) "payload" p1 with
        | .error e => .error e
        | .ok payload =>
          match rest with
          | [] => says .missingPart "Missing UCAN signature in token part".toList
          | p2 :: _ =>
            match Base64.decode p2 with
            | none => says .base64 "Could not parse UCAN signature base64".toList
            | some signature => .ok (Ucan.new header payload signed signature)

/-- `from_str` (ucan.rs 226-270). -/
def fromStr (D : Deps) (token : String) : Except Refusal Ucan := ofBytes D (strBytes token)

/-- `read_token` (store.rs 72-86) after the codec test; `{:?}` of a CID is `Cid(…)` around its text. -/
def tokenOf (c : Cid) : Option Ipld → Except Refusal String
  | some (.bytes b) => other (orErr .utf8 (bytesStr? b))
  | _ => says .noToken ("No UCAN was found for CID Cid(".toList ++ c.toStr.toList ++ ")".toList)

/-- `read_token` (store.rs 72-86). -/
def readToken (E : Env) (c : Cid) : T (Option String) :=
  if c.codec ≠ Cid.rawCodec then T.lift (says .wrongCodec ("Only 'raw' codec supported, but CID refers to ".toList ++ hex c.codec.toNat))
  else do
    let r ← T.foreign (E.readM c)
    let s ← T.lift (tokenOf c r)
    pure (some s)

/-- `require_token` (store.rs 65-70). -/
def requireToken (E : Env) (c : Cid) : T String := do
  match ← readToken E c with
  | some s => pure s
  | none => T.lift (says .noToken ("No token found for CID ".toList ++ c.toStr.toList))

/-- `validate_link_to` (chain.rs 148-163). -/
def validateLink (self : Ucan) (ucan : Ucan) : Except Refusal Unit :=
  if self.audience = ucan.issuer then
    if self.lifetimeEncompasses ucan then .ok () else says .lifetime "Invalid UCAN link: lifetime exceeds attenuation".toList
  else says .audience ("Invalid UCAN link: audience ".toList ++ self.audience.toList ++ " does not match issuer ".toList ++ ucan.issuer.toList)

/-- One redelegation claim (chain.rs 83-103). -/
def redelStep (n : Nat) (acc : BSet Nat) (v : View ProofSelection ProofAction) : Except Refusal (BSet Nat) :=
  match v.resource with
  | .resource (.scoped .all) => .ok (BSet.extend acc (List.range n))
  | .resource (.scoped (.index i)) =>
    if i < n then .ok (BSet.insert acc i)
    else says .noProofAt ("Unable to redelegate proof; no proof at zero-based index ".toList ++ decimal i)
  | _ => .ok acc

/-- The loop of chain.rs 78-105. -/
def redelLoop (n : Nat) : BSet Nat → List (View ProofSelection ProofAction) → Except Refusal (BSet Nat)
  | acc, [] => .ok acc
  | acc, v :: vs =>
    match redelStep n acc v with
    | .ok acc' => redelLoop n acc' vs
    | .error e => .error e

/-- chain.rs 76-105. -/
def redelegations (D : Deps) (n : Nat) (u : Ucan) : Except Refusal (BSet Nat) :=
  redelLoop n [] (u.capabilities.iter.filterMap (proofSemantics.parseCapability D))

/-- The loop over the proof list (chain.rs 66-72). -/
def proofsLoop (D : Deps) (E : Env) (rec : String → T Chain) (u : Ucan) : List String → T (List Chain)
  | [] => pure []
  | s :: ss => do
    let cid ← T.lift (other (orErr .cidText (Cid.parse D s)))
    let token ← requireToken E cid
    let c ← rec token
    T.lift (validateLink c.ucan u)
    let cs ← proofsLoop D E rec u ss
    pure (c :: cs)

/-- `from_ucan` (chain.rs 52-112) for a given recursive call. -/
def fromUcanWith (D : Deps) (E : Env) (nowTime : Option UInt64) (rec : String → T Chain) (u : Ucan) : T Chain := do
  validate E u nowTime
  let proofs ← proofsLoop D E rec u (u.proofs.getD [])
  let redel ← T.lift (redelegations D proofs.length u)
  pure (.mk u proofs redel)

/-- `try_from_token_string` (chain.rs 135-146). -/
def ofToken (D : Deps) (E : Env) (nowTime : Option UInt64) : Nat → String → T Chain
  | 0, _ => T.lift (.error ⟨.diverge, none⟩)
  | fuel + 1, token => do
    let u ← T.lift (fromStr D token)
    fromUcanWith D E nowTime (ofToken D E nowTime fuel) u

end Verif.Told
