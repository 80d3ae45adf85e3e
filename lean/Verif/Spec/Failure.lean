import Verif.Spec.Chain
import Verif.Spec.Token

/-!
# Specification of failures

Which failure a defective token or proof tree is reported with. The kinds of errors stand for their messages; `Fail.panic` and failures of
stores, constructors and keys are passed on as they are.
-/

namespace Verif.Spec

/-- The text is no base64url. -/
def NoBase64 (s : Bytes) : Prop := ∀ b, s ≠ Base64.encode b

/-- The segment is base64url, but not of a document that `f` reads. -/
def Undocumented {α : Type} (f : Bytes → Option α) (s : Bytes) : Prop := ∃ b, s = Base64.encode b ∧ f b = none

/-- The segment is base64url of a document that `f` reads. -/
def Documented {α : Type} (f : Bytes → Option α) (s : Bytes) : Prop := ∃ b v, s = Base64.encode b ∧ f b = some v

/-- A text that is no token, and the error: of the first segment at fault, from left to right. -/
inductive TextFault (D : Deps) : Bytes → Err → Prop
  | header64 {h tail : Bytes} : NoDot h → Tail tail → NoBase64 h → TextFault D (h ++ tail) .base64
  | header {h tail : Bytes} : NoDot h → Tail tail → Undocumented (Codec.headerOfBytes D) h → TextFault D (h ++ tail) .json
  | noPayload {h : Bytes} : NoDot h → Documented (Codec.headerOfBytes D) h → TextFault D h .missingPart
  | payload64 {h p tail : Bytes} : NoDot h → NoDot p → Tail tail → Documented (Codec.headerOfBytes D) h → NoBase64 p →
      TextFault D (h ++ 46 :: p ++ tail) .base64
  | payload {h p tail : Bytes} : NoDot h → NoDot p → Tail tail → Documented (Codec.headerOfBytes D) h →
      Undocumented (Codec.payloadOfBytes D) p → TextFault D (h ++ 46 :: p ++ tail) .json
  | noSignature {h p : Bytes} : NoDot h → NoDot p → Documented (Codec.headerOfBytes D) h → Documented (Codec.payloadOfBytes D) p →
      TextFault D (h ++ 46 :: p) .missingPart
  | signature64 {h p s tail : Bytes} : NoDot h → NoDot p → NoDot s → Tail tail → Documented (Codec.headerOfBytes D) h →
      Documented (Codec.payloadOfBytes D) p → NoBase64 s → TextFault D (h ++ 46 :: p ++ 46 :: s ++ tail) .base64

/-- A DID for which the parser has no key, and the failure. -/
inductive DidFault (ctors : BMap Bytes KeyCtor) (did : String) : Fail → Prop
  | notKey : (∀ t, strBytes did ≠ strBytes "did:key:z" ++ t) → DidFault ctors did (.err .notDidKey)
  | base58 (t : Bytes) : strBytes did = strBytes "did:key:z" ++ t → (∀ b, t ≠ Base58.encode b) → DidFault ctors did (.err .base58)
  | short (b : Bytes) : strBytes did = strBytes "did:key:z" ++ Base58.encode b → b.length < 2 → DidFault ctors did (.panic .sliceDid)
  | unknown (b0 b1 : UInt8) (r : Bytes) : strBytes did = strBytes "did:key:z" ++ Base58.encode (b0 :: b1 :: r) →
      BMap.get? ctors [b0, b1] = none → DidFault ctors did (.err .unknownMagic)
  | refused (b0 b1 : UInt8) (r : Bytes) (ctor : KeyCtor) (f : Fail) : strBytes did = strBytes "did:key:z" ++ Base58.encode (b0 :: b1 :: r) →
      BMap.get? ctors [b0, b1] = some ctor → ctor r = .error f → DidFault ctors did f

/-- A UCAN that is not valid when the clock stands at `t`, and the failure: expiry comes before activation, then the key, then the signature. -/
inductive Invalid (nowTime : Option UInt64) (ctors : BMap Bytes KeyCtor) (t : UInt64) (u : Ucan) : Fail → Prop
  | expired (e : UInt64) : u.payload.exp = some e → e < nowTime.getD t → Invalid nowTime ctors t u (.err .expired)
  | early (n : UInt64) : Unexpired u (nowTime.getD t) → u.payload.nbf = some n → t < n → Invalid nowTime ctors t u (.err .tooEarly)
  | key (f : Fail) : Unexpired u (nowTime.getD t) → Active u t → DidFault ctors u.payload.iss f → Invalid nowTime ctors t u f
  | signature (key : Key) (f : Fail) : Unexpired u (nowTime.getD t) → Active u t → Denotes ctors u.payload.iss key →
      key.verify u.signedData u.signature = .error f → Invalid nowTime ctors t u f

/-- A CID under which there is no text, and the failure. -/
inductive CidFault (E : Env) (c : Cid) : Fail → Prop
  | codec : c.codec ≠ Cid.rawCodec → CidFault E c (.err .wrongCodec)
  | store (f : Fail) : c.codec = Cid.rawCodec → E.read 0 c = .error f → CidFault E c f
  | absent (v : Option Ipld) : c.codec = Cid.rawCodec → E.read 0 c = .ok v → (∀ b, v ≠ some (.bytes b)) → CidFault E c (.err .noToken)
  | utf8 (b : Bytes) : c.codec = Cid.rawCodec → E.read 0 c = .ok (some (.bytes b)) → (∀ x : String, strBytes x ≠ b) → CidFault E c (.err .utf8)

/-- An entry of a proof list under which there is no text, and the failure. -/
inductive RefFault (D : Deps) (E : Env) (s : String) : Fail → Prop
  | text : Cid.parse D s = none → RefFault D E s (.err .cidText)
  | cid (c : Cid) (f : Fail) : Cid.parse D s = some c → CidFault E c f → RefFault D E s f

/-- The entry is a reference to the text. -/
def Points (D : Deps) (E : Env) (s token : String) : Prop :=
  ∃ c, Cid.parse D s = some c ∧ c.codec = Cid.rawCodec ∧ E.read 0 c = .ok (some (.bytes (strBytes token)))

/-- The entry is a proof of `u`: it resolves to the root of a sound tree that delegates to `u`. -/
def Proves (D : Deps) (E : Env) (V : Ucan → Prop) (u : Ucan) (s : String) : Prop :=
  ∃ c : Chain, Resolves D (Holds E) s c.ucan ∧ Delegates c.ucan u ∧ Sound D V (Holds E) c

mutual
/-- A UCAN without a sound proof tree, and the failure: its own defect comes first, then the first defective entry of its proof list,
then a redelegation beyond the list. -/
inductive Fails (D : Deps) (E : Env) (nowTime : Option UInt64) (ctors : BMap Bytes KeyCtor) (t : UInt64) : Ucan → Fail → Prop
  | invalid {u : Ucan} {f : Fail} : Invalid nowTime ctors t u f → Fails D E nowTime ctors t u f
  | entry {u : Ucan} {f : Fail} (good : List String) (s : String) (rest : List String) : ValidAt nowTime ctors t u →
      u.payload.prf.getD [] = good ++ s :: rest → (∀ x ∈ good, Proves D E (ValidAt nowTime ctors t) u x) →
      EntryFails D E nowTime ctors t u s f → Fails D E nowTime ctors t u f
  | index {u : Ucan} (c : Capability) (i : Nat) : ValidAt nowTime ctors t u →
      (∀ x ∈ u.payload.prf.getD [], Proves D E (ValidAt nowTime ctors t) u x) →
      c ∈ u.payload.cap.iter → Redelegates D c i → (u.payload.prf.getD []).length ≤ i → Fails D E nowTime ctors t u (.err .noProofAt)
/-- A proof list entry that is no proof of `u`, and the failure: the reference comes first, then the token, then the tree below it, then
the link to `u`. -/
inductive EntryFails (D : Deps) (E : Env) (nowTime : Option UInt64) (ctors : BMap Bytes KeyCtor) (t : UInt64) : Ucan → String → Fail → Prop
  | reference {u : Ucan} {s : String} {f : Fail} : RefFault D E s f → EntryFails D E nowTime ctors t u s f
  | token {u : Ucan} {s : String} {e : Err} (token : String) : Points D E s token → TextFault D (strBytes token) e →
      EntryFails D E nowTime ctors t u s (.err e)
  | proof {u : Ucan} {s : String} {f : Fail} (v : Ucan) : Resolves D (Holds E) s v → Fails D E nowTime ctors t v f →
      EntryFails D E nowTime ctors t u s f
  | audience {u : Ucan} {s : String} (c : Chain) : Resolves D (Holds E) s c.ucan → Sound D (ValidAt nowTime ctors t) (Holds E) c →
      c.ucan.payload.aud ≠ u.payload.iss → EntryFails D E nowTime ctors t u s (.err .audience)
  | lifetime {u : Ucan} {s : String} (c : Chain) : Resolves D (Holds E) s c.ucan → Sound D (ValidAt nowTime ctors t) (Holds E) c →
      c.ucan.payload.aud = u.payload.iss → ¬ Delegates c.ucan u → EntryFails D E nowTime ctors t u s (.err .lifetime)
end

/-- A token without a proof chain, and the failure. -/
def TokenFails (D : Deps) (E : Env) (nowTime : Option UInt64) (ctors : BMap Bytes KeyCtor) (t : UInt64) (token : String) (f : Fail) : Prop :=
  (∃ e, f = .err e ∧ TextFault D (strBytes token) e) ∨ ∃ u, Ucan.fromStr D token = .ok u ∧ Fails D E nowTime ctors t u f

end Verif.Spec
