/-!
# Outcomes

`anyhow::Error` values are tagged by the place that raises them; the texts are not modelled.
-/

namespace Verif

/-- Where an `Err(..)` came from. -/
inductive Err where
  | expired            -- ucan.rs 75
  | tooEarly           -- ucan.rs 79
  | base64             -- ucan.rs 238-261
  | json               -- ucan.rs 244-256
  | missingPart        -- ucan.rs 244-261
  | notDidKey          -- did.rs 44
  | base58             -- did.rs 52
  | unknownMagic       -- did.rs 64
  | keyCtor            -- a key constructor refuses the bytes
  | badSignature       -- a key's verify
  | noPrivateKey       -- a key's sign
  | keyDid             -- a key's get_did
  | cidText            -- chain.rs 67
  | wrongCodec         -- store.rs 77
  | noToken            -- store.rs 85
  | utf8               -- store.rs 84
  | storeIo            -- a store's own error
  | audience           -- chain.rs 157
  | lifetime           -- chain.rs 155
  | noProofAt          -- chain.rs 97
  | caveatNotObject    -- data.rs 159
  | noAbilities        -- data.rs 182
  | capsShape          -- data.rs 195-215
  | missingIssuer      -- builder.rs 307
  | missingAudience    -- builder.rs 305
  | notDid             -- principle.rs
  | badAlg             -- signature.rs (strum)
  | badVarsig          -- signature.rs
  | varint             -- signature.rs
  | webCrypto          -- web_crypto.rs: a JavaScript error
deriving DecidableEq, Repr

/-- Where a Rust panic comes from. -/
inductive Panic where
  | sliceDid           -- did.rs 53: `did_bytes[0..2]`
  | slicePrinciple     -- principle.rs: `self.0[0..2]`
  | displayUtf8        -- `to_string` on a failing Display
  | sliceVarsig        -- signature.rs: `buffer[..signature_length]`
  | unwrapProof        -- chain.rs 205
  | unwrapCapability   -- tests/attenuation.rs 433
  | expectPayload      -- builder.rs 93
  | addOverflow        -- builder.rs 288 (debug builds)
  | unwrapNow          -- time.rs 6: `unwrap` on a time before 1970
  | sliceSpki          -- web_crypto.rs 15: `spki_bytes[24..]`
  | expectCrypto       -- web_crypto.rs 30, 115-122: `expect` on the WebCrypto API
deriving DecidableEq, Repr

/-- A computation that does not return a value. -/
inductive Fail where
  | err (e : Err)
  | panic (p : Panic)
  | diverge
deriving DecidableEq, Repr

abbrev Res (α : Type) := Except Fail α

/-- `Err(e)`. -/
abbrev err {α : Type} (e : Err) : Res α := .error (.err e)
/-- A panic. -/
abbrev panicked {α : Type} (p : Panic) : Res α := .error (.panic p)

/-- `ok_or(e)`. -/
def orErr {α : Type} (e : Err) : Option α → Res α
  | some a => .ok a
  | none => err e

theorem orErr_eq_ok {α : Type} {e : Err} {o : Option α} {a : α} : orErr e o = .ok a ↔ o = some a := by
  cases o <;> simp [orErr, err]

instance [DecidableEq α] [DecidableEq ε] : DecidableEq (Except ε α)
  | .ok a, .ok b => if h : a = b then .isTrue (h ▸ rfl) else .isFalse (fun e => h (by cases e; rfl))
  | .error a, .error b => if h : a = b then .isTrue (h ▸ rfl) else .isFalse (fun e => h (by cases e; rfl))
  | .ok _, .error _ => .isFalse (fun e => by cases e)
  | .error _, .ok _ => .isFalse (fun e => by cases e)

end Verif
