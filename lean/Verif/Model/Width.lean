import Verif.Model.Chain
import Verif.Model.IpldUcan

/-!
# Targets with a narrower `usize`

`usize` occurs in two places that depend on its width: `ProofSelection::Index(usize)` (`ucan/src/capability/proof.rs` 34-38),
and the length prefix of a signature in IPLD (`ucan/src/ipld/signature.rs` 128). `Model/Proof` and `Model/IpldUcan` model a
64-bit target. Here the width is a parameter: `bound` is one more than the largest `usize`, `2 ^ 32` on `wasm32`, which the
crate supports (`ucan/Cargo.toml` 42-44, `.github/workflows/run_test_suite.yaml` 87-96). Everything that does not depend on the width is shared.
-/

namespace Verif

/-- `str::parse::<usize>` of core on a target with `usize < bound`. -/
def parseUsizeAt (bound : Nat) (s : Bytes) : Option Nat :=
  let ds := match s with
    | 43 :: r => r
    | _ => s
  if ds.isEmpty then none
  else if ds.all Json.isDigit then
    if Json.decVal ds < bound then some (Json.decVal ds) else none
  else none

namespace ProofSelection

/-- `TryFrom<String>` (proof.rs 57-66). -/
def ofStringAt (bound : Nat) (s : String) : Option ProofSelection :=
  if s = "*" then some all else (parseUsizeAt bound (strBytes s)).map index

/-- `TryFrom<Url>` (proof.rs 46-55). -/
def ofUrlAt (bound : Nat) (u : Url) : Option ProofSelection :=
  if u.scheme = "prf" then ofStringAt bound u.path else none

end ProofSelection

/-- `ProofDelegationSemantics` (proof.rs 77-79). -/
def proofSemanticsAt (bound : Nat) : Semantics ProofSelection ProofAction :=
  { proofSemantics with parseScope := ProofSelection.ofUrlAt bound }

namespace Chain

/-- chain.rs 75-104. -/
def redelegationsAt (bound : Nat) (D : Deps) (n : Nat) (u : Ucan) : Res (BSet Nat) :=
  redelLoop n [] (u.capabilities.iter.filterMap ((proofSemanticsAt bound).parseCapability D))

/-- `from_ucan` (chain.rs 52-112) for a given recursive call. -/
def fromUcanWithAt (bound : Nat) (D : Deps) (E : Env) (nowTime : Option UInt64) (rec : String → M Chain) (u : Ucan) : M Chain := do
  u.validate E nowTime
  let proofs ← proofsLoop D E rec u (u.proofs.getD [])
  let redel ← M.lift (redelegationsAt bound D proofs.length u)
  pure (mk u proofs redel)

/-- `try_from_token_string` (chain.rs 135-146), cut off after `fuel` levels. -/
def ofTokenAt (bound : Nat) (D : Deps) (E : Env) (nowTime : Option UInt64) : Nat → String → M Chain
  | 0, _ => M.lift (.error .diverge)
  | fuel + 1, token => do
    let u ← M.lift (Ucan.fromStr D token)
    fromUcanWithAt bound D E nowTime (ofTokenAt bound D E nowTime fuel) u

end Chain

/-- The loop of `unsigned_varint::decode::u32`: at most five bytes, bits beyond the 32nd are lost. -/
def Varint.decodeAux32 : Nat → Nat → Bytes → Option (Nat × Bytes)
  | _, _, [] => none
  | i, acc, b :: bs =>
    let acc' := (acc + (b.toNat % 128) * 2 ^ (7 * i)) % 2 ^ 32
    if b.toNat < 128 then
      if b.toNat = 0 ∧ 0 < i then none else some (acc', bs)
    else if i = 4 then none
    else Varint.decodeAux32 (i + 1) acc' bs

/-- `Signature::decode` (ipld/signature.rs 124-137) with `unsigned_varint::decode::usize` of a 32-bit target; the prefix is
still read as a `u64`. -/
def IpldSig.decode32 (s : IpldSig) : Res (JwtAlg × Bytes) :=
  match Varint.decode s.bytes with
  | none => err .varint
  | some (pre, buffer) =>
    match Varint.decodeAux32 0 0 buffer with
    | none => err .varint
    | some (len, buffer) =>
      match Varsig.ofCode pre with
      | none => err .badVarsig
      | some v =>
        match Varsig.toAlg v with
        | none => err .badAlg
        | some alg => if len ≤ buffer.length then .ok (alg, buffer.take len) else panicked .sliceVarsig

end Verif
