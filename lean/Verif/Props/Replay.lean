import Verif.Model.Builder
import Verif.Model.Chain
import Verif.Model.Fixtures
import Verif.Model.IpldCbor
import Verif.Model.KeySupport
import Verif.Model.UcanJson

/-!
# The repository's own tests, run on the model

These are not theorems about all inputs. Every test of the crate that exercises modelled code is executed on the model by kernel
evaluation, so a model that disagrees with what the tests demand of the code does not build. Signatures, digests and `wnfs://`
URLs are stand-ins and the clock stands still. The names are those of the tests.
-/

namespace Verif
namespace Replay

open Fixtures

/-! ## Stand-ins -/

/-- A stand-in hash: six bytes, distinct on the few texts at hand. -/
def hash (seed : Nat) (b : Bytes) : Bytes :=
  let n := b.foldl (fun (h : Nat) x => (h * 1099511628211 + x.toNat + 1) % 18446744073709551557) (seed + 14695981039346656037)
  [n % 256, n / 256 % 256, n / 65536 % 256, n / 16777216 % 256, n / 4294967296 % 256, n / 1099511627776 % 256].map UInt8.ofNat

def deps : Deps := ⟨fun _ => [], fun _ => none, true, true, fun _ _ => none, fun code b => hash code.toNat b, fun _ => none, fun _ => none, true⟩

/-- Ed25519 replaced by a keyed hash; public and secret key are the same byte. -/
def scheme : SigScheme where
  Pub := UInt8
  Priv := UInt8
  pubOfBytes := fun | [x] => some x | _ => none
  pubBytes x := some [x]
  sign k m := some (hash k.toNat m)
  verify k m s := decide (s = hash k.toNat m)

/-- tests/fixtures/identities.rs 20-60. -/
def key (k : UInt8) : Key := KeySupport.ed25519Key scheme k (some k)
def did (k : UInt8) : String := KeySupport.didOf (Did.ed25519Magic ++ [k])
def aliceKey := key 1
def bobKey := key 2
def malloryKey := key 3
def aliceDid := did 1
def bobDid := did 2
def malloryDid := did 3

/-- tests/fixtures/crypto.rs. -/
def supportedKeys : List (Bytes × KeyCtor) := [(Did.ed25519Magic, KeySupport.ed25519Ctor scheme)]

def now : UInt64 := 1664232146

def env (m : Store.Dags) : Env := ⟨fun _ => now, fun _ => Store.memRead m⟩
def world : World := ⟨0, DidParser.new supportedKeys⟩

/-- The outcome of a computation from a fresh parser. -/
def exec {α : Type} (x : M α) : Res α := (x world).1

def noDags : Store.Dags := fun _ => none

/-- `.build()?.sign().await?` -/
def signed (b : Builder) : Res Ucan := do (← exec (b.build (env noDags) true)).sign deps [7, 7]

/-- `.write_token(..)` of several tokens to a fresh `MemoryStore`. -/
def stored (l : List Ucan) : Store.Dags := l.foldl (fun m u => (Store.writeToken deps m (u.encode deps)).2) noDags

def chainOf (m : Store.Dags) (token : String) : Res Chain := exec (Chain.ofToken deps (env m) none 9 token)

/-- The test's `unwrap`s and `assert`s all go through. -/
def Passes (r : Res Bool) : Bool := match r with
  | .ok b => b
  | .error _ => false

def isErr {α : Type} : Res α → Bool
  | .error (.err _) => true
  | _ => false

def isOk {α : Type} : Res α → Bool
  | .ok _ => true
  | _ => false

def getView {S A : Type} (sem : Semantics S A) (r a : String) : Res (View S A) := orErr .json (sem.parse deps r a none)

abbrev B := Builder.default

/-! ## tests/chain.rs -/

def it_decodes_deep_ucan_chains : Res Bool := do
  let leaf ← signed (((B.issuedBy aliceKey).forAudience bobDid).withLifetime 60)
  let delegated ← signed ((((B.issuedBy bobKey).forAudience malloryDid).withLifetime 50).witnessedBy deps leaf none)
  let chain ← chainOf (stored [leaf]) (delegated.encode deps)
  pure (chain.ucan.audience = malloryDid ∧ chain.proofs.map (·.ucan.issuer) = [aliceDid])

example : Passes it_decodes_deep_ucan_chains = true := by decide +kernel

def it_fails_with_incorrect_chaining : Res Bool := do
  let leaf ← signed (((B.issuedBy aliceKey).forAudience bobDid).withLifetime 60)
  let delegated ← signed ((((B.issuedBy aliceKey).forAudience malloryDid).withLifetime 50).witnessedBy deps leaf none)
  pure (isErr (chainOf (stored [leaf]) (delegated.encode deps)))

example : Passes it_fails_with_incorrect_chaining = true := by decide +kernel

def it_can_be_instantiated_by_cid : Res Bool := do
  let leaf ← signed (((B.issuedBy aliceKey).forAudience bobDid).withLifetime 60)
  let delegated ← signed ((((B.issuedBy bobKey).forAudience malloryDid).withLifetime 50).witnessedBy deps leaf none)
  let (r, m) := Store.writeToken deps (stored [leaf]) (delegated.encode deps)
  let chain ← exec (Chain.fromCid deps (env m) none 9 (← r))
  pure (chain.ucan.audience = malloryDid ∧ chain.proofs.map (·.ucan.issuer) = [aliceDid])

example : Passes it_can_be_instantiated_by_cid = true := by decide +kernel

def it_can_handle_multiple_leaves : Res Bool := do
  let leaf1 ← signed (((B.issuedBy aliceKey).forAudience bobDid).withLifetime 60)
  let leaf2 ← signed (((B.issuedBy malloryKey).forAudience bobDid).withLifetime 60)
  let delegated ← signed (((((B.issuedBy bobKey).forAudience aliceDid).withLifetime 50).witnessedBy deps leaf1 none).witnessedBy deps leaf2 none)
  pure (isOk (chainOf (stored [leaf1, leaf2]) (delegated.encode deps)))

example : Passes it_can_handle_multiple_leaves = true := by decide +kernel

def it_can_use_a_custom_timestamp_to_validate_a_ucan : Res Bool := do
  let leaf ← signed (((B.issuedBy aliceKey).forAudience bobDid).withLifetime 60)
  let delegated ← signed ((((B.issuedBy bobKey).forAudience malloryDid).withLifetime 50).witnessedBy deps leaf none)
  let (r, m) := Store.writeToken deps (stored [leaf]) (delegated.encode deps)
  let cid ← r
  pure (isOk (exec (Chain.fromCid deps (env m) (some now) 9 cid)) && isErr (exec (Chain.fromCid deps (env m) (some (now + 61)) 9 cid)))

example : Passes it_can_use_a_custom_timestamp_to_validate_a_ucan = true := by decide +kernel

/-! ## tests/attenuation.rs -/

def mailto (r : String) : Res (View EmailAddress EmailAction × Capability) := do
  let v ← getView emailSemantics r "email/send"
  pure (v, emailSemantics.toCapability v)

def it_works_with_a_simple_example : Res Bool := do
  let (_, asAlice) ← mailto "mailto:alice@email.com"
  let leaf ← signed ((((B.issuedBy aliceKey).forAudience bobDid).withLifetime 60).claimingCapability asAlice)
  let attenuated ← signed (((((B.issuedBy bobKey).forAudience malloryDid).withLifetime 50).witnessedBy deps leaf none).claimingCapability asAlice)
  let infos ← Reduce.reduce deps emailSemantics (← chainOf (stored [leaf]) (attenuated.encode deps))
  pure (infos.map (fun i => (i.capability.resource.toStr emailSemantics.scopeStr, emailSemantics.actionStr i.capability.ability)) =
    [("mailto:alice@email.com", "email/send")])

example : Passes it_works_with_a_simple_example = true := by decide +kernel

def it_reports_the_first_issuer_in_the_chain_as_originator : Res Bool := do
  let (v, asBob) ← mailto "mailto:bob@email.com"
  let leaf ← signed (((B.issuedBy aliceKey).forAudience bobDid).withLifetime 60)
  let u ← signed (((((B.issuedBy bobKey).forAudience malloryDid).withLifetime 50).witnessedBy deps leaf none).claimingCapability asBob)
  let infos ← Reduce.reduce deps emailSemantics (← chainOf (stored [leaf]) (u.encode deps))
  pure (infos.map (fun i => (i.originators, i.capability)) = [([bobDid], v)])

example : Passes it_reports_the_first_issuer_in_the_chain_as_originator = true := by decide +kernel

/-- The capability of Bob comes first: the merge takes from the end. -/
def it_finds_the_right_proof_chain_for_the_originator : Res Bool := do
  let (vb, asBob) ← mailto "mailto:bob@email.com"
  let (va, asAlice) ← mailto "mailto:alice@email.com"
  let leafAlice ← signed ((((B.issuedBy aliceKey).forAudience malloryDid).withLifetime 60).claimingCapability asAlice)
  let leafBob ← signed ((((B.issuedBy bobKey).forAudience malloryDid).withLifetime 60).claimingCapability asBob)
  let u ← signed (((((((B.issuedBy malloryKey).forAudience aliceDid).withLifetime 50).witnessedBy deps leafAlice none).witnessedBy deps leafBob
    none).claimingCapability asAlice).claimingCapability asBob)
  let infos ← Reduce.reduce deps emailSemantics (← chainOf (stored [leafAlice, leafBob]) (u.encode deps))
  pure (infos = [⟨[bobDid], u.notBefore, u.expiresAt, vb⟩, ⟨[aliceDid], u.notBefore, u.expiresAt, va⟩])

example : Passes it_finds_the_right_proof_chain_for_the_originator = true := by decide +kernel

def it_reports_all_chain_options : Res Bool := do
  let (va, asAlice) ← mailto "mailto:alice@email.com"
  let leafAlice ← signed ((((B.issuedBy aliceKey).forAudience malloryDid).withLifetime 60).claimingCapability asAlice)
  let leafBob ← signed ((((B.issuedBy bobKey).forAudience malloryDid).withLifetime 60).claimingCapability asAlice)
  let u ← signed ((((((B.issuedBy malloryKey).forAudience aliceDid).withLifetime 50).witnessedBy deps leafAlice none).witnessedBy deps leafBob
    none).claimingCapability asAlice)
  let infos ← Reduce.reduce deps emailSemantics (← chainOf (stored [leafAlice, leafBob]) (u.encode deps))
  pure (infos = [⟨[aliceDid, bobDid], u.notBefore, u.expiresAt, va⟩])

example : Passes it_reports_all_chain_options = true := by decide +kernel

def cav (l : List String) : Capability := ⟨"mailto:alice@email.com", "email/send", .obj (l.map fun k => (k, .bool true))⟩

/-- `enables_capabilities` (attenuation.rs 401-425). -/
def enablesCapabilities (infos : List (Info EmailAddress EmailAction)) (originator : String) (desired : List Capability) : Bool :=
  desired.all fun c => infos.any fun i => decide (originator ∈ i.originators) &&
    match emailSemantics.parseCapability deps c with
    | some v => emailSemantics.enables i.capability v
    | none => false

/-- `test_capabilities_delegation` (attenuation.rs 341-398). -/
def delegation (proof delegated : List Capability) : Res Bool := do
  let p ← signed ((((B.issuedBy aliceKey).forAudience malloryDid).withLifetime 60).claimingCapabilities proof)
  let u ← signed (((((B.issuedBy malloryKey).forAudience aliceDid).withLifetime 50).witnessedBy deps p none).claimingCapabilities delegated)
  let infos ← Reduce.reduce deps emailSemantics (← exec (Chain.fromUcan deps (env (stored [p, u])) none 9 u))
  pure (enablesCapabilities infos aliceDid delegated)

def it_validates_caveats : Res Bool := do
  let no := cav []
  let x := cav ["x"]
  let y := cav ["y"]
  let z := cav ["z"]
  let yz := cav ["y", "z"]
  let valid ← [([no], [no]), ([x], [x]), ([no], [x]), ([x, y], [x]), ([x, y], [x, yz])].mapM fun (a, b) => delegation a b
  let invalid ← [([x], [no]), ([x], [y]), ([x, y], [x, y, z])].mapM fun (a, b) => delegation a b
  pure (valid.all (· = true) && invalid.all (· = false))

example : Passes it_validates_caveats = true := by decide +kernel

/-! ## tests/builder.rs -/

def wnfs (r a : String) : Res Capability := do pure (wnfsSemantics.toCapability (← getView wnfsSemantics r a))

def it_builds_with_a_simple_example : Res Bool := do
  let fact1 : Json := .obj [("test", .bool true)]
  let fact2 : Json := .obj [("hash", .str "sth"), ("preimage", .str "abc")]
  let (_, cap1) ← mailto "mailto:alice@gmail.com"
  let cap2 ← wnfs "wnfs://alice.fission.name/public" "wnfs/super_user"
  let u ← signed ((((((((((B.issuedBy aliceKey).forAudience bobDid).withExpiration (now + 30)).withNotBefore (now - 30)).withFact
    "abc/challenge" (some fact1)).withFact "def/challenge" (some fact2)).claimingCapability cap1).claimingCapability cap2).withNonce))
  let expected ← Capabilities.ofVec [cap1, cap2]
  pure (u.issuer = aliceDid ∧ u.audience = bobDid ∧ u.expiresAt = some (now + 30) ∧ u.notBefore = some (now - 30) ∧
    u.payload.fct = some [("abc/challenge", fact1), ("def/challenge", fact2)] ∧ u.capabilities = expected ∧ u.payload.nnc.isSome)

example : Passes it_builds_with_a_simple_example = true := by decide +kernel

def it_builds_with_lifetime_in_seconds : Res Bool := do
  let u ← signed (((B.issuedBy aliceKey).forAudience bobDid).withLifetime 300)
  pure (match u.expiresAt with
    | some e => decide (e > now + 290)
    | none => false)

example : Passes it_builds_with_lifetime_in_seconds = true := by decide +kernel

def it_prevents_duplicate_proofs : Res Bool := do
  let parent ← wnfs "wnfs://alice.fission.name/public" "wnfs/super_user"
  let u ← signed ((((B.issuedBy aliceKey).forAudience bobDid).withLifetime 30).claimingCapability parent)
  let cap1 ← wnfs "wnfs://alice.fission.name/public/Apps" "wnfs/create"
  let cap2 ← wnfs "wnfs://alice.fission.name/public/Domains" "wnfs/create"
  let next ← signed ((((((B.issuedBy bobKey).forAudience malloryDid).withLifetime 30).witnessedBy deps u none).claimingCapability
    cap1).claimingCapability cap2)
  pure (next.proofs = some [(u.toCid deps Builder.defaultHasher).toStr])

example : Passes it_prevents_duplicate_proofs = true := by decide +kernel

/-- `Code::Blake2b256`. -/
def blake2b : UInt64 := 0xb220

/-- `Blake2bMemoryStore` (tests/fixtures/store.rs 18-50). -/
def blake2bWrite (m : Store.Dags) (u : Ucan) : Store.Dags :=
  let b := strBytes (u.encode deps)
  let cid : Cid := ⟨true, Cid.rawCodec, blake2b, deps.digest blake2b b⟩
  fun c => if c = cid then some b else m c

def it_can_use_custom_hasher : Res Bool := do
  let leaf ← signed (((B.issuedBy aliceKey).forAudience bobDid).withLifetime 60)
  let delegated ← signed (((((B.issuedBy aliceKey).issuedBy bobKey).forAudience malloryDid).withLifetime 50).witnessedBy deps leaf (some blake2b))
  let m := blake2bWrite (blake2bWrite noDags leaf) delegated
  pure (isOk (exec (Chain.fromUcan deps (env m) (some now) 9 delegated)))

example : Passes it_can_use_custom_hasher = true := by decide +kernel

/-! ## tests/capability.rs -/

def it_can_cast_between_map_and_sequence : Res Bool := do
  let foo : Capability := ⟨"example://foo", "ability/foo", .obj []⟩
  let bar1 : Capability := ⟨"example://bar", "ability/bar", .obj [("beep", .int 1)]⟩
  let bar2 : Capability := ⟨"example://bar", "ability/bar", .obj [("boop", .int 1)]⟩
  let m ← Capabilities.ofValue (.obj [("example://bar", .obj [("ability/bar", .arr [.obj [("beep", .int 1)], .obj [("boop", .int 1)]])]),
    ("example://foo", .obj [("ability/foo", .arr [.obj []])])])
  pure (m.iter = [bar1, bar2, foo] ∧ (← Capabilities.ofVec [bar1, bar2, foo]) = m)

example : Passes it_can_cast_between_map_and_sequence = true := by decide +kernel

def it_rejects_non_compliant_json : Bool :=
  [Json.arr [], .obj [("resource:foo", .arr [])], .obj [("resource:foo", .obj [])], .obj [("resource:foo", .obj [("ability/read", .obj [])])],
    .obj [("resource:foo", .obj [("ability/read", .arr [.int 1])])]].all (fun j => isErr (Capabilities.ofValue j)) &&
  isOk (Capabilities.ofValue (.obj [("resource:foo", .obj [("ability/read", .arr [.obj []])])]))

example : it_rejects_non_compliant_json = true := by decide +kernel

def it_filters_out_empty_caveats_when_iterating : Res Bool := do
  let m ← Capabilities.ofValue (.obj [("example://bar", .obj [("ability/bar", .arr [.obj []])]), ("example://foo", .obj [("ability/foo", .arr [])])])
  pure (m.iter = [⟨"example://bar", "ability/bar", .obj []⟩])

example : Passes it_filters_out_empty_caveats_when_iterating = true := by decide +kernel

/-! ## tests/ucan.rs -/

def it_round_trips_with_encode : Res Bool := do
  let u ← signed (((B.issuedBy aliceKey).forAudience bobDid).withLifetime 30)
  let v ← Ucan.fromStr deps (u.encode deps)
  pure (isOk (exec (v.validate (env noDags) none)))

example : Passes it_round_trips_with_encode = true := by decide +kernel

def it_identifies_a_ucan_that_is_not_active_yet : Res Bool := do
  let u ← signed ((((B.issuedBy aliceKey).forAudience bobDid).withNotBefore (now + 30)).withLifetime 30)
  exec (u.isTooEarly (env noDags))

example : Passes it_identifies_a_ucan_that_is_not_active_yet = true := by decide +kernel

def it_identifies_a_ucan_that_has_become_active : Res Bool := do
  let u ← signed ((((B.issuedBy aliceKey).forAudience bobDid).withNotBefore (now / 1000)).withLifetime 30)
  pure (!(← exec (u.isTooEarly (env noDags))))

example : Passes it_identifies_a_ucan_that_has_become_active = true := by decide +kernel

def nat (n : UInt64) : Json := .int n.toNat

/-- `serde_json::to_value` sorts the members. -/
def it_can_be_serialized_as_json : Res Bool := do
  let (_, asAlice) ← mailto "mailto:alice@email.com"
  let u ← signed ((((((B.issuedBy aliceKey).forAudience bobDid).withNotBefore (now / 1000)).withLifetime 30).withFact "abc/challenge"
    (some (.obj [("foo", .str "bar")]))).claimingCapability asAlice)
  pure (Json.print deps (Codec.ucanJson u) = Json.print deps (.obj [("header", .obj [("alg", .str "EdDSA"), ("typ", .str "JWT")]),
    ("payload", .obj [("aud", .str u.audience), ("cap", .obj [("mailto:alice@email.com", .obj [("email/send", .arr [.obj []])])]),
      ("exp", nat (now + 30)), ("fct", .obj [("abc/challenge", .obj [("foo", .str "bar")])]), ("iss", .str u.issuer), ("nbf", nat (now / 1000)),
      ("ucv", .str ucanVersion)]),
    ("signature", .arr (u.signature.map fun x => .int x.toNat)), ("signed_data", .arr (u.signedData.map fun x => .int x.toNat))]))

example : Passes it_can_be_serialized_as_json = true := by decide +kernel

def it_can_be_serialized_as_json_without_optionals : Res Bool := do
  let u ← signed ((B.issuedBy aliceKey).forAudience bobDid)
  pure (Json.print deps (Codec.ucanJson u) = Json.print deps (.obj [("header", .obj [("alg", .str "EdDSA"), ("typ", .str "JWT")]),
    ("payload", .obj [("aud", .str u.audience), ("cap", .obj []), ("exp", .null), ("iss", .str u.issuer), ("ucv", .str ucanVersion)]),
    ("signature", .arr (u.signature.map fun x => .int x.toNat)), ("signed_data", .arr (u.signedData.map fun x => .int x.toNat))]))

example : Passes it_can_be_serialized_as_json_without_optionals = true := by decide +kernel

def it_implements_partial_eq : Res Bool := do
  let a ← signed (((B.issuedBy aliceKey).forAudience bobDid).withExpiration 10000000)
  let b ← signed (((B.issuedBy aliceKey).forAudience bobDid).withExpiration 10000000)
  let c ← signed (((B.issuedBy aliceKey).forAudience bobDid).withExpiration 20000000)
  pure (decide (a = b) && decide (a ≠ c))

example : Passes it_implements_partial_eq = true := by decide +kernel

def test_lifetime_ends_after : Res Bool := do
  let forever ← signed ((B.issuedBy aliceKey).forAudience bobDid)
  let early ← signed (((B.issuedBy aliceKey).forAudience bobDid).withLifetime 2000)
  let later ← signed (((B.issuedBy aliceKey).forAudience bobDid).withLifetime 4000)
  pure (forever.expiresAt = none ∧ forever.lifetimeEndsAfter early ∧ !early.lifetimeEndsAfter forever ∧ later.lifetimeEndsAfter early)

example : Passes test_lifetime_ends_after = true := by decide +kernel

/-! ## ipld/principle.rs, ipld/signature.rs, ipld/ucan.rs, tests/crypto.rs -/

def it_round_trips_a_principle_did : Res Bool := do
  let a ← Principle.ofStr "did:key:z6MkhaXgBZDvotDkL5257faiztiGiC2QtKLGpbnnEGta2doK"
  let b ← Principle.ofStr "did:web:example.com"
  pure ((← a.toStr) = "did:key:z6MkhaXgBZDvotDkL5257faiztiGiC2QtKLGpbnnEGta2doK" ∧ (← b.toStr) = "did:web:example.com")

example : Passes it_round_trips_a_principle_did = true := by decide +kernel

def it_can_convert_between_jwt_and_bytesprefix_form : Res Bool := do
  let s ← orErr .base64 (Base64.decode (strBytes "Ab-xfYRoqYEHuo-252MKXDSiOZkLD-h1gHt8gKBP0AVdJZ6Jruv49TLZOvgWy9QkCpiwKUeGVbHodKcVx-azCQ"))
  pure ((← (IpldSig.ofAlg .EdDSA s).decode) = (.EdDSA, s))

example : Passes it_can_convert_between_jwt_and_bytesprefix_form = true := by decide +kernel

/-- `scaffold_ucan_builder` (tests/helpers.rs 15-58). -/
def scaffold : Res Builder := do
  let (_, asBob) ← mailto "mailto:bob@email.com"
  let (_, asAlice) ← mailto "mailto:alice@email.com"
  let leafAlice ← signed ((((B.issuedBy aliceKey).forAudience malloryDid).withExpiration 1664232146010).claimingCapability asAlice)
  let leafBob ← signed ((((B.issuedBy bobKey).forAudience malloryDid).withExpiration 1664232146010).claimingCapability asBob)
  pure (((((((B.issuedBy malloryKey).forAudience aliceDid).withExpiration 1664232146010).witnessedBy deps leafAlice none).witnessedBy deps
    leafBob none).claimingCapability asAlice).claimingCapability asBob)

/-- The objects of `json!` are maps, into which members are inserted in the order of the text. -/
def it_produces_canonical_jwt_despite_json_ambiguity : Res Bool := do
  let b ← scaffold
  let canon ← signed (b.withFact "abc/challenge" (some (.obj (BMap.ofList [("baz", .bool true), ("foo", .str "bar")]))))
  let other ← signed (b.withFact "abc/challenge" (some (.obj (BMap.ofList [("foo", .str "bar"), ("baz", .bool true)]))))
  pure (decide (canon.encode deps = other.encode deps))

example : Passes it_produces_canonical_jwt_despite_json_ambiguity = true := by decide +kernel

def it_stays_canonical_when_converting_between_jwt_and_ipld : Res Bool := do
  let b ← scaffold
  let u ← signed ((b.withFact "abc/challenge" (some (.obj [("baz", .bool true), ("foo", .str "bar")]))).withNonce)
  let jwt := u.encode deps
  let v ← Ucan.fromStr deps jwt
  let x ← UcanIpld.ofUcan deps v
  let y ← orErr .json (UcanIpld.ofCbor 256 x.toCbor)
  let w ← UcanIpld.toUcan deps y
  pure (decide (w.encode deps = jwt))

example : Passes it_stays_canonical_when_converting_between_jwt_and_ipld = true := by decide +kernel

def it_handles_ed25519_keys : Bool :=
  match Base64.decode (strBytes "Hv-AVRD2WUjUFOsSNbsmrp9fokuwrUnjBcr92f0kxw4") with
  | some pub => KeySupport.didOf (Did.ed25519Magic ++ pub) = "did:key:z6MkgYGF3thn8k1Fv4p4dWXKtsXCnLH7q9yw4QgNPULDmDKB"
  | none => false

example : it_handles_ed25519_keys = true := by decide +kernel

end Replay
end Verif
