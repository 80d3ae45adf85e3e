# Design of the Lean 4 model of rs-ucan

Source: `/repo` (ucan-wg/rs-ucan at the pinned commit), read as text. The Lean project is `/verif/lean`.

## 1. Trusted base

* Lean's kernel (4.33.0). Every theorem depends on a subset of `propext`, `Classical.choice`, `Quot.sound`;
  `AXIOMS.md` lists the subset for each property theorem (output of `Lean.collectAxioms`). No axioms are declared,
  no `sorry`, no `native_decide`, no `bv_decide`. Mathlib is not imported.
* The translation from Rust to Lean. Each definition cites the file and lines it transcribes.
* The behaviour of third-party crates, which are not in `/repo`. It is transcribed from their
  documentation and from knowledge of their source, as listed in section 3. Where a crate's
  behaviour is a matter of version, or is not needed, it is a *parameter* of the model (a field of
  a structure over which the theorems quantify) so that no theorem depends on a guess.

## 2. What is modelled

| Rust | Lean module | How |
|---|---|---|
| `String`, `Vec<u8>` | `Verif/Base/Bytes` | Lean `String` (UTF-8 bytes plus a validity proof, like Rust's) and `List UInt8`. |
| `BTreeMap`, `BTreeSet` | `Verif/Base/BTree` | association lists strictly sorted by the bytewise key order. |
| base64url (no pad) | `Verif/Codec/Base64` | executable encoder and strict decoder. |
| bs58 | `Verif/Codec/Base58` | executable big-number encoder/decoder. |
| unsigned-varint | `Verif/Codec/Varint` | executable, with the crate's 10 byte limit, minimality check and truncating shift. |
| serde_json / libipld-json text | `Verif/Codec/Json` | byte level printer and recursive descent parser (escapes, surrogates, depth limit 128, numbers). |
| serde data model for header/payload | `Verif/Model/Payload` | field by field encode/decode as derived by serde. |
| cid, multihash, multibase | `Verif/Codec/Cid` | CIDv0/v1 bytes; base32-lower and base58btc text; other multibases a parameter; digest function a parameter. |
| url | `Verif/Model/Url`, `Verif/Model/Ipv6`, `Verif/Model/Ipv4` | all schemes but `file` (opaque, hierarchical and special) with users, ports, IPv4 and IPv6 addresses, executable; `file` and domains that are not plain ASCII through parameters (`Deps.urlFile`, `Deps.idna`). |
| `capability/*` | `Verif/Model/Caveat`, `Capability`, `Semantics`, `Proof` | function by function, generic over scope and ability. |
| `crypto/*` | `Verif/Model/Did`, `Verif/Model/IpldUcan` (algorithm names) | a key is a record of functions; `DidParser` carries its cache. |
| `time.rs`, stores as seen by a reader | `Verif/Model/World` | clock and store contents are functions of a tick. |
| `ucan.rs` | `Verif/Model/Ucan` | all functions. |
| `builder.rs` | `Verif/Model/Builder` | all functions; randomness and clock are inputs. |
| `store.rs` | `Verif/Model/Store` | `read_token`, `require_token`, `write_token`; memory store as shared map; histories of operations of clones. |
| `chain.rs` | `Verif/Model/Chain` | `from_ucan` (with fuel; running out is a separate outcome), `from_cid`, `try_from_token_string`, `validate_link_to`, `reduce_capabilities`. |
| `ipld/*` | `Verif/Model/IpldUcan` | all functions. |
| `ucan-key-support` | `Verif/Model/KeySupport` | Ed25519, P-256, RSA over an abstract signature scheme. |

Failures are values: `Fail.err` (an `Err(..)`), `Fail.panic` (a Rust panic) and `Fail.diverge` (the fuel of the
recursion ran out). State that Rust mutates (`&mut DidParser`) is threaded and kept on errors too. The clock and
the store contents are functions of a tick that advances at each reading, so clocks may move and other threads
may write between any two steps.

`Model/*Lemmas` and `Codec/JsonLemmas` hold helper lemmas only.

Validation is also modelled as a future that is polled (`Model/Async`, C92). Not modelled: `Debug` output other than that of reports (C107), the texts of errors other than those with which this library refuses tokens (C119), logging, `wasm32` specifics, key generation and the
JavaScript side of `web_crypto.rs` (a parameter), memory exhaustion and native stack overflow (how deep
validation nests is determined by C106; unbounded recursion is `Fail.diverge`), and the error texts.

Further simplifications, none of which any theorem statement hides:

* `serde_json` is taken without its `preserve_order` and `arbitrary_precision` features.
* Bytes in DAG-JSON use the multibase prefix `m` (base64) through the parameter `Deps.otherBase`.
* A poisoned mutex (a thread that panicked while holding the store's lock) is a store whose reads and writes fail: `Env.read` includes it, the memory store of `Model/Store` does not.
* A system clock before 1970 makes `now()` panic. `Model/Clock` (C101) has such clocks; everywhere else a clock reading is a number.
* `usize` has 64 bits, except in `Model/Width` (C90), which compares it with a width of 32 bits.
* Trailing spaces of an opaque URL path are kept, as older versions of the `url` crate do.
* The provided methods of `CapabilitySemantics` may be overridden (`Semantics.overridden`), by pure functions. `parse_scope` and `parse_action` are arbitrary. Theorems about what the provided methods read (C20, C60, C89) assume that they are not overridden; those about chains do not.
* The `KeyMaterial` functions have no state: `sign`, `verify` and `get_did` are functions of their arguments.

## 3. Dependency behaviour taken as given

* base64 `URL_SAFE_NO_PAD`: no padding accepted, non-zero trailing bits rejected.
* serde_json printer: minimal escapes `\" \\ \b \t \n \f \r \u00xx`; parser: RFC 8259, recursion limit 128,
  lone surrogates rejected, integers that fit i64/u64 are integers, others floats. Float text conversion is a parameter.
* libipld DAG-JSON: map keys sorted; `{"/": string}` is a link and `{"/": {"bytes": string}}` bytes; bytes after the
  first JSON value are ignored; map keys repeated in the text: the last one wins.
* serde derive: missing `Option` fields are `None`, unknown fields ignored, `u64` range checked. Whether
  `serde_json::Value` accepts IPLD integers (`visit_i128`, depends on the serde_json version) is a parameter.
  Whether libipld's deserialiser builds structs from lists as well as from maps is a parameter.
* `PartialEq` of `serde_json::Value`: structural, an integer never equals a double, doubles by `f64 ==` (all are finite).
* bs58: Bitcoin alphabet, leading zeros as `1`.
* url: see `Verif/Model/Url`.
* cid: text of a v1 CID is `b` + base32-lower; text starting with `Qm` and of length 46 is a v0 CID; `/ipfs/` prefixes are cut.
* Signature schemes and hash functions are arbitrary functions; correctness, unforgeability and collision
  freedom appear only as explicit hypotheses of the theorems that need them.

## 4. Plan per property

Properties are in `properties.jsonl`; theorems live in `Verif/Props/*` and are named after the property (`C21_…`); specifications
that do not use model helpers are in `Verif/Spec/*`. Beside each theorem an `example` instantiates its hypotheses. "N" marks a
property the code violates: its theorems are a proof of the negation on a concrete witness, a `_partial` theorem stating the largest
true part, and where possible the exact condition.

* C01-C09 (token codec, `Props/Token`): round trip by induction over JSON values with continuation-style parser lemmas
  (`parse (print v ++ rest) = (v, rest)`); base64 both directions by chunk induction; injectivity from decode∘encode. N: C04.
  C06 and C08 contain witnesses of the limits their statements name.
* C10-C12 (`Props/Time`): case analysis over `Option UInt64`; interval semantics as a spec over all instants. N: C12.
* C13-C17 (`Props/Capability`): order theory; permutation and sortedness of grouping by induction.
* C18 (`Props/Token`, `Props/Builder`): which tokens carry ill-formed capability maps. N.
* C19, C20 (`Props/ProofSemantics`): decimal numerals, URL splitting. N: both.
* C21-C26, C36, C37 (`Props/Chain`, examples in `Props/ChainExamples`): an inductive specification of authentic proof trees, soundness by
  induction on fuel, completeness by induction on the specification, DID-cache invariant threaded through; monotonicity of tick-indexed stores for C37.
* C27-C35 (`Props/Reduce`, examples in `Props/ReduceExamples`): an inductive relation "identity o granted capability c through this tree",
  soundness and completeness of the reduction by induction over the tree, loop invariants for the merge loop. N: C31, C34, C35.
* C38-C40 (`Props/Did`): cache coherence invariant over histories of `parse` calls; base58 both directions. N: C39.
* C41-C43, C58, C59 (`Props/Crypto`): key DIDs; sign then verify; unforgeability as a hypothesis. N: C58, C59.
* C44-C47, C57, C64 (`Props/Ipld`): varint by induction; varsig; principals; conversions both ways. N: C45, C46.
* C48-C50, C56, C61-C63 (`Props/Store`, `Props/StoreTokens`): invariants over operation histories; base32 and varint round trips for CIDs; content addressing.
* C51-C54 (`Props/Builder`): induction over call sequences. N: C52, C54.
* C55 (`Props/EndToEnd`): a token tree built by the builder, written to a store and reduced; composition of the previous results by tree induction.
* C65-C67 (`Props/Authority`): authority paths through signed tokens, composed from C21-C25, C28, C32, C33 and C43; exchange of the validity predicate in a sound tree; proof lists as prefixes.
* C68 (`Props/Cost`): exact count of environment readings by induction on the tree; a family of tokens that cite their predecessor twice. N.
* C69 (`Props/Encoding`, `Props/CidText`): the encodings are compared with definitions by bit strings and by numerals (`Spec/Encoding`), both directions.
* C70 (`Props/CidText`): an inductive description of CID texts (`Spec/Cid`), equivalence with the parser, and the family of further texts.
* C71 (`Props/JsonText`): the RFC 8259 grammar as an inductive relation between texts and values (`Spec/Json`); soundness of the recursive descent by induction on fuel, completeness by induction on derivations.
* C72 (`Props/Wire`): a specification of header, payload and token texts that uses no codec (`Spec/Wire`), equivalent to parsing (composition of C69-C71 with an analysis of the DAG-JSON reading) and met by what is written.
* C73 (`Props/Cbor`, `Props/IpldCbor`). `Codec/Cbor` models `serde_ipld_dagcbor::{to_vec, from_slice}` on trees, `Model/IpldCbor` the derived serde of `UcanIpld`. `Spec/Cbor` states RFC 8949 and the strict DAG-CBOR form as relations between bytes and trees; `Spec/IpldCbor` states what a document must contain. Proved: writer = the unique strict form, reader = the lenient relation within the nesting limit, round trip and injectivity by composing them. The nesting limit is a parameter. Half and single precision doubles are not modelled (nothing in the crate writes them), nor are non-string keys inside ignored entries.
* C74 (`Props/Fixtures`). `Model/Fixtures` models the two semantics of the test fixtures, which are what users start from. Path containment is specified on strings (`Below`) and proved by splitting and joining at slashes; the authority statement instantiates C32. How the texts of `wnfs://` resources are read is C82.
* C75 (`Props/UcanJson`). `Model/UcanJson` models the derived serialisation of `Ucan` on top of that of header and payload. Reading is characterised as in C72, writing against an explicit document (`Spec/UcanJson`). The forgery is proved for every authentic UCAN and every payload of the same issuer; the partial statements say when content is covered and that re-parsing the token is safe.
* C76 (`Props/WebKey`). `Model/KeySupport` models `WebCryptoRsaKeyMaterial` over a parameter for the JavaScript environment. `Spec/Der` specifies DER lengths, INTEGER, `RSAPublicKey` and `SubjectPublicKeyInfo`; from the lengths alone follows for exactly which keys cutting off 24 bytes is right.
* C31, C34, C35, exactly (`Props/Merge`). `Spec/Merge` gives a closed form of what a chain reports, without loops: the entries no earlier entry enables, with the identities of all entries whose first-enabler pointers lead there. The merge loop is proved equal to it by an invariant over the entries not yet popped; bounds on misattribution and the exact conditions for redundancy and hidden claims follow.
* C77 (`Props/DidKey`). `Spec/DidKey` states the did:key method with multicodec codes as numbers, LEB128 and the numeral definition of base58; equality with the code's constants by uniqueness of varints, the visible prefixes by bounds on the number the digits denote.
* C78 (`Props/IpldForm`). `Spec/IpldForm` gives both conversions as relations on single members, with LEB128, base58 and base32 from the numeral specifications; both directions are equivalences, so errors that cancel in a round trip are excluded. The bytes follow with C73, sizes and depth are derived from conditions on the token.
* `Props/Replay` is no property: it runs the crate's own tests (tests/*.rs and the `mod tests` of ipld/*.rs) on the model by kernel evaluation, with stand-ins for signatures, digests and hierarchical URLs. It only supports the fidelity of the model.
* C79 (`Props/Failure`). `Spec/Failure` relates defective inputs to failures: texts by segment, DIDs, UCANs, references, and by a mutual inductive definition UCANs and proof list entries. Each constructor of chains is shown to fail with `f` at some depth exactly if the relation holds; with C24 this leaves endless recursion as the only other outcome.
* C80, C81 (`Props/Depends`). `Spec/Depends` says when two processes are alike for a UCAN and everything it leads to, and which tokens a UCAN hands on whole or merely lists. C80 is a simulation between the two runs, by induction on depth. C81 compares chains through the uniqueness of sound trees and the closed form of `Granted`; the dependence of reports on the order is a witness.
* C82 (`Props/Url`, `Props/SpecialUrl`). `Spec/Url` gives the grammar of URLs of all schemes but `file` as relations: characters that stand for themselves, escapes, the place segments lead to (`Place`), user, password, host, port, query and fragment. `C82_special` is the statement for special schemes, with domains, IPv4 addresses (`Spec/Ipv4`) and default ports. `C82_reads` shows that `Url.parse` accepts exactly these texts and reads exactly these parts; each stage of the parser is related to its relation (invariant of the path state: the stack is the place of the segments read). The WNFS statements follow with C74.
* C83 (`Props/Foreign`). The builder's reference is the CID of `encode` (C51), a memory store returns under it only a text with that hash (C50), so without collision the proof used is the re-serialised content, whose signed bytes are the library's own (`C83_reference`). A token with swapped header members (C06) whose signature is good for the received text only is then never usable (`C83_violated`); the parts that hold are `C83_own_partial`, `C83_received_partial`.
* C84 (`Props/TokenId`). From the round trip (C01) and injectivity of base64. The file also has the exact form of C04, `C04_same_iff`.
* C85 (`Props/Report`). `Spec.SameAuthority` relates chains of the same shape with the same issuers, claims and redelegations; all stages of the reduction respect equality of reports up to bounds, and bounds are settled by C29. `Spec.claimCount` bounds the number of reports.
* C86 (`Props/Verify`). `Spec/Verify` says what a good signature is in terms of the schemes and the did:key method (C77) only. What a parser with the three key types denotes is computed once (`Standard.denotes`); acceptance then follows from C12, C21 and the verify functions. `C86_unforgeable` reduces the hypothesis of C43 and C65 to one about the schemes.
* C87 (`Props/Check`, partial: the code violates it). `Model/Check` models the check of the tests (attenuation.rs 418-444); `Spec/Check` says what it decides and what a service wants to know (`Vouched`). `C87_report` computes the report of a token signed by the builder that claims more than it was given and redelegates, for every semantics, store and clock; `C87_escalation` and `C87_no_check` follow. `C87_complete`, `C87_sole_partial` and `C87_separate_partial` are what remains true, from C31–C33.
* C88 (`Props/Doc`). `Model/Doc` models the two programs in the crate's documentation (lib.rs 18-67) with the modelled builder, chain and reduction. The payload that is signed is written out (`docPayload`); acceptance follows from C12, refusal from the order of checks.
* C89 (`Spec/Views`, `Props/Views`). What is understood of a token is stated in terms of the list of builder calls (`FromCalls`, `claimed` of `Spec/Builder`) and the order of resource and ability texts; `C89_exact` follows from C16 (the claims are a sorted permutation) and from the fact that understanding a claim does not depend on its caveat. The violations are instances with the text `*` of C20 and the `prf:` claim of `delegating_from`.
* C90 (`Model/Width`, `Spec/Width`, `Props/Width`). The width-dependent functions are modelled with the width as a parameter and shown to be the 64-bit model for `2 ^ 64`. `parseCapabilityAt_iff` says that a narrower target reads exactly those proof selections that fit; `C90_iff` follows by induction on the recursion through the proofs. The length prefix of IPLD signatures is compared through the loops of the two integer readers. `C90_violated` exhibits a signed token with a report on the 32-bit side.
* C91 (`Model/HashStore`, `Spec/AnyStore`, `Props/AnyStore`). As C55, with the store replaced by any relation between CIDs and texts which the store serves: by induction on the tree of tokens there is a sound chain, which `ofToken_complete` says is found; capabilities handed on are granted in it and covered by C33. `C91_needed` is read off C23. `C91_filed` determines the contents of a store with a hash function of its own, from which `C91_own_hash` and `C91_wrong_hash` follow.
* C92 (`Model/Async`, `Spec/Async`, `Props/Async`). The future is a second, independent model of `from_ucan`: a state machine with an explicit stack and no bound on the recursion, which makes at most one reading per step. By induction on the bound of the recursive model, and within it on the proof list, both end alike or the machine goes on for as many steps as the bound (`ofToken_agrees`); hence `C92_finished`, `C92_returns`, `C92_endless`. `alone` follows a task through any schedule and collects the answers it got; `C92_interleaved` makes an environment of them. `C92_parser` is an invariant of the step.
* C93 (`Spec/Restrict`, `Props/Restrict`). Two built chains that differ only in the caveats of delegated proofs (`SameGrants`) have the same recorded redelegations, because `RedelOk` determines them and does not look at caveats, and the same understood claims, because a semantics without `ucan/DELEGATE` stops at them either way; mutual induction as for C85 gives `C93_ignored`. `C93_passed_on` follows from C33, `C93_violated` is a built chain, `C93_kept_partial` an induction over `Offers`.
* C94 (`Spec/HandOn`, `Props/HandOn`). A token all of whose claims delegate proof k merges the report of that proof (`reduce_handsOn`). Over the fuel-free relation `Merged`: the result is a part of the list in reverse (`merged_capabilities`), what remains is what no earlier entry enables (`merged_kept`), and nothing is merged if no entry enables a later one (`merged_reverse`). With C35 the partial theorems and `C94_capabilities` follow; `C94_violated` is a built chain with four keys.
* C95 (`Spec/Moment`, `Props/Moment`). From C21 there are a reading no later than the expiry of the first token and one no earlier than its not-before; if the lifetime is not void, one of the first reading and the not-before lies in both, and C25 carries it to the whole chain. The other direction carries the lifetime of the first token through `Sound` by mutual induction and uses the completeness of the search. `C95_violated` is a token from 10 to 9 with a clock passing from 9 to 10.
* C96 (`Spec/Untrusted`, `Props/Untrusted`). For faithful stores `Sound.mono` and `Sound.unique` give both halves. The power of other stores (`C96_power`): for each sound tree, with every content allowed, the answers tick by tick are constructed by mutual induction along with the run that uses them (`Untrusted.serve`). `C96_substitution` is the attack with three builder-made tokens, for any keys, semantics and capabilities.
* C97 (`Spec/Rename`, `Props/Rename`). One lemma for every map of reports that preserves `enables` and commutes with the union of originators: the merge commutes with it (`Rename.merge_map`). The two instances, renaming parties and translating scopes and abilities, follow by mutual induction over the chain. Sets of originators are compared by membership, since a renaming can reorder them and make members coincide.
* C98 (`Props/SpecialUrl`). Violated for `http`, `https`, `ws`, `wss` and `ftp`: by C82_special the path of such a URL starts with a slash (`C98_none`), and `https:*` names the host `*` (`C98_host`), so that a claim on it is scoped (`C98_claims`). For all other schemes but `file` the wildcards are exactly as claimed (`C98_wildcards_partial`, from C82_reads), and stand for everything (`C98_everything_partial`).
* C99 (`Props/Audience`). Violated for the presented token: no argument says who presents it, and its audience influences nothing but its signature (`C99_ignored`, `C99_reports`); any text is accepted as audience (`C99_violated`). Every other token is addressed to the issuer of the token it proves (`C99_links_partial`, from C08).
* C100 (`Props/Number`). With object caveats reports are pairwise different (C35_distinct) and each is claimed by a token (C28_offered), so a list of the tokens bounds them (`C100_bounded_partial`). Violated otherwise: a capability with caveat `null` does not enable itself, is never merged, and doubles whenever a token hands on a proof it cites twice (`C100_doubling`: `2^n` equal reports from `n + 1` tokens, by induction).
* C101 (`Model/Clock`, `Props/Clock`). The functions that read the clock are modelled once more with a clock that may have no reading. `C101_validate`, `C101_chain`, `C101_build`: a run that does not panic on the clock is a run of the other model with any steady clock that shows the same readings (a simulation that is closed under sequencing, by induction on the recursion), so all other properties carry over. Violated: `C101_crash` and `C101_build_crash` say exactly when there is a panic. `C101_safe_partial`: what is accepted without a clock is accepted at every time.
* C102 (`Props/Memory`). `C102_exact`: what the parser keeps after a validation is what it kept before and the key of the issuer, if there is one and the UCAN is within its bounds, whatever its signature. `C102_growth` counts the keys after any sequence (the keys kept and the issuers are lists without repetition with the same members). Violated: `C102_leak`, any number of worthless tokens leaves as many keys. `C102_untouched_partial` covers tokens refused for their bounds or for the lack of a key.
* C103 (`Props/Owner`). `C103_iff`: a party that signed none of the proofs is named in a report exactly if one of its claims is enabled by no proof cited. Violated: `C103_disowned`, end to end for all keys and semantics, from `C103_report`, which computes the reports. `C103_listed_partial` covers claims that no proof enables.
* C104 (`Props/Upgrade`). Offers are monotone under `Refines` (induction), hence `C104_covered` by C28 and C33. Violated for originators: `C104_disowned`. `C104_grantors_partial` by induction on the chain: the only loss is at tokens where a claim is newly anticipated by a proof.
* C105 (`Spec/Fetch`, `Props/Fetch`). That a step asks the store for a CID means that its outcome depends on the answer (`Asks`). Invariant of the machine of `Model/Async` under all schedules: every token on the stack has been checked and was led to (`C105_justified_partial`, `C105_refused`, `C105_quiet`); `C105_asked` is the converse for the first proof. Violated: `C105_violated` from `C105_unlinked`.
* C106 (`Props/Depth`). `C106_exact` by following a successful validation through the machine with the height of its stack. Violated: `C106_unbounded`. `C106_bounded_partial`: the tokens on the deepest path are different ones by uniqueness of chains (C24), so the pigeonhole principle applies.
* C107 (`Model/Debug`, `Spec/Debug`, `Props/Debug`). Every part of the text is uniquely readable (escapes form a prefix code, numbers and sets have ends), hence `C107_determines`; the caveat by unambiguity of JSON (C71). `C107_line` by cases on the escapes. The pretty form `{:#?}` is not modelled; printability beyond U+00A0 is a parameter.
* C108 (`Model/Instant`, `Spec/Instant`, `Props/Instant`). Clocks in nanoseconds, truncated as `now()` does, on top of `Model/Clock`: `C108_validate` for one token, `C108_chain_partial` for chains, `C108_lifetime` for the builder. Violated: `C108_late`.
* C109 (`Spec/Crash`, `Props/Crash`). `C109_validate` decides panics of one UCAN; `C109_cause` by induction over the recursion, with ticks for a store and clock that change; `C109_clock` adds clocks that fail (C101); `C109_survives_partial` for the three key types together with C27. Violated: `C109_crash`, one text for all environments.
* C110, C111 (`Spec/Withdraw`, `Props/Withdraw`). Narrowing validity or the store content narrows the sound chains by the same condition at every node (mutual induction), then C24; `C110_at_once` from soundness with a store that changes; `C111_more` by simulating one run with the other.
* C112 (`Spec/Dates`, `Props/Dates`). Two chains that are in order but for dates and correspond by an order-preserving map of instants are sound together (mutual induction over both chains), then C24; reports by the same simulation as C97.
* C113, C114 (`Spec/Issue`, `Props/Issue`). From the exact state of the builder (C51) and the exact payload (C54): what bounds a signed token has. Acceptance by completeness of chain construction, refusal by its soundness applied at any depth; the negations are instances with a toy key.
* C115 (`Spec/Revoke`, `Props/Revoke`). From the extra segments of C04 and the exact content of the memory store; a concrete accepted chain by completeness of construction (C24). The part that holds: every token of a chain is what was parsed (C23), the signed bytes determine header and payload (C59), and the signature is the only one.
* C116 (`Spec/Walk`, `Props/Walk`). A walk over chain values that uses neither the reduction nor the set of redelegations of the chain; by induction on the chain it agrees with the relation `Granted` of C31 and C87, using that in a built chain the set is what the claims of the token say (soundness of construction, C21).
* C117 (`Spec/IpldProof`, `Props/IpldProof`). From soundness of construction (an entry resolves only through a raw CID) and the round trips C47 and C73; a concrete pair of tokens that differ only in the reference.
* C118 (`Spec/Empty`, `Props/Empty`). Builder state (C51), exact validation (C12) and completeness of construction for the violation; the two clock readings of C21 for what holds.
* C119 (`Model/Message`, `Spec/Message`, `Props/Message`). A second model of validation that carries the `Display` text of each error the library words itself (texts of other crates are absent), proved to refine the first; the texts against an inductive specification of wordings, by an invariant on computations (every own text obeys it, no own kind goes without); the forged texts by the round trip C01 for an unsigned token whose issuer is the text.
* C120 (`Spec/Repeat`, `Props/Repeat`). From the exact token format (C72) and the JSON grammar (C71): reading is invariant under reordering (induction on documents without repeated names); the violation concatenates the members of one payload, a null for every name, and the members of the other.
* C121 (`Spec/Register`, `Props/Register`). The LEB128 grammar fixes which codes take two bytes; lookups in the parser's map depend only on the two-byte prefixes registered; with cache transparency (C38), base58 exactness (C69) and C77.
* C122 (`Spec/Addressee`, `Props/Addressee`). Builder state (C51), signing case by case, and the link and signature invariants of chains (C21, C22); base58 texts contain no `#`.
* C123 (`Spec/Precise`, `Props/Precise`). Number texts and their values from the JSON grammar (C71); a collision by the pigeonhole principle over the bit patterns of doubles.
* C124 (`Spec/Readable`, `Props/Readable`). Held values printed and parsed; the reserved forms and the depth limit are shown to be the only obstacles, by induction on the value.
* C125 (`Spec/Size`, `Props/Size`). Lengths of base64, base32, printed strings, arrays and objects; the payloads of two builds differ in the proof list only.
* C126 (`Spec/Case`, `Props/Case`). From the soundness of built chains (C22, C23) and C28; the scheme part by commuting lower-casing with the steps of the URL parser.
* C127 (`Spec/Suite`, `Props/Suite`). The chain is given in closed form; completeness of verification (C28) gives acceptance and C31 the report: when no claim enables a later one the merge of equal reports never removes an entry of another claim.
* C128 (`Spec/Disclosure`, `Props/Disclosure`). From the builder state (C51) and the identity of token texts (C84); each member of the payload is compared on its own, capability maps and facts by what is found under each key.
* C129 (`Spec/Lineage`, `Props/Lineage`). Induction over the chain: the merge loop leaves a list without enabled successors as it is (from C127), so the report is that of the claims, and originators are those of enabling reports of the proofs. The line is a second induction.
* C130 (`Spec/Restate`, `Props/Restate`). The report for a token with one proof and one claim is computed; what is read from the writing comes from C20 and C82.
* C131 (`Spec/Own`, `Props/Own`). Enabling preserves the form of the resource (C14), so C31 confines originators to those who claimed a resource of that form; the parser gives the whole-or-nothing part; a built chain of three tokens refutes the full claim.
* C132 (`Props/Behalf`). From C20 (no text parses to a resource on behalf of a DID), through C131 (forms are preserved along the chain) to all reports; a built chain refutes the claim.
* C133 (`Spec/Bears`, `Props/Bears`). Originators of a claim depend on the set of ancestral capabilities that enable it and on nothing else; what a proof reports it offers (C28).
* C134 (`Props/Split`). The reports for separate claims are the claims with their originators, which depend on the proofs only (C133); built chains refute the general claim.
* C135 (`Props/Claiming`). Handing on is determined by C94, claiming by C134; originators are the same sets because each capability is enabled by itself only.
* C31, continued (`Props/Escalate`). Not just some chain: from every token with a report, whoever holds it can make one with any greater capability reported for the same parties (`C31_always`, `C31_always_leaf`), though they are then reported along with them (`C31_always_marked`). Since `a:*` is understood as all resources by every semantics that leaves `parse` alone and precedes nearly every other text, the greater capability can be everything (`Props/Overall`: `C31_overall`, `C31_overall_plain`, `C31_overall_wnfs`).
* C136 (`Spec/Group`, `Props/Group`). Induction over the chain: the entry a report stems from keeps its originators through the merge; one of the originators of an enabling report of a proof granted that by induction. The group check composes this with the authority paths of C65.
* C60 (`Props/Wildcard`): containment of wildcard resources across schemes. N.

## 5. Mutation testing

`seeded/LOG.jsonl` records wrong programs: a copy of the model is edited as a realistic bug would edit the Rust code, everything that depends on the
edited module is re-elaborated with errors turned into `sorry`, and the property theorems that no longer hold are collected (by error, by missing
name, or because they depend on `sorryAx`). A mutation whose expected property survives means a theorem to tighten.
