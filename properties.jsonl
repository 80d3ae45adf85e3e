{"id": "C01", "title": "Token round trip", "statement": "Signing a UCAN, encoding it as a token string and parsing that string yields a UCAN equal to the original in every field (header, payload, signed bytes, signature).", "quantifier": "every header, every payload (all combinations of optional fields, any Unicode strings, any nested caveats and facts DAG-JSON can represent) and every signature byte string", "why_tests_cant": "the payload space (nested JSON, Unicode, optional fields) is infinite; tests round trip a few hand-picked tokens", "anchors": ["ucan/src/ucan.rs: Ucan::encode, Ucan::from_str", "ucan/src/serde.rs: DagJson, Base64Encode", "ucan/src/builder.rs: Signable::sign"]}
{"id": "C02", "title": "Signed bytes are the received bytes", "statement": "Parsing a token keeps, as the bytes whose signature is checked, exactly the text of the token before its second dot; no re-serialisation of the JSON happens before verification.", "quantifier": "every token string that parses", "why_tests_cant": "a test can only compare a few tokens; a re-serialising parser agrees on all canonical tokens", "anchors": ["ucan/src/ucan.rs: Ucan::from_str, Ucan::signed_data"]}
{"id": "C03", "title": "Token acceptance is exact and parsing never panics", "statement": "Parsing succeeds exactly when the string has at least three dot separated segments, the first two are base64url of DAG-JSON of a header and a payload, and the third is base64url; every other string gives an error value, never a panic.", "quantifier": "every Unicode string", "why_tests_cant": "the set of malformed strings is infinite and attacker chosen", "anchors": ["ucan/src/ucan.rs: Ucan::from_str"]}
{"id": "C04", "title": "One token text per UCAN", "statement": "Two different token strings never parse to the same UCAN. (The code violates this: everything after a third dot is ignored; it holds for strings with exactly three segments.)", "quantifier": "every pair of token strings", "why_tests_cant": "needs all pairs of strings; non-canonical base64 and trailing segments are easy to miss", "anchors": ["ucan/src/ucan.rs: Ucan::from_str"]}
{"id": "C05", "title": "Content is determined by the signed bytes", "statement": "Two parsed tokens whose signed bytes agree have the same header and payload, so an attacker cannot keep a valid signature and change a field.", "quantifier": "every pair of token strings that parse", "why_tests_cant": "quantifies over all pairs of tokens", "anchors": ["ucan/src/ucan.rs: Ucan::from_str, Ucan::check_signature"]}
{"id": "C06", "title": "Re-encoding and CIDs of parsed tokens", "statement": "A token produced by this library re-encodes, after parsing, to the identical string and so has the same CID for every hash function. (For tokens that other software serialised differently the re-encoding differs; a witness is proved.)", "quantifier": "every token the library can produce, every hash function", "why_tests_cant": "the CID is a hash of the text: any byte of difference breaks proof lookup", "anchors": ["ucan/src/ucan.rs: Ucan::encode, Ucan::to_cid"]}
{"id": "C07", "title": "Base64url segments are canonical", "statement": "Segment decoding inverts encoding for every byte string, and every segment that decodes is the encoding of what it decodes to (no padding, no stray trailing bits, no alternative alphabet).", "quantifier": "every byte string and every segment text", "why_tests_cant": "infinitely many lengths and trailing bit patterns", "anchors": ["ucan/src/ucan.rs: URL_SAFE_NO_PAD in Ucan::from_str/encode", "ucan/src/serde.rs: jwt_base64_encode"]}
{"id": "C08", "title": "Facts and caveats survive DAG-JSON", "statement": "Any JSON value used as fact or caveat is decoded to itself after DAG-JSON encoding, whatever its nesting (up to the parser's depth limit), strings and escapes, unless it contains one of the reserved DAG-JSON forms; reserved forms do not round trip (witness).", "quantifier": "every JSON value", "why_tests_cant": "infinite recursive domain; escapes, control characters and surrogates are sampled at best", "anchors": ["ucan/src/serde.rs: DagJson::to_dag_json, DagJson::from_dag_json"]}
{"id": "C09", "title": "Canonical output regardless of insertion order", "statement": "Adding facts with distinct keys, in any order, produces the same payload and hence the same token text; the map keys of the token are strictly sorted.", "quantifier": "every list of facts with distinct keys and every permutation of it", "why_tests_cant": "n! orders; the repository's test tries one swap of two keys", "anchors": ["ucan/src/builder.rs: with_fact, ucan_payload", "ucan/src/ucan.rs: UcanPayload"]}
{"id": "C10", "title": "Expiry and activation boundaries", "statement": "A UCAN is expired at time t exactly when it has an expiry strictly before t, and too early exactly when it has a not-before strictly after the clock; once expired it stays expired, once active it never becomes too early again.", "quantifier": "every expiry, not-before and pair of times in u64", "why_tests_cant": "2^64 values per field; boundary instants", "anchors": ["ucan/src/ucan.rs: is_expired, is_too_early"]}
{"id": "C11", "title": "Lifetime containment", "statement": "lifetime_encompasses(a,b) implies every instant at which b is in its lifetime is one at which a is; it is reflexive and transitive; and it is exactly interval containment when a missing bound is read as unbounded.", "quantifier": "every pair / triple of optional bounds in u64 and every instant", "why_tests_cant": "all pairs of optional u64 bounds and all instants", "anchors": ["ucan/src/ucan.rs: lifetime_begins_before, lifetime_ends_after, lifetime_encompasses"]}
{"id": "C12", "title": "validate is exactly time window and signature", "statement": "validate succeeds exactly when the UCAN is not expired at the supplied time (or the clock), its not-before is not after the clock, and the issuer's key verifies the signature over the signed bytes. A caller-supplied time is honoured for the whole window (violated: not-before always uses the system clock).", "quantifier": "every UCAN, time argument, clock reading and key implementation", "why_tests_cant": "clock and key behaviour are arbitrary; tests pin one clock", "anchors": ["ucan/src/ucan.rs: validate, check_signature, is_expired, is_too_early"]}
{"id": "C13", "title": "Caveat attenuation", "statement": "A caveat enables another exactly when every key/value constraint of the first is present unchanged in the second; hence the empty caveat enables all, enabling is reflexive and transitive, and mutual enabling means equality (as JSON values: the two floating-point zeros are equal).", "quantifier": "every pair / triple of JSON objects", "why_tests_cant": "infinite domain of objects", "anchors": ["ucan/src/capability/caveats.rs: Caveat::enables"]}
{"id": "C14", "title": "Resource containment", "statement": "Plain, my: and as: resources never contain one another, as: resources only contain resources of the same DID, unscoped contains every resource of its form, and containment is reflexive, transitive and antisymmetric whenever the scope's is.", "quantifier": "every scope type with its containment relation and all resources over it", "why_tests_cant": "generic over user scope types", "anchors": ["ucan/src/capability/semantics.rs: Resource::contains, ResourceUri::contains"]}
{"id": "C15", "title": "A capability only enables attenuations of itself", "statement": "enables(a,b) holds exactly when both caveats are objects, a's resource contains b's, a's ability is at least b's and a's caveat constraints are all kept by b; it is reflexive on object caveats and transitive, so attenuation cannot be laundered through intermediate steps; capabilities that enable each other are the same, so what a step gives up never comes back.", "quantifier": "every pair / triple of capability views over every lawful scope and ability order", "why_tests_cant": "generic over user semantics; chains of any length", "anchors": ["ucan/src/capability/semantics.rs: CapabilityView::enables"]}
{"id": "C16", "title": "Capability list to map loses nothing", "statement": "Building capabilities from a list succeeds exactly when every caveat is an object; iterating the result yields a permutation of the list, ordered by resource then ability, with the original order kept among equal (resource, ability).", "quantifier": "every list of capabilities", "why_tests_cant": "all lists, all orders and duplicates", "anchors": ["ucan/src/capability/data.rs: TryFrom<Vec<Capability>>, Capabilities::iter"]}
{"id": "C17", "title": "Capability map laws", "statement": "Iterating a capability map yields exactly its (resource, ability, caveat) triples, an empty caveat list yielding nothing; rebuilding from the iteration restores the map if no caveat list is empty; the JSON constructor accepts exactly objects of non-empty objects of arrays of objects and keeps their content.", "quantifier": "every capability map and every JSON value", "why_tests_cant": "infinite domain", "anchors": ["ucan/src/capability/data.rs: Capabilities::iter, TryFrom<CapabilitiesImpl>, TryFrom<&Value>"]}
{"id": "C18", "title": "Tokens only carry well-formed capabilities", "statement": "Every UCAN parsed from a token satisfies what the capability constructors enforce: at least one ability per resource, object caveats. (Violated by token decoding; holds for every UCAN made by the builder.)", "quantifier": "every token string / every builder history", "why_tests_cant": "hostile tokens are unbounded", "anchors": ["ucan/src/capability/data.rs: derive(Deserialize), TryFrom<CapabilitiesImpl>", "ucan/src/ucan.rs: UcanPayload"]}
{"id": "C19", "title": "Proof delegation resources", "statement": "prf:N with ability ucan/DELEGATE means exactly the proof at index N, for every N that fits in usize, any other ability is ignored, and prf:* means all proofs. (Violated: prf:* is read as the generic wildcard, never as the all-proofs selection, so it redelegates nothing.)", "quantifier": "every resource and ability string", "why_tests_cant": "all strings; the selection All is unreachable for every input, which no finite test shows", "anchors": ["ucan/src/capability/proof.rs: ProofSelection, ProofAction", "ucan/src/capability/semantics.rs: parse, parse_resource", "ucan/src/chain.rs: from_ucan redelegations"]}
{"id": "C20", "title": "Printing then parsing a capability view", "statement": "Converting a parsed capability view to plain data and parsing it again gives the same view. (Violated for as: resources, which never parse for any DID and scope, and for wildcards; proved for the forms that work.)", "quantifier": "every capability view / every resource string", "why_tests_cant": "all resource strings and all scope types", "anchors": ["ucan/src/capability/semantics.rs: parse, extract_did, Resource::to_string"]}
{"id": "C21", "title": "Every UCAN of a proof chain was validated", "statement": "If building a proof chain succeeds, then every UCAN in it, at any depth, was unexpired and active at an instant of the run and its signature verified under the key its issuer DID denotes.", "quantifier": "every token, every store content, every clock behaviour, every depth and width of chain, every prior DID-cache history", "why_tests_cant": "unbounded trees and adversarial stores", "anchors": ["ucan/src/chain.rs: from_ucan, try_from_token_string, from_cid", "ucan/src/ucan.rs: validate"]}
{"id": "C22", "title": "Every link of a proof chain is a delegation", "statement": "In a successfully built proof chain, for every UCAN and each of its proofs: the proof's audience is the UCAN's issuer and the proof's lifetime encompasses the UCAN's.", "quantifier": "every chain the constructor can return", "why_tests_cant": "unbounded trees", "anchors": ["ucan/src/chain.rs: validate_link_to, from_ucan"]}
{"id": "C23", "title": "The chain mirrors the proof lists", "statement": "A proof chain has one child per entry of its UCAN's proof list, in order, and the child's UCAN is the parse of the token the store returned for that entry's CID.", "quantifier": "every token and store", "why_tests_cant": "unbounded trees and stores", "anchors": ["ucan/src/chain.rs: from_ucan"]}
{"id": "C24", "title": "Chain construction is complete", "statement": "With a fixed clock and store content, building a chain succeeds exactly when a finite tree of valid, correctly linked UCANs with in-range redelegations exists for the token, and the result is that tree.", "quantifier": "every token, fixed clock and store", "why_tests_cant": "both directions over all trees", "anchors": ["ucan/src/chain.rs: from_ucan"]}
{"id": "C25", "title": "Authority is bounded in time by all ancestors", "statement": "The lifetime of a proof chain's root lies within the lifetime of every UCAN at every depth of the chain.", "quantifier": "every chain the constructor can return, every depth", "why_tests_cant": "transitivity through unbounded depth", "anchors": ["ucan/src/chain.rs: from_ucan, validate_link_to", "ucan/src/ucan.rs: lifetime_encompasses"]}
{"id": "C26", "title": "One bad proof rejects the chain", "statement": "If any UCAN reachable through proof lists is expired at the supplied time, has a bad signature, a missing or malformed proof, or a broken link, no chain is returned; an error in a proof is never swallowed.", "quantifier": "every token, store and position of the defect", "why_tests_cant": "the defect may be at any depth and position", "anchors": ["ucan/src/chain.rs: from_ucan"]}
{"id": "C27", "title": "Reducing a chain never panics", "statement": "Redelegation indices recorded in a chain are always within its proof list, so computing capabilities never hits the unwrap on a missing proof.", "quantifier": "every chain the constructor can return, every semantics", "why_tests_cant": "all chains", "anchors": ["ucan/src/chain.rs: from_ucan, reduce_capabilities"]}
{"id": "C28", "title": "No capability from nowhere", "statement": "Every reported capability is claimed by the chain's own token or was reported by one of its explicitly redelegated proofs.", "quantifier": "every chain and semantics", "why_tests_cant": "unbounded chains", "anchors": ["ucan/src/chain.rs: reduce_capabilities"]}
{"id": "C29", "title": "Reported lifetime", "statement": "Every reported capability carries exactly the not-before and expiry of the chain's own token, including those redelegated from proofs.", "quantifier": "every chain and semantics", "why_tests_cant": "unbounded chains", "anchors": ["ucan/src/chain.rs: reduce_capabilities"]}
{"id": "C30", "title": "Originators are issuers in the chain", "statement": "Every reported capability has at least one originator and each originator is the issuer of some UCAN of the chain.", "quantifier": "every chain and semantics", "why_tests_cant": "unbounded chains", "anchors": ["ucan/src/chain.rs: reduce_capabilities"]}
{"id": "C31", "title": "Originators really granted the capability", "statement": "If a reported capability lists an originator, that identity issued it or something enabling it, and every token on the way to the root was entitled to it. (Violated: merging adds the originators of a narrower capability to a broader one claimed by the same token; proved when no token claims two comparable capabilities. For every chain the reports and their originators are given exactly, and whoever is listed claimed something connected to the capability by comparisons. Nor is it an accident of some chains: from every token with a report its holder can make one for which the same parties are reported for everything.)", "quantifier": "every chain and lawful semantics", "why_tests_cant": "needs all combinations of overlapping capabilities over unbounded chains", "anchors": ["ucan/src/chain.rs: reduce_capabilities merge loop"]}
{"id": "C32", "title": "A sole originator is trustworthy", "statement": "If a reported capability has exactly one originator then that identity really granted it through an unbroken chain of attenuations, with no assumption on overlaps.", "quantifier": "every chain and semantics", "why_tests_cant": "unbounded chains", "anchors": ["ucan/src/chain.rs: reduce_capabilities"]}
{"id": "C33", "title": "No authority is lost", "statement": "Every capability claimed by the chain's token ahead of the first claim foreign to the semantics, or redelegated, with each identity that granted it, is covered by a reported capability that equals or enables it and lists that originator.", "quantifier": "every chain and lawful semantics", "why_tests_cant": "unbounded chains and merges", "anchors": ["ucan/src/chain.rs: reduce_capabilities"]}
{"id": "C34", "title": "Foreign capabilities do not hide others", "statement": "Capabilities a semantics does not understand do not influence what is reported for those it understands. (Violated: iteration stops at the first one not understood; proved when all claims are understood or foreign ones come last; for every chain, exactly what the chain offers before a foreign claim is covered.)", "quantifier": "every token with capabilities of several semantics", "why_tests_cant": "all orders and mixes", "anchors": ["ucan/src/chain.rs: reduce_capabilities map_while"]}
{"id": "C35", "title": "Redundant capabilities are merged", "statement": "No reported capability is enabled by a later one in the returned list. (Full pairwise irredundancy is violated: a witness and the exact condition are proved.)", "quantifier": "every chain and semantics", "why_tests_cant": "all lists of capabilities", "anchors": ["ucan/src/chain.rs: reduce_capabilities merge loop"]}
{"id": "C36", "title": "Chain construction terminates", "statement": "For every store whose proof references are well founded, building a chain terminates; a store that answers with a cyclic reference makes it recurse without bound.", "quantifier": "every store and token", "why_tests_cant": "termination is not testable", "anchors": ["ucan/src/chain.rs: from_ucan recursion"]}
{"id": "C37", "title": "Concurrent writers do not disturb validation", "statement": "While other handles write to a shared memory store during chain construction, a successful result is the one obtained against the final store content, and whatever would succeed against the initial content still succeeds.", "quantifier": "every interleaving of writes between the reads of a run", "why_tests_cant": "schedules are unbounded", "anchors": ["ucan/src/chain.rs: from_ucan", "ucan/src/store.rs: MemoryStore"]}
{"id": "C38", "title": "The DID cache is transparent", "statement": "Whatever sequence of DIDs a parser has already been asked for, successfully or not, its answer for a DID is the same as that of a fresh parser.", "quantifier": "every history of parse calls and every DID", "why_tests_cant": "histories are unbounded", "anchors": ["ucan/src/crypto/did.rs: DidParser::parse"]}
{"id": "C39", "title": "DID dispatch and malformed DIDs", "statement": "A DID is accepted only if it starts with did:key:z and its base58 payload's first two bytes select a registered constructor, which receives exactly the remaining bytes; every other DID gives an error. (Violated for payloads shorter than two bytes: the parser panics.)", "quantifier": "every string and every constructor table", "why_tests_cant": "all strings", "anchors": ["ucan/src/crypto/did.rs: DidParser::new, DidParser::parse"]}
{"id": "C40", "title": "Base58 DIDs are unique", "statement": "Base58 decoding and encoding are mutually inverse, so distinct key bytes have distinct DIDs and each well-formed DID denotes exactly one byte string.", "quantifier": "every byte string and every base58 text", "why_tests_cant": "leading zeros and big-number arithmetic on all lengths", "anchors": ["ucan/src/crypto/did.rs: bs58::decode", "ucan-key-support/src/ed25519.rs: get_did", "ucan/src/ipld/principle.rs: Principle"]}
{"id": "C41", "title": "Key material DID round trip", "statement": "For each supported key type, the DID of a key, given to a parser with that type registered, yields a key that verifies every signature the original makes; keys without private part refuse to sign with an error; DIDs of different key types differ.", "quantifier": "every key of every supported type, every message", "why_tests_cant": "all keys and messages", "anchors": ["ucan-key-support/src/ed25519.rs: Ed25519KeyMaterial", "ucan-key-support/src/p256.rs: P256KeyMaterial", "ucan-key-support/src/rsa.rs: RsaKeyMaterial"]}
{"id": "C42", "title": "What is signed validates", "statement": "A UCAN signed by a key whose scheme is correct and whose DID the parser understands validates at every instant of its window, also after encoding and parsing, and is rejected before and after the window.", "quantifier": "every correct signature scheme, key, payload and instant", "why_tests_cant": "all instants and payloads", "anchors": ["ucan/src/builder.rs: Signable::sign", "ucan/src/ucan.rs: validate"]}
{"id": "C43", "title": "Accepted tokens were signed by their issuer", "statement": "If signatures cannot be forged, every parsed token that validates has the header and payload of a token the issuer's key really signed.", "quantifier": "every token string, every history of signed messages", "why_tests_cant": "adversarial tokens", "anchors": ["ucan/src/ucan.rs: from_str, check_signature"]}
{"id": "C44", "title": "Varsig round trip", "statement": "Encoding an algorithm and signature bytes as an IPLD signature and decoding gives them back, for all five algorithms and any signature length; integers in it round trip and are minimally encoded.", "quantifier": "every algorithm and every byte string", "why_tests_cant": "all lengths", "anchors": ["ucan/src/ipld/signature.rs: Signature::try_from, Signature::decode"]}
{"id": "C45", "title": "Malformed varsig", "statement": "Decoding an IPLD signature of arbitrary bytes returns the algorithm and signature or an error. (Violated: a declared length beyond the data panics; the exact condition is proved.)", "quantifier": "every byte string", "why_tests_cant": "all byte strings", "anchors": ["ucan/src/ipld/signature.rs: Signature::decode"]}
{"id": "C46", "title": "Principal round trip", "statement": "Converting a DID to its IPLD principal and printing it gives the DID back, and distinct DIDs have distinct principals. (Violated for did:key payloads that start with the DID multicodec prefix, and payloads shorter than two bytes panic; proved for all others.)", "quantifier": "every string", "why_tests_cant": "all strings and key bytes", "anchors": ["ucan/src/ipld/principle.rs: Principle::from_str, Display"]}
{"id": "C47", "title": "JWT to IPLD and back", "statement": "Converting a UCAN to UCAN-IPLD and back preserves all claims, the signature and the encoded token, for every UCAN of the current version with canonical CIDs and non-confusable DIDs.", "quantifier": "every such UCAN", "why_tests_cant": "all payloads", "anchors": ["ucan/src/ipld/ucan.rs: TryFrom<&Ucan> for UcanIpld, TryFrom<&UcanIpld> for Ucan"]}
{"id": "C48", "title": "Memory store keeps every token", "statement": "After any interleaving of reads and writes through any number of clones of a memory store, reading the CID a write returned yields that write's token, provided the hash did not collide on the written tokens; writing again changes nothing.", "quantifier": "every history of operations over every number of clones", "why_tests_cant": "histories and interleavings are unbounded", "anchors": ["ucan/src/store.rs: MemoryStore, UcanJwtStore"]}
{"id": "C49", "title": "Reading tokens", "statement": "Reading a token for a CID whose codec is not raw, that is absent, or whose bytes are not UTF-8 is an error; a successful read is never empty and returns exactly the stored text.", "quantifier": "every CID and store content", "why_tests_cant": "all contents", "anchors": ["ucan/src/store.rs: UcanJwtStore::read_token, require_token"]}
{"id": "C50", "title": "Stored tokens match their CIDs", "statement": "In every reachable memory store, the bytes stored under a CID hash to that CID; so in a chain built from a memory store each proof token hashes to the CID that referenced it.", "quantifier": "every history and every chain", "why_tests_cant": "histories are unbounded", "anchors": ["ucan/src/store.rs: MemoryStore::write", "ucan/src/chain.rs: from_ucan"]}
{"id": "C51", "title": "Builder state", "statement": "build succeeds exactly when issuer and audience were set; for every setter the last call wins; capabilities, proofs accumulate in call order; an explicit expiry overrides a lifetime whatever the call order.", "quantifier": "every sequence of builder calls", "why_tests_cant": "all call sequences", "anchors": ["ucan/src/builder.rs: UcanBuilder"]}
{"id": "C52", "title": "Lifetime arithmetic", "statement": "The expiry implied by a lifetime is the build-time clock plus the lifetime for every value that fits, and an overflow never yields a token that silently expires early. (Violated: the addition is unchecked.)", "quantifier": "every clock value and lifetime in u64", "why_tests_cant": "2^128 pairs", "anchors": ["ucan/src/builder.rs: implied_expiration"]}
{"id": "C53", "title": "Delegation indices match", "statement": "Every call delegating_from in any sequence of builder calls adds a prf:i capability whose index i is the position of that authority's CID in the final proof list.", "quantifier": "every sequence of builder calls", "why_tests_cant": "all call sequences", "anchors": ["ucan/src/builder.rs: delegating_from, witnessed_by"]}
{"id": "C54", "title": "Payload faithfulness", "statement": "The signed UCAN carries exactly the configured audience, bounds, capabilities, facts and proofs, the issuer key's DID and algorithm, the current version, facts/proofs omitted exactly when empty, a nonce exactly when requested; signing never panics. (Violated: a non-object caveat or a failing get_did panics.)", "quantifier": "every builder state and key", "why_tests_cant": "all builder states", "anchors": ["ucan/src/builder.rs: ucan_payload, sign"]}
{"id": "C55", "title": "End-to-end delegation", "statement": "If a token issued by A to B with a capability is stored, and B signs a token delegating from or attenuating it within its lifetime, then building the chain of B's token succeeds and reports the capability with originator A.", "quantifier": "every capability, key pair, time, semantics, and chains of any length of such steps", "why_tests_cant": "all keys, capabilities and chain lengths", "anchors": ["ucan/src/builder.rs: delegating_from, witnessed_by", "ucan/src/chain.rs: from_ucan, reduce_capabilities", "ucan/src/store.rs: MemoryStore"]}
{"id": "C56", "title": "CID text round trip", "statement": "The text of every version 1 CID parses back to that CID, so proof lists written by the builder can always be resolved.", "quantifier": "every CID with codec and hash code in u64 and digest of at most 64 bytes", "why_tests_cant": "all digests and codes", "anchors": ["ucan/src/ucan.rs: to_cid", "ucan/src/builder.rs: witnessed_by", "ucan/src/chain.rs: Cid::try_from"]}
{"id": "C57", "title": "Algorithm tables", "statement": "Algorithm names and varsig prefixes are mutually inverse tables; unknown names and codes are errors, and the five known varsig codes without a JWT algorithm are errors, never mapped to another algorithm.", "quantifier": "every string and every u64", "why_tests_cant": "all u64 codes and strings", "anchors": ["ucan/src/ipld/signature.rs: VarsigPrefix", "ucan/src/crypto/signature.rs: JwtSignatureAlgorithm"]}
{"id": "C58", "title": "Header algorithm and version are bound to the key", "statement": "A token whose header names another algorithm than the issuer's key, or another UCAN version, is rejected. (Violated: validation never looks at either; independence is proved.)", "quantifier": "every token", "why_tests_cant": "all tokens", "anchors": ["ucan/src/ucan.rs: validate, check_signature"]}
{"id": "C59", "title": "Payload and signed bytes agree", "statement": "A UCAN that validates has the payload its signature covers. (True of parsed and signed UCANs; violated for values made with the public constructor or deserialised field by field.)", "quantifier": "every UCAN value", "why_tests_cant": "all constructors", "anchors": ["ucan/src/ucan.rs: Ucan::new, validate"]}
{"id": "C60", "title": "Wildcards stay within their scheme", "statement": "A claimed resource that is a wildcard of one URI scheme grants nothing about resources of another scheme: if a parsed capability enables another, both resources have the same scheme.", "quantifier": "every capability semantics built on the provided methods and every two parsed capabilities", "why_tests_cant": "all resources and semantics", "anchors": ["ucan/src/capability/semantics.rs: parse_resource, ResourceUri::contains"]}
{"id": "C61", "title": "A token determines its chain", "statement": "Two chains with the same root token, built over any two memory stores, at any times, by any processes and with any supported keys, are equal at every depth, unless the hash collides on written tokens.", "quantifier": "every two stores, histories and runs", "why_tests_cant": "universally quantified over histories and depth", "anchors": ["ucan/src/chain.rs: from_ucan", "ucan/src/store.rs: MemoryStore"]}
{"id": "C62", "title": "Bottom-up stores make construction terminate", "statement": "If every token was written to the memory store after the tokens that its proof list names, chain construction from every token terminates, even while further tokens are being written.", "quantifier": "every history and every token", "why_tests_cant": "termination over all histories", "anchors": ["ucan/src/chain.rs: from_ucan", "ucan/src/store.rs: MemoryStore"]}
{"id": "C63", "title": "Proof references and hash functions", "statement": "Writing a token to a memory store returns the CID that the builder puts into a proof list with the default hash, and that entry resolves to the token; an entry made with any other hash function never resolves in a memory store.", "quantifier": "every token, hash function and history", "why_tests_cant": "all tokens and histories", "anchors": ["ucan/src/builder.rs: witnessed_by, delegating_from, default_hasher", "ucan/src/store.rs: MemoryStore::write"]}
{"id": "C64", "title": "IPLD to JWT and back", "statement": "A UCAN-IPLD value of the current version whose signature is encoded as the library encodes it, with version 1 CIDs as proofs and non-confusable principals, converts to a token and back unchanged.", "quantifier": "every such UCAN-IPLD value", "why_tests_cant": "all values", "anchors": ["ucan/src/ipld/ucan.rs: TryFrom<&UcanIpld> for Ucan, TryFrom<&Ucan> for UcanIpld"]}
{"id": "C65", "title": "Authorisation is backed by signatures of the owner", "statement": "Suppose a service accepts a request when a reported capability covers it and the owner of the resource is its only originator. Whatever token an attacker presents and whatever the store answers, acceptance implies an unbroken path of valid tokens from one the owner signed to the presented one: each link is addressed to the issuer of the next and claims something enabling the next claim, or is redelegated. So nothing is accepted that the owner did not grant, and if a circle of honest parties hands the authority on to nobody outside, nobody outside can present a token that is accepted.", "quantifier": "every token, store behaviour, clock, signing history, set of dishonest keys, capability semantics (transitive for the corollaries)", "why_tests_cant": "attackers choose tokens and store contents; the claim composes parsing, signatures, chains and reduction", "anchors": ["ucan/src/chain.rs: try_from_token_string, from_ucan, reduce_capabilities", "ucan/src/ucan.rs: validate, from_str"]}
{"id": "C66", "title": "The root's lifetime decides about re-validation", "statement": "Once a chain has been built, building it again from the same token and store content succeeds, with the same chain, at exactly the instants in the root's own lifetime; with a supplied time, at exactly the times not after the root's expiry (for an unchanged clock).", "quantifier": "every token, chain, instant, supplied time", "why_tests_cant": "all instants and all depths of proofs", "anchors": ["ucan/src/chain.rs: from_ucan, validate_link_to", "ucan/src/ucan.rs: validate, lifetime_encompasses"]}
{"id": "C67", "title": "Further proofs never reduce authority", "statement": "Appending proofs to a token's proof list (same claims, same store) never loses an offered capability, nor an originator other than the token's own issuer; every capability reported before is covered by one reported after.", "quantifier": "every pair of chains, every lawful semantics", "why_tests_cant": "all proof trees", "anchors": ["ucan/src/chain.rs: reduce_capabilities, from_ucan"]}
{"id": "C68", "title": "Validation cost is linear in the number of tokens involved", "statement": "Validating a token reads the store and the clock a number of times bounded by a constant times the number of distinct tokens involved.", "quantifier": "every token and store", "why_tests_cant": "asymptotic; needs adversarial families of tokens", "anchors": ["ucan/src/chain.rs: from_ucan"]}
{"id": "C69", "title": "Text encodings are the standard ones", "statement": "Token segments are exactly the unpadded base64url text of RFC 4648 of their bytes, did:key payloads exactly base58btc, and the CID of a token is written as `b` followed by the RFC 4648 base32 text of version 1, codec raw, hash code, digest length and digest. Decoding accepts exactly the texts that encoding produces.", "quantifier": "every byte string, every text", "why_tests_cant": "all byte strings; agreement with an independent definition by bits and by numeral values, not with test vectors", "anchors": ["ucan/src/serde.rs: base64_encode", "ucan/src/ucan.rs: encode, to_cid", "ucan/src/crypto/did.rs: parse"]}
{"id": "C70", "title": "What a proof reference text denotes", "statement": "A proof reference is understood exactly when it is the text of a CID (version 0 or 1, in any supported multibase, possibly behind a path that contains /ipfs/, possibly followed by extra bytes); every CID the library writes denotes only itself, but a CID has unboundedly many further texts that are understood as the same reference.", "quantifier": "every string, every CID", "why_tests_cant": "the set of accepted texts is infinite", "anchors": ["ucan/src/chain.rs: from_ucan", "ucan/src/ucan.rs: to_cid"]}
{"id": "C71", "title": "Exactly the JSON texts are understood", "statement": "Header and payload decoding accept exactly the RFC 8259 texts nested at most 127 deep, each read as the one value it denotes (a reader that does not insist on the end accepts the texts that start with one); what is written is such a text of the value, no JSON text of that value is shorter, and it is the only text of the value without white space whose escapes are used only where needed, of one letter where there is such and else with lower case digits.", "quantifier": "every byte string, every value", "why_tests_cant": "infinitely many texts, escapes, whitespace placements and depths", "anchors": ["ucan/src/serde.rs: DagJson::to_dag_json, from_dag_json", "ucan/src/ucan.rs: TryFrom<&str>"]}
{"id": "C72", "title": "The token format, from the characters up", "statement": "A string is understood as a UCAN exactly when it is three base64url segments (anything after a further dot is ignored) whose first two are JSON objects with the members alg, typ and ucv, iss, aud, exp, nbf, nnc, cap, fct, prf of the right types, exp, nbf, nnc, fct and prf optional; of repeated names the last counts, other members and the order do not matter. Where the deserialiser supports structs as lists, a list of exactly these values in order is understood as well. What is written, and what is signed, is the object with exactly these members in alphabetical order, exp as null when absent and the other optional ones left out.", "quantifier": "every string, every UCAN, every builder", "why_tests_cant": "all documents that other implementations may send: order, repetition, unknown members, escapes, white space, reserved forms", "anchors": ["ucan/src/ucan.rs: TryFrom<&str>, encode, UcanHeader, UcanPayload", "ucan/src/serde.rs: DagJson", "ucan/src/builder.rs: sign"]}
{"id": "C73", "title": "A UCAN-IPLD value is stored as strict DAG-CBOR and read back unchanged", "statement": "Storing a UCAN-IPLD value as DAG-CBOR gives exactly the one byte string that RFC 8949 with the DAG-CBOR strictness rules (shortest heads, definite lengths, entries in the order of their written keys, 64-bit doubles, links as tag 42 with a leading zero byte) allows for its ten-entry document; the principals and the signature appear as arrays of numbers, absent optional fields as null. Reading accepts exactly the CBOR documents whose known fields each occur once with values of the right shape, within the nesting limit; unknown entries are ignored and other head widths and orders are accepted. Reading what was written gives the value back, different values have different bytes, and a token sent this way comes back with the same text.", "quantifier": "all UCAN-IPLD values, all byte strings, all nesting limits, all tokens whose signature algorithm and header survive conversion", "why_tests_cant": "The existing round-trip test encodes and decodes one token with the same library and would pass with any self-inverse pair of codecs; it cannot show that the bytes follow the standard nor which foreign documents are accepted.", "anchors": ["ucan/src/ipld/ucan.rs", "ucan/src/ipld/principle.rs", "ucan/src/ipld/signature.rs", "ucan/src/tests/helpers.rs"]}
{"id": "C74", "title": "The example semantics mean what their resources and abilities say", "statement": "A WNFS capability covers exactly the capabilities of the same file system whose path is the same or continues it after a slash, at the same or a weaker of the five levels in their order; an email capability covers exactly its own address. Both orders are lawful (reflexive, transitive; WNFS scopes also antisymmetric), names of levels are read back and nothing else is, plain email addresses survive writing and reading, and a WNFS report with a sole originator goes back to a claim by that originator at this path or above and at this level or stronger. A path written with a slash at the end does not cover the files below it, and a query after an email address is ignored.", "quantifier": "every origin, path, level, address, proof chain", "why_tests_cant": "the fixtures are only used on a handful of literal resources; segment boundaries, trailing slashes and the order of all levels are not tested", "anchors": ["ucan/src/tests/fixtures/capabilities/wnfs.rs: WNFSScope, WNFSCapLevel", "ucan/src/tests/fixtures/capabilities/email.rs: EmailAddress, EmailAction"]}
{"id": "C75", "title": "UCAN values written as DAG-JSON come back as they were, and are as trustworthy as tokens", "statement": "A UCAN written with to_dag_json and read with from_dag_json is the same in header, payload, signed bytes and signature, even when its signed bytes are not the canonical text of its content. Exactly which documents are read as which UCAN is specified, and so is the document that is written. A UCAN that is read this way and validates has content that its issuer signed. (The last part is false: reading does not tie the signed bytes to header and payload; with one valid UCAN of an issuer anyone can write a document that is read as a valid UCAN of that issuer with any other content, and it makes a proof chain. Payloads nested 127 deep fit in a token but not in such a document.)", "quantifier": "every UCAN, document, issuer, payload, time", "why_tests_cant": "no test serialises a Ucan value as such; the forgery needs a document nobody would write by accident", "anchors": ["ucan/src/ucan.rs: derive(Serialize, Deserialize) for Ucan", "ucan/src/serde.rs: DagJson::to_dag_json, DagJson::from_dag_json"]}
{"id": "C76", "title": "A WebCrypto key has the DID of its RSA public key", "statement": "For a WebCrypto RSA key pair, whatever its size, get_did returns the DID of the RSA public key it holds, a DID parser that knows RSA makes of it a key that verifies what the pair signs, and UCANs issued with it are accepted. (False: the 24 bytes that are cut off the exported SubjectPublicKeyInfo are its header exactly when the PKCS #1 key has 255 to 65515 bytes, with exponent 65537 exactly for moduli of 1944 to 524015 bits; keys of 1024 bits, which generate accepts, get an error instead of a DID; fewer than 24 bytes are a panic.)", "quantifier": "every key, modulus, size, DER encoding, message", "why_tests_cant": "the only tests run in a browser with generated keys of the default size, 2048 bits", "anchors": ["ucan-key-support/src/web_crypto.rs: convert_spki_to_rsa_public_key, WebCryptoRsaKeyMaterial", "ucan-key-support/src/rsa.rs: RsaKeyMaterial::get_did"]}
{"id": "C77", "title": "Key DIDs follow the did:key method", "statement": "The DID of an Ed25519, P-256 or RSA key is did:key:z followed by the base58btc text of the registered multicodec code of the key type and the public key bytes, and the key names the registered JWT algorithm; a DID of such a form is given by the parser to the constructor registered for that code, with exactly the public key bytes; a DID names one key type and one public key. Ed25519 DIDs begin with did:key:z6Mk, P-256 DIDs with did:key:zDna.", "quantifier": "every key and DID", "why_tests_cant": "tests compare a single vector; interoperability needs all keys", "anchors": ["ucan/src/crypto/did.rs: *_MAGIC_BYTES, DidParser::parse", "ucan-key-support/src/ed25519.rs: get_did", "ucan-key-support/src/p256.rs: get_did", "ucan-key-support/src/rsa.rs: get_did"]}
{"id": "C78", "title": "The UCAN-IPLD form of a token, member by member", "statement": "Converting a UCAN to UCAN-IPLD succeeds exactly if issuer and audience are DIDs, the algorithm is known and all proofs are readable references, and then gives: the version, the principals of issuer and audience, the algorithm's varsig code and the signature's length in fewest bytes followed by the signature, the capabilities, expiry, start, nonce and facts of the token each in its own member, and the referenced CIDs in order (an empty list as none). Its DAG-CBOR bytes are the canonical ones of that document. Conversely the token of a UCAN-IPLD value takes each member from the value, except version and type, which are always the library's. The first conversion never panics; the second panics exactly on a truncated signature or on principal bytes that are no DID. Tokens that agree in these bytes agree in all claims.", "quantifier": "every UCAN, every UCAN-IPLD value, every byte string", "why_tests_cant": "a round trip test cannot see an error made the same way in both directions, such as two members swapped", "anchors": ["ucan/src/ipld/ucan.rs: TryFrom<&Ucan> for UcanIpld, TryFrom<&UcanIpld> for Ucan", "ucan/src/ipld/signature.rs: Signature", "ucan/src/ipld/principle.rs: Principle"]}
{"id": "C79", "title": "A failure reports the first defect", "statement": "Decoding a token text fails exactly if one of its three leading segments is missing, is not base64url or is not the expected document, and reports the leftmost such segment. Looking up a DID fails exactly if it has no key, and reports the first of: not a did:key, not base58, (panic) shorter than a key type, unknown key type, key bytes refused by the key's constructor, whatever was looked up before. Validation fails exactly for UCANs that are not valid, and reports the first of: expired, not yet active, no key for the issuer, signature refused. With a steady clock and store, building a chain from a UCAN, a token or a CID fails exactly if the UCAN or anything its proof lists lead to is defective, and reports the defect that comes first in depth-first order: the UCAN itself, then each proof in list order (reference, stored text, token, the tree below it, audience, lifetime), then redelegation of a proof that is not listed. There is at most one such defect, never together with a sound proof tree, and a token with neither is exactly one whose construction never returns.", "quantifier": "every text, DID, UCAN, token, CID, store, set of key types, time and parser history", "why_tests_cant": "the order in which checks are made shows only in inputs with several defects at once, of which there are unboundedly many combinations at every depth of a proof tree", "anchors": ["ucan/src/ucan.rs: from_str, validate", "ucan/src/crypto/did.rs: DidParser::parse", "ucan/src/store.rs: require_token", "ucan/src/chain.rs: from_ucan, from_cid, try_from_token_string, validate_link_to"]}
{"id": "C80", "title": "Validation depends on nothing but the proof tree", "statement": "Building a chain from a UCAN, a token or a CID gives the same result, chain or failure, in any two processes that read the same clock, whose stores answer alike for the references in the proof lists of the UCAN and of everything those lists lead to, and which have the same constructor (or none) for the key types of the issuers met there. Other stored content, other key types and all DIDs parsed before make no difference.", "quantifier": "every UCAN, token, CID, pair of stores (also changing ones), pair of parsers with any history, override of the time, and recursion depth", "why_tests_cant": "a test has one store and one parser; the claim compares every store with every other that agrees on the reachable part", "anchors": ["ucan/src/chain.rs: from_ucan, from_cid, try_from_token_string", "ucan/src/ucan.rs: validate", "ucan/src/crypto/did.rs: DidParser::parse", "ucan/src/store.rs: read_token, require_token"]}
{"id": "C81", "title": "Order and repetition of proofs do not change authority", "statement": "Two chains over the same store whose root tokens have the same issuer and claims, redelegate the same set of tokens and list the same set of other tokens, in whatever order and however often, offer the same capabilities, granted by the same identities, and whatever one reports is covered by a report of the other that lists all who granted it. If nothing is redelegated, tokens with the same claims, issuer, bounds and set of proof references yield the same list of reports. With redelegation the list of reports, and even the originators listed for one and the same capability, do depend on the order.", "quantifier": "every pair of chains, store content, clock, parser history and capability semantics", "why_tests_cant": "compares all permutations and repetitions of proof lists of any length, over proof trees of any shape", "anchors": ["ucan/src/chain.rs: reduce_capabilities"]}
{"id": "C82", "title": "Resources are read as the URL Standard says, and dots do not lead out of a path", "statement": "A resource text of any scheme but file is accepted exactly if it is a URL by the URL Standard, and scheme, user, password, host, port, path, query and fragment read from it are those of the Standard (lower case scheme, percent-encoding per part, host names and bracketed addresses, 16 bit ports, dot segments resolved without leaving the root). Paths after a host never keep a segment spelled `.`, `..` or with %2e. A resource is a WNFS scope exactly if it is such a text with scheme wnfs and a host; user, port, query and fragment do not matter. Of two WNFS resources one covers the other exactly if hosts agree and the resolved segments of one are the first segments of the other, so `wnfs://u/public/../private` is not covered by `wnfs://u/public`. A WNFS capability that was read, written again, is read as the same capability.", "quantifier": "every text, URL, WNFS resource, level and caveat", "why_tests_cant": "the fixtures use a few literal URLs without dots, escapes, ports, users or queries; that nothing escapes a delegated path is a claim about all spellings", "anchors": ["ucan/src/capability/semantics.rs: parse (Url::parse)", "ucan/src/tests/fixtures/capabilities/wnfs.rs: WNFSScope::contains, TryFrom<Url>"]}
{"id": "C83", "title": "A token can be used as a proof, whichever software wrote it", "statement": "A valid token received from others can be named as authority when building a token (witnessed_by, delegating_from), and once its text has been put into the store the chain of the new token builds. (Violated for tokens whose JSON is not spelled as this library spells it: the builder refers to the library's own serialisation, under which the signature does not verify, and the text received is never looked up. It holds for tokens that this library wrote, and for entries made from the CID that storing the received text returned.)", "quantifier": "every received token, memory store history, clock, key and chain", "why_tests_cant": "all tests make their tokens with this library, so the received text and its re-serialisation coincide; the failure is a statement about all stores and chains", "anchors": ["ucan/src/builder.rs: witnessed_by, delegating_from", "ucan/src/ucan.rs: to_cid, encode, from_str", "ucan/src/store.rs: write_token, read_token"]}
{"id": "C84", "title": "A token's text and CID are its identity", "statement": "The text of a UCAN consists of URL-safe characters and exactly two dots. Two UCANs have the same text exactly if header, payload and signature are the same, and, unless the hash collides on these texts, the same CID exactly then; references made with different hash functions differ. With a nonce, signing one request with different random bytes gives different tokens; without one, the random bytes have no influence. Requests that lead to one text agree in issuer, audience, bounds, facts, proofs, nonce, and in the capabilities up to order.", "quantifier": "every UCAN, request, random bytes and hash function", "why_tests_cant": "injectivity over all UCANs and requests; a test compares a few pairs", "anchors": ["ucan/src/ucan.rs: encode, to_cid", "ucan/src/builder.rs: Signable::sign, with_nonce"]}
{"id": "C85", "title": "What the reported capabilities depend on", "statement": "reduce_capabilities depends only on the issuers, claims and redelegations of the tokens of the chain and the bounds of its root: changing the facts, nonce, version, header, audience or signature of any token, or the bounds of a proof, changes no report; changing the bounds of the root changes the bounds of the reports and nothing else. There are never more reports than claims handed on, and a token without redelegation has at most one report per claim.", "quantifier": "every semantics and pair of chains of any shape", "why_tests_cant": "independence is a statement about all pairs of chains", "anchors": ["ucan/src/chain.rs: reduce_capabilities"]}
{"id": "C86", "title": "Signatures are checked by the cryptographic libraries, for the key that the issuer's DID spells out", "statement": "With the Ed25519, P-256 and RSA key types registered, a token validates in its lifetime exactly if its issuer is the did:key text (multicodec code and base58btc) of bytes that the respective cryptographic library reads as a public key and under which that library accepts the signature of the received text; the same holds for every token of a proof chain. Keys sign and verify exactly as their scheme does, WebCrypto keys exactly as the environment answers, and no missing or negative answer counts as acceptance. So if the schemes cannot be forged, every accepted token was signed for the key its issuer names. A key that its library reads from two byte strings (P-256 points, compressed or not) has two DIDs.", "quantifier": "every signature scheme, token, chain, key, message and signature", "why_tests_cant": "tests show that a few good signatures pass; that nothing else does, for every scheme, is not testable", "anchors": ["ucan-key-support/src/ed25519.rs", "ucan-key-support/src/p256.rs", "ucan-key-support/src/rsa.rs", "ucan-key-support/src/web_crypto.rs: sign, verify", "ucan/src/crypto/did.rs: DidParser", "ucan/src/ucan.rs: check_signature"]}
{"id": "C87", "title": "A service can tell from the reports whether an owner granted a capability", "statement": "A service that receives a token whose proof chain is valid can decide from the reported capabilities whether a given owner granted what is asked for. VIOLATED: whoever holds a delegation can sign one token that claims more than was delegated and hands on the delegation itself; the only report then names the broader capability with both parties as originators, so that the check used in the crate's own tests (owner among the originators of a report that enables the request) accepts it for the owner, who never signed any such claim. The same report arises when the owner did grant the broader capability, so no check whatsoever on the reports accepts all that was granted and nothing the owner did not sign. What holds: the check never refuses what was granted; it is right for reports with one originator, and for chains in which no capability enables a different one.", "quantifier": "every semantics, pair of keys, store, clock, and every decision procedure on reports", "why_tests_cant": "impossibility for every possible check, and an attack that works for every pair of comparable capabilities", "anchors": ["ucan/src/chain.rs: reduce_capabilities", "ucan/src/capability/proof.rs", "ucan/src/tests/attenuation.rs: enables_capabilities"]}
{"id": "C88", "title": "The documented programs do what the documentation says", "statement": "The documented generate_token fails exactly if the key has no DID or does not sign (or the clock is within sixty seconds of its end), and else returns the text of a UCAN with the key's DID as issuer, the given audience, an expiry sixty seconds after the reading of the clock, and no claims, proofs, facts or nonce. For those sixty seconds the documented get_capabilities, given a key type for the issuer, accepts the token whatever the store and the semantics and reports nothing; from the next second on it reports that the token is expired. With the list of key types as it is documented (empty), no token is ever accepted.", "quantifier": "every key, audience, clock, store, semantics and list of key types; every token", "why_tests_cant": "the documentation examples are compiled but never run; the statement is about all keys, clocks and tokens", "anchors": ["ucan/src/lib.rs: generate_token, get_capabilities"]}
{"id": "C89", "title": "Claiming more never grants less", "statement": "Whatever recipients understand of the token made by a sequence of builder calls, they also understand of the token made by these and further calls. (False: a further claim that the semantics does not understand hides every claim whose resource and ability do not come before its own. So claiming everything with a view without a scope leaves the token without any understood claim, and so does delegating from a held token after claiming WNFS resources of one's own.) Claims made with typed views that survive their text are understood exactly, whatever the order of the calls; what one more claim does is determined exactly; a view made without a caveat covers all caveats.", "quantifier": "every sequence of builder calls, semantics, view", "why_tests_cant": "tests claim one or two capabilities, of one scheme, without delegating in the same token; the loss depends on the order of resource texts", "anchors": ["ucan/src/builder.rs: claiming_capability, delegating_from", "ucan/src/capability/semantics.rs: CapabilityView::new, From<CapabilityView>", "ucan/src/chain.rs: reduce_capabilities"]}
{"id": "C90", "title": "A token means the same on every platform", "statement": "Whether a token is accepted, as which chain, and what a signature in IPLD contains does not depend on the width of machine words of the target (64 bits natively, 32 bits on wasm32, which the project supports and tests). (False: a token whose claims name proof number 2^32 of a token without proofs is refused by 64-bit targets and accepted, with its other claims, by 32-bit targets; a signature length of 2^32 + 1 is read as 1 by 32-bit targets and stops 64-bit targets.) What a 64-bit target accepts, every narrower target that can hold the chain accepts as the same chain; the difference is exactly the tokens that name a proof beyond the narrower word; signatures written by the library are read alike.", "quantifier": "every token, store, clock, chain and word width up to 64 bits; every signature", "why_tests_cant": "the test suites of both targets only name proofs by small numbers, and each target is tested by itself", "anchors": ["ucan/src/capability/proof.rs: ProofSelection", "ucan/src/chain.rs: from_ucan", "ucan/src/ipld/signature.rs: Signature::decode"]}
{"id": "C91", "title": "Delegation works with any store and any hash function", "statement": "Parties may choose the store and, call by call, the hash function by which authorities are named. Whatever they choose, a token whose authorities (at any depth) are each returned by the store under the CID by which they are named, delegate to it and are in their lifetime validates with all its authorities, and every capability handed to it along the chain is covered by a report naming who granted it, with the token's lifetime. Conversely a token is only accepted if the store returned, for each authority and in the order of the calls, a token under exactly that CID. A store with a hash function of its own (such as the Blake2b store of the test suite) returns what was written and nothing else; it serves tokens that name authorities with its function and no token that names one with another.", "quantifier": "every store, clock, hash functions and semantics; every tree of tokens of any depth and width; every sequence of builder calls", "why_tests_cant": "the test suite has one chain of two tokens with one other store; a store or a hash function not thought of, and longer chains that mix hash functions, are never tried", "anchors": ["ucan/src/store.rs: UcanStore, read_token", "ucan/src/builder.rs: witnessed_by, delegating_from", "ucan/src/tests/fixtures/store.rs: Blake2bMemoryStore", "ucan/src/chain.rs: from_ucan"]}
{"id": "C92", "title": "Interleaved and abandoned validations do not disturb each other", "statement": "Building a proof chain is an asynchronous operation. However the futures of any number of validations are scheduled, and whatever others write to the store in between, a validation that finishes has the result it has when running by itself in an environment that gives exactly the answers it got, in that order; so every other property of validation holds in every interleaving. A chain found while others use the same memory store is the one found by itself in the store as it is then or later. In a quiet environment a validation that has a result gets it in every schedule that always comes back to it, and one that has none is never ready. Dropping a future at any point leaves a DID parser with which later validations have the same results as with a new one.", "quantifier": "any number of validations, every schedule, every history of clock and store, every moment at which a future is dropped, every token and proof tree of any depth (no bound on the recursion)", "why_tests_cant": "the number of schedules and of moments to abandon a validation is unbounded; tests run one validation at a time to its end", "anchors": ["ucan/src/chain.rs: from_ucan, try_from_token_string", "ucan/src/ucan.rs: validate, check_signature", "ucan/src/crypto/did.rs: DidParser::parse"]}
{"id": "C93", "title": "A caveat on a delegated proof restricts what is passed on", "statement": "A token delegates one of its proofs by claiming the resource prf:N with the ability ucan/DELEGATE, and like every claim this one has a caveat. Whatever is reported for the token by virtue of that proof is subject to the caveat: a holder who passes on a grant under a restriction does not pass on more than that. (The code violates this: caveats of delegated proofs have no effect whatsoever on what is reported, so that a restricted delegation passes on the whole grant. What holds: caveats of the grant itself are never lost on the way, and an empty list of caveats delegates nothing.)", "quantifier": "all chains of any shape, all caveats, all semantics that do not claim the ability ucan/DELEGATE for themselves", "why_tests_cant": "The tests delegate proofs with the empty caveat only; that caveats are ignored in every chain and at every depth is a statement about pairs of chains.", "anchors": ["ucan/src/chain.rs:74-105", "ucan/src/chain.rs:173-290", "ucan/src/capability/proof.rs:1-79"]}
{"id": "C94", "title": "Handing a grant on unchanged changes nothing but its lifetime", "statement": "A token that does nothing but delegate one of its proofs has exactly the capabilities reported that are reported for the proof, each with the same originators and with the lifetime of the new token; and so on through any number of holders. (The code violates this: capabilities are merged once more at each holder. If one capability reported for the proof enables a later one, the later one disappears and its originators are from then on reported for the broader one, which they never granted. What holds: it is so for proofs with irredundant reports, everything that was handed on once is of that kind, and which capabilities remain is determined exactly.)", "quantifier": "all chains of any shape below the holders, all numbers of holders, all semantics that do not claim the ability ucan/DELEGATE for themselves", "why_tests_cant": "Tests look at single chains and single holders; that reports are stable is a statement about all chains and all numbers of holders, and the violation needs two grants of different breadth and one more holder.", "anchors": ["ucan/src/chain.rs:173-290", "ucan/src/builder.rs:257-277"]}
{"id": "C95", "title": "An accepted chain was in force as a whole at one moment of its validation", "statement": "If the clock never goes backwards and no time is supplied, then for every chain that is accepted there is one moment, between the beginning and the end of the validation, at which every token of the chain was in force; and a chain of authentic and properly linked tokens whose first token is in force whenever the clock is read is accepted however long that takes. (The code violates the first half: expiry and not-before are checked against two readings of the clock, so that a token which expires before it begins is accepted when the clock moves on in between. It holds for all chains whose first token has a lifetime at all.)", "quantifier": "all chains of any shape and depth, all clocks that do not go backwards, all stores, all contents of the key cache", "why_tests_cant": "Tests run in an instant of the system clock, which they cannot move between two readings; the statement is about all ways in which time can pass during a validation that awaits a store.", "anchors": ["ucan/src/chain.rs:52-146", "ucan/src/ucan.rs:69-126"]}
{"id": "C96", "title": "A signed reference fixes the proof, whatever the store answers", "statement": "A token refers to its proofs by hashes, and the references are signed. So, whatever the store answers, every proof in an accepted chain has the hash with which the token above refers to it, and the first token alone determines the chain. (The code violates this: what a store returns is not hashed again. If an owner granted two capabilities in two tokens and the holder hands on the first, a store that returns the second instead makes the chain report the second as handed on. It holds for stores that return nothing but what was asked for; what other stores can do is determined exactly: they can bring about every tree of valid tokens in which each is addressed to the issuer of the one above and outlives it, and nothing else.)", "quantifier": "all tokens and chains of any shape, all stores including those that answer each reading differently, all hash functions, times and parsers", "why_tests_cant": "The repository tests one store, which is faithful; the statement is about all stores, and the exact extent of what they can do is a statement about all trees of tokens.", "anchors": ["ucan/src/chain.rs:64-76", "ucan/src/chain.rs:116-132", "ucan/src/store.rs:56-85"]}
{"id": "C97", "title": "No identity and no capability type is special", "statement": "The reports of a chain depend on who issued its tokens only through equality of names, and on the types an application uses for scopes and abilities only through how it reads and compares them. If every party gets another name, the reports are the same with each set of originators under the other names, even if several parties get the same name. If two applications correspond, so that one reads what the other reads and compares it alike, they get corresponding reports from every chain.", "quantifier": "all chains of any shape, all functions on identities, all pairs of semantics with a translation of scopes and abilities that preserves reading and comparing", "why_tests_cant": "The statement relates runs on different chains and with different type parameters, for all functions between them; tests run one chain with one semantics.", "anchors": ["ucan/src/chain.rs:173-288", "ucan/src/capability/semantics.rs:137-260"]}
{"id": "C98", "title": "Every scheme has a wildcard", "statement": "For every URI scheme, the resource `<scheme>:*` stands for all resources, and nothing else does: a resource text is a wildcard exactly if it consists of a scheme, a colon and an asterisk, apart from space around it and a query or fragment, which do not count.", "quantifier": "every resource text, scheme and capability semantics", "why_tests_cant": "all texts and schemes; the fixtures only use mailto, wnfs and prf", "anchors": ["ucan/src/capability/semantics.rs:137-142 (parse_resource)", "ucan/src/capability/semantics.rs:160-176 (Url::parse)"]}
{"id": "C99", "title": "A presented token is only accepted for the party it is addressed to", "statement": "A token presented to a party is accepted only if its audience is that party, and every token cited as a proof is accepted only if its audience is the issuer of the token citing it.", "quantifier": "every token, store, clock and chain", "why_tests_cant": "all audiences and chains; no fixture presents a token addressed to someone else", "anchors": ["ucan/src/chain.rs:52-112 (from_ucan)", "ucan/src/chain.rs:148-163 (validate_link_to)", "ucan/src/ucan.rs:69-83 (validate)"]}
{"id": "C100", "title": "No more capabilities are reported than tokens claim", "statement": "A chain never reports more capabilities than its tokens claim, each token counted once however often it is cited.", "quantifier": "every chain and capability semantics, tokens cited any number of times", "why_tests_cant": "all chains; needs induction over the levels of shared proofs", "anchors": ["ucan/src/chain.rs:173-288 (reduce_capabilities)", "ucan/src/capability/semantics.rs:248-260 (enables)"]}
{"id": "C101", "title": "A clock that cannot be read leads to refusal, neither to acceptance nor to a crash", "statement": "If the system time cannot be determined because it is before 1970, tokens with bounds are refused with an error, tokens without bounds are treated as ever, and no token is accepted that would be refused at some time. Building a token with a lifetime fails with an error.", "quantifier": "every clock with any readable and unreadable moments, every UCAN, chain, store, given time and builder", "why_tests_cant": "tests run with the clock of the machine; all interleavings of readable and unreadable moments", "anchors": ["ucan/src/time.rs:3-8 (now)", "ucan/src/ucan.rs:69-126 (validate, is_expired, is_too_early)", "ucan/src/builder.rs:284-290 (implied_expiration)"]}
{"id": "C102", "title": "Refused tokens leave nothing behind", "statement": "Validating tokens that are refused takes no lasting memory: a DID parser keeps only the keys of issuers whose tokens were accepted, and nobody without an accepted token can make it grow.", "quantifier": "every sequence of UCANs, parser, clock and set of key types", "why_tests_cant": "sequences of any length; growth over the life of a service does not show in a test", "anchors": ["ucan/src/crypto/did.rs:42-66 (parse)", "ucan/src/ucan.rs:69-89 (validate, check_signature)"]}
{"id": "C103", "title": "A party's own claims are reported as its own", "statement": "Whoever signs a token is named among the originators of a report that covers what the token claims, whatever proofs it cites: an owner does not lose the right to their own resource by citing the token of somebody else. (Violated: if a proof cited for it offers anything that enables the claim, by whomever it was issued, the report names the originators of that proof and not the signer. A stranger who addresses a token with a broad claim to the owner is then named instead of the owner. What holds: the signer is named for every claim that no proof enables, and it is determined exactly when a signer is named at all.)", "quantifier": "every chain, semantics, pair of keys and claims", "why_tests_cant": "the tests only cite proofs of the owner; all shapes of chains and all semantics", "anchors": ["ucan/src/chain.rs:173-288 (reduce_capabilities)", "ucan/src/builder.rs:220-227 (witnessed_by)"]}
{"id": "C104", "title": "A service that learns to understand more accepts no less", "statement": "If a service replaces its semantics by one that understands further claims and otherwise agrees, then whatever was reported before is covered by what is reported afterwards, with the same lifetime, and whoever granted something before still does. (The second half is violated: when a claim of a proof, so far not understood, turns out to enable a claim of the token, the originator changes from the signer of the token to that of the proof. What holds: everyone else keeps their place.)", "quantifier": "every pair of semantics of any types of which one refines the other, every chain", "why_tests_cant": "quantifies over pairs of semantics", "anchors": ["ucan/src/chain.rs:173-288 (reduce_capabilities)", "ucan/src/capability/semantics.rs:104-195 (CapabilitySemantics)"]}
{"id": "C105", "title": "Nothing is fetched on behalf of tokens that have not been checked", "statement": "While a token is validated, the store is asked only for references in the proof list of a token that has itself been checked: signed by its issuer, not expired, and active. Nothing is asked once the validation has failed, and nothing at all if the presented token fails its own checks. A proof that was not delegated to the token citing it (another audience) is not followed further. (The last sentence is violated: that a proof belongs to the token citing it is checked only after everything below the proof has been fetched and checked, so that a token which is refused for citing somebody else's proof can cost 2^(n+1) accesses with n + 1 tokens in the store.)", "quantifier": "every token, parser, store and clock that may change at every moment, every schedule of any number of concurrent validations", "why_tests_cant": "tests observe results, not the requests made on the way; all stores and interleavings", "anchors": ["ucan/src/chain.rs:52-112 (from_ucan)", "ucan/src/chain.rs:135-163 (try_from_token_string, validate_link_to)", "ucan/src/ucan.rs:69-89 (validate)", "ucan/src/store.rs:65-86 (require_token, read_token)"]}
{"id": "C106", "title": "Validation nests to a bounded depth", "statement": "However the tokens in a store cite each other, validating one of them keeps only a bounded number of nested calls waiting, so that it cannot exhaust the stack. (Violated: while a token is accepted, as many calls wait inside each other as the chain has levels, no more and no less, and the code sets no limit to that. What holds: against a fixed store it is at most the number of tokens the store holds, which is attained for every number up to 2^32.)", "quantifier": "every token, store, clock and parser", "why_tests_cant": "needs chains of every depth and the maximum over all moments of a run", "anchors": ["ucan/src/chain.rs:52-112 (from_ucan)", "ucan/src/chain.rs:135-146 (try_from_token_string)"]}
{"id": "C107", "title": "The debug text of a report cannot be forged", "statement": "The debug text of a reported capability (as written to logs) is a single line without control characters, whatever the tokens contained; and two reports with the same text agree in their originators, their time bounds, the texts of resource and ability, and the caveat. Nothing a party puts into a DID, a resource, an ability or a caveat can make one report read like another or add lines to a log. Times, resource and ability stand under their names, the times in decimal, and texts of visible characters without quotes and backslashes appear as they are, so that logs can be searched for them; all other characters are written with the escapes of a Rust string, so that every text can be read off exactly.", "quantifier": "every report, semantics and table of printable characters beyond U+00A0", "why_tests_cant": "quantifies over all texts chosen by an adversary and all pairs of reports", "anchors": ["ucan/src/chain.rs:25-38 (Debug for CapabilityInfo)", "ucan/src/capability/semantics.rs:208-221 (Debug for CapabilityView)"]}
{"id": "C108", "title": "No token is accepted after the instant of its expiry", "statement": "With the system time taken exactly, a token is accepted only at instants from the beginning of its not-before time up to the instant of its expiry, and a token built with a lifetime of l seconds is valid for l seconds. (Violated: times are compared in whole seconds, so that a token is accepted throughout the second that begins at its expiry. What holds: it is determined exactly at which instants a token is accepted, none of them a second or more after the expiry, and a lifetime of l seconds lasts at least l and less than l + 1 seconds.)", "quantifier": "every token, chain, builder and course of the system time, in nanoseconds", "why_tests_cant": "tests use whole seconds; all instants", "anchors": ["ucan/src/time.rs:3-8 (now)", "ucan/src/ucan.rs:69-126 (validate, is_expired, is_too_early)", "ucan/src/builder.rs:284-309 (implied_expiration, build)"]}
{"id": "C109", "title": "No token crashes the service it is presented to", "statement": "If neither the store nor the keys panic, then building a proof chain from any token text, UCAN or CID returns a chain or an error, and so does reporting its capabilities. (Violated: there is one short unsigned text on which every validation panics, whatever the clock, the store and the key types, and likewise every validation of a valid token that cites it. What holds: this is the only way — a panic comes from an issuer whose `did:key` decodes to fewer than two bytes, in the token or in one fetched below it, whose lifetime passes; a UCAN makes its own validation panic exactly then. With a clock before 1970 the panic on reading it is the only other one.)", "quantifier": "every text, UCAN, CID, store and clock that change meanwhile, every set of key types, every parser state", "why_tests_cant": "all texts and all trees of stored tokens; absence of panics on all paths", "anchors": ["ucan/src/crypto/did.rs:46-70 (parse)", "ucan/src/chain.rs:52-146 (from_ucan, from_cid, try_from_token_string)", "ucan/src/ucan.rs:69-95 (validate, check_signature)"]}
{"id": "C110", "title": "Withdrawing a stored token revokes exactly what cites it", "statement": "When a token is withdrawn from the store, the chains that refer to its CID anywhere in their proof lists are no longer accepted, and all other chains are accepted as before. This takes effect at once: no chain whose validation begins after the withdrawal refers to the withdrawn token, whatever was validated before with the same parser.", "quantifier": "every store, CID, token, time, and every history of the parser", "why_tests_cant": "both directions over all stores and proof trees; a cache that outlives the withdrawal would be missed", "anchors": ["ucan/src/chain.rs:52-146 (from_ucan, try_from_token_string)", "ucan/src/store.rs:65-86 (read_token, require_token)"]}
{"id": "C111", "title": "Supporting more kinds of keys refuses nothing", "statement": "A service whose DID parser has been given constructors for further kinds of keys accepts every UCAN, token and CID that it accepted before, with the same chain. Conversely the chains accepted with fewer kinds of keys are exactly those accepted with more in which every issuer is of one of the fewer kinds.", "quantifier": "every set of constructors, every further constructors for other kinds, every token, store and clock", "why_tests_cant": "relates two configurations on all inputs", "anchors": ["ucan/src/crypto/did.rs:17-70 (DidParser)", "ucan/src/ucan.rs:69-95 (validate, check_signature)"]}
{"id": "C112", "title": "No date is special", "statement": "Whether a chain is accepted depends only on the order of the time bounds in it and of the time of validation. If a chain and the clock are moved to another date, that is, the same parties issue the same claims with all bounds moved by the same number of seconds (or in any way that keeps their order), then the moved chain is accepted exactly when the original is, and the reported capabilities and originators are the same with the dates moved.", "quantifier": "every chain, every number of seconds for which no bound exceeds 64 bits, every order-preserving change of dates, every clock and supplied time", "why_tests_cant": "tests run at one date; a value that does not fit some narrower type, or a sentinel date, shows only at others", "anchors": ["ucan/src/ucan.rs:69-165 (validate, is_expired, is_too_early, lifetime comparisons)", "ucan/src/chain.rs:52-146, 173-288"]}
{"id": "C113", "title": "No token is issued without an end", "statement": "The builder refuses to build a UCAN if it was told neither a lifetime nor an expiry, as its documentation says that one of them must be given. VIOLATED: it builds a UCAN without expiry; signed, it is accepted by every service at every time, for ever. What holds: a UCAN has an expiry exactly if the calls gave a lifetime or an expiry, and then it is accepted in no chain, at whatever depth, from a clock or for a time past it.", "quantifier": "every sequence of builder calls, key, clock, supplied time, service and store", "why_tests_cant": "all sequences of calls and all times", "anchors": ["ucan/src/builder.rs:131-138 (documentation of default), 284-311 (implied_expiration, build)", "ucan/src/ucan.rs:69-127"]}
{"id": "C114", "title": "No token is issued that its authorities do not support", "statement": "The builder refuses to build a UCAN on an authority that cannot support it, because it is addressed to somebody else or does not last as long. VIOLATED: whether build succeeds does not depend on the authorities; in particular a UCAN for which no expiry was asked, built on an authority that has one, is signed and then accepted at no time by anybody. What holds: as the documentation of witnessed_by warns, a chain with the token is accepted only if every authority named for it is addressed to its issuer and encloses its lifetime, provided the store answers for the authority's CID only with the authority.", "quantifier": "every sequence of builder calls, authority, hash function, store, clock and supplied time", "why_tests_cant": "all authorities and all times; that something is never accepted cannot be tested", "anchors": ["ucan/src/builder.rs:215-277 (witnessed_by, delegating_from), 292-311 (build)", "ucan/src/chain.rs:52-110, 148-170 (from_ucan, validate_link_to)"]}
{"id": "C115", "title": "A token can be withdrawn by its CID", "statement": "A service that keeps a list of CIDs of withdrawn tokens and refuses chains in which a proof reference is on the list never accepts a chain resting on a withdrawn token. VIOLATED: whoever has the token writes anything behind it, stores that and cites its CID; it parses to the same UCAN, and no token in the chain refers to a CID of the withdrawn token, whatever the hash function. If the issuer's kind of key has a second signature for the same bytes, the token with this signature also has other CIDs. What holds: a service that computes the CID of every token in the accepted chain, instead of looking at the references, finds whatever was signed with a listed token, under any reference and in any text, provided keys have one signature per message.", "quantifier": "every token, text, reference, chain, depth, store, hash function and list", "why_tests_cant": "all ways of writing and citing a token; absence from every accepted chain", "anchors": ["ucan/src/ucan.rs:199-250 (to_cid, try_from)", "ucan/src/chain.rs:52-146", "ucan/src/store.rs:28-129"]}
{"id": "C116", "title": "The accepted chain shows who granted what", "statement": "A service that does not rely on the reports, which mix up originators (C87), can compute from an accepted chain who granted what with the public accessors of the chain and of its UCANs and the public semantics of proof delegation, and without fetching or verifying anything again. The result is exactly what the tokens grant by the rules of the specification. A request is accepted for an owner exactly if the owner granted something that enables it; with a lawful semantics nothing is accepted that the check used in the tests of the crate refuses, and only what is covered by a claim the owner signed.", "quantifier": "every accepted chain of any depth and shape, every semantics, owner and request", "why_tests_cant": "equality with the grants of the specification for all delegation trees", "anchors": ["ucan/src/chain.rs:165-171 (ucan, proofs)", "ucan/src/capability/proof.rs:1-80", "ucan/src/capability/semantics.rs:192-260"]}
{"id": "C117", "title": "A UCAN kept as an IPLD block can serve as a proof", "statement": "A UCAN that is stored in its UCAN-IPLD form can be named as an authority by the CID of that block, and the chain of a token naming it so builds. VIOLATED: in an accepted chain every proof reference, at any depth, is to a raw block; a token that names the DAG-CBOR block of an authority is refused by every service, with every store, hash function and time, although both tokens are valid by themselves and the same token naming the authority's text is accepted. What holds: the block of a portable token, read back and converted to a token, gives the text that ordinary references name, and writing that text to the store makes them resolve.", "quantifier": "every token, chain depth, store, hash function, clock and supplied time", "why_tests_cant": "absence from every accepted chain; round trip for all portable tokens", "anchors": ["ucan/src/store.rs:72-86 (read_token)", "ucan/src/chain.rs:52-146", "ucan/src/ipld/ucan.rs:12-150"]}
{"id": "C118", "title": "A token that ends before it begins is neither issued nor accepted", "statement": "The builder refuses to build a UCAN whose expiry is before its not-before time, and no service accepts one. VIOLATED: it is built like any other, and since a supplied time replaces the clock only for the expiry, it is accepted for every supplied time up to its expiry from its beginning on, for ever. What holds: where no time is supplied it is in no accepted chain, at any depth, unless the clock moves during validation from its end or before to its beginning or after.", "quantifier": "every sequence of builder calls, clock, supplied time, chain and depth", "why_tests_cant": "all clocks and times; absence from every accepted chain", "anchors": ["ucan/src/builder.rs:187-196, 292-309", "ucan/src/ucan.rs:69-83, 103-126"]}
{"id": "C119", "title": "What a service logs about a refusal cannot be forged", "statement": "Whoever presents a token has no say in what the library's error message says about it beyond the facts. VIOLATED: for every text there is a token, signed by nobody, which every service refuses with a message that ends in a line break and that text; and the message about a link whose parties do not match is the same for different parties. What holds: every message the library words itself is one of sixteen sentences whose only variable parts are an issuer or audience of a token presented or stored, a CID, a codec, an index or two bytes; the kind of refusal can be told from the message, whoever is named; every refusal of these kinds has a message; and if no party has a control character in its DID then every message is one line. The messages change nothing else: a token is accepted, refused and of which kind exactly as without them.", "quantifier": "every token, store, key type, clock, supplied time, chain depth and text", "why_tests_cant": "all texts an attacker can choose; absence of further wordings", "anchors": ["ucan/src/ucan.rs:69-83, 226-270", "ucan/src/crypto/did.rs:36-66", "ucan/src/store.rs:64-87", "ucan/src/chain.rs:52-163"]}
{"id": "C120", "title": "Every reader of a token reads the same", "statement": "What a token says does not depend on how its reader deals with what JSON leaves open: neither on the order of members nor on which of several members of one name it goes by. VIOLATED: names may be repeated, and this library goes by the last; for any two payloads there is a token, signed by whoever it is, that this library reads as the second and that a reader which goes by the first of several members reads as the first. What holds: where no object of a token, at any depth, repeats a name, every reordering of its members is accepted alike and says the same, and the two kinds of readers agree; and the tokens this library writes repeat no name.", "quantifier": "every token, every pair of payloads, every signature, every reordering at any depth", "why_tests_cant": "all documents and all reorderings; a universal statement about what is written", "anchors": ["ucan/src/ucan.rs:22-43, 226-270", "ucan/src/serde.rs:20-46"]}
{"id": "C121", "title": "Every kind of key can be supported", "statement": "An application can add support for any key type of the multicodec table by registering a constructor under the type's code. VIOLATED: a DID is looked up by exactly two bytes, so a constructor registered for a code that takes one byte, or three or more, is never called, and no registration under codes makes a DID of such a type give a key (one of a one-byte code without key bytes even panics). What holds: a constructor registered last for a code of two bytes gets the bytes of every such key, whatever was parsed before, and of several for one prefix only the last counts.", "quantifier": "every list of registrations, every code, every key, every DID, every history of the parser", "why_tests_cant": "all codes, all lists of registrations and all histories; that something is never called", "anchors": ["ucan/src/crypto/did.rs:5-8, 30-66"]}
{"id": "C122", "title": "Whoever a token is issued to can use it", "statement": "A token that is issued is addressed to somebody who can pass it on. VIOLATED: any text is accepted as the audience, the token is built and signed all the same and accepted when presented, but nothing can be delegated with it: no accepted chain has a proof whose audience is not a did:key of a supported type. DIDs of other methods and DID URLs with a fragment are such texts whatever key types are supported. What holds: the audience of every proof in an accepted chain is the DID of a supported key, and that key verifies the signature of the token that is proved.", "quantifier": "every sequence of builder calls, every audience, every set of supported key types, every chain at any depth", "why_tests_cant": "all audiences, all stores and all chains; that no chain exists", "anchors": ["ucan/src/builder.rs:172-175, 292-309", "ucan/src/chain.rs:52-120, 148-163", "ucan/src/crypto/did.rs:42-66"]}
{"id": "C123", "title": "Caveats with different numbers are told apart", "statement": "A caveat that constrains a number enables exactly the caveats that constrain it to the same number. VIOLATED: numbers that are not integers of 64 bits are compared as doubles, so there are different natural numbers such that a caveat with one is read as, and enables, the caveat with the other (for every reader of doubles that reads natural numbers a little beyond 64 bits). The converse fails too: a number written with fraction or exponent neither enables nor is enabled by an integer, also where it is the same number. What holds: among integers of 64 bits, one enables the other exactly if they are the same.", "quantifier": "every key, every pair of number texts, every reader of doubles", "why_tests_cant": "all numbers; that a collision exists for every reader of doubles is a counting argument", "anchors": ["ucan/src/capability/caveats.rs:31-69"]}
{"id": "C124", "title": "Whatever is issued can be read", "statement": "Every token that is signed can be read from its text again. VIOLATED: signing does not check facts and caveats, and those of a reserved form of the notation (an object with the single member \"/\" that is a text, or that is an object with the text \"bytes\") or nested too deep are signed, but the text is refused by every reader: so with any text in a fact named \"/\", and with any nesting of 126 levels or more. What holds: exactly the signed tokens without a reserved form, with facts of depth at most 126 and caveats of depth at most 123 can be read, and they are read as they were issued; from the others no chain can be built.", "quantifier": "every signable token over held values, every text, every depth", "why_tests_cant": "which of all values cannot be read again is a statement about all tokens and readers; the forms are nested at any place", "anchors": ["ucan/src/builder.rs:52-104", "ucan/src/serde.rs:20-46", "ucan/src/ucan.rs:207-260"]}
{"id": "C125", "title": "Citing proofs makes a token longer by a fixed amount each", "statement": "A token cites its proofs by reference, so how long it is depends on how many proofs are cited and not on what they carry or on how many proofs they cite in turn. With the default hash function, each proof adds 62 bytes to the payload and at most 83 characters to the text, the first 8 bytes (11 characters) more; tokens that cite as many proofs, and are otherwise built alike, have texts of the same length.", "quantifier": "every builder, every list of tokens cited, every issuer with signatures of fixed length", "why_tests_cant": "all tokens of any size and depth of delegation; a length that grows with the chain would show only in deep ones", "anchors": ["ucan/src/builder.rs:215-227", "ucan/src/ucan.rs:91-100"]}
{"id": "C126", "title": "Abilities mean the same whatever the case of their letters", "statement": "As the UCAN specification asks, abilities that differ in the case of letters only mean the same. VIOLATED for the one ability that the library itself reads: a proof is handed on for the exact spelling ucan/DELEGATE only; a token that claims any other spelling is accepted, but everything reported is a claim of the token itself. The helper meant to write such values in lower case is used nowhere, and whatever it wrote would not be understood: no text without upper-case letters is. What holds: the case of the letters of a resource's scheme does not matter to any capability type.", "quantifier": "every chain, every spelling, every resource, every capability type", "why_tests_cant": "all spellings and chains; the difference is silent, as nothing is refused", "anchors": ["ucan/src/capability/proof.rs:12-24", "ucan/src/serde.rs:12-18", "ucan/src/chain.rs:76-105", "ucan/src/capability/semantics.rs:137-200"]}
{"id": "C127", "title": "What the test suite shows for its samples holds for all parties, capabilities and times", "statement": "Let any number of parties issue tokens for B, each with capabilities of its own, and let B cite these in a token of no longer life that claims capabilities of which none enables a later one. If the cited tokens are stored, B's token is accepted as long as it lives, whoever the parties are and whatever they claim; its proofs are the cited tokens in order; and each claim is reported once, with the lifetime of B's token, for exactly the issuers of the cited tokens that claim something that enables it or, if there are none, for B. The way the tests ask who vouches for a capability then decides rightly.", "quantifier": "all parties, capabilities, lifetimes, numbers of cited tokens, stores, clocks and capability types whose abilities and resources are ordered", "why_tests_cant": "the tests run this for two or three parties and one or two capabilities", "anchors": ["ucan/src/tests/attenuation.rs:20-300", "ucan/src/tests/chain.rs:18-254", "ucan/src/chain.rs:109-288", "ucan/src/builder.rs:60-310"]}
{"id": "C128", "title": "A token tells exactly what its issuer said last", "statement": "Two programs that call the builder, with whatever arguments, order and repetition, issue tokens with the same signed text exactly if they give the same names of the issuer and of its algorithm, the same audience, begin and expiry (set, or implied by a lifetime), the same value for each fact, the same references to authorities in order, the same claims to each ability on each resource in order, and the same nonce if there is one. With one key, they issue the same token exactly then. So nothing else is disclosed: not what was said and replaced, not whether the expiry came from a lifetime, and of a cited token only its reference: whatever is issued is the same if another token with the same reference is cited. A token cited several times is listed as often (the library does not prevent duplicate proofs, despite the name of a test).", "quantifier": "every two programs of builder calls, keys, clocks, random bytes", "why_tests_cant": "a statement about pairs of executions and all programs", "anchors": ["ucan/src/builder.rs:39-310", "ucan/src/tests/builder.rs:108-160"]}
{"id": "C129", "title": "A claim is reported for exactly those it comes from", "statement": "In a constructed chain of any depth and width in which no token redelegates and no token makes a claim that enables a later one of its own, each claim of the first token is reported once, the last one first, with the lifetime of that token, and for exactly the parties one arrives at by going, from token to cited token, from a claim to one that enables it, until no cited token claims anything that does. In a line of tokens with one claim each this is one party: the issuer of the token before the first break. What comes after the break has no influence.", "quantifier": "every chain of that kind, semantics of any kind (lawful or not), store, clock and time", "why_tests_cant": "depth and width of chains, and the relation between capabilities, are unbounded", "anchors": ["ucan/src/chain.rs:180-300", "ucan/src/tests/chain.rs:18-130", "ucan/src/tests/attenuation.rs:20-120"]}
{"id": "C130", "title": "What is reported can be claimed and passed on", "statement": "A holder who takes a capability that was reported for a token, has the library write it as a claim (the conversion that claiming_capability applies), and cites the token, passes it on: it is reported again, for everyone it was reported for. (Violated for wildcards: all mail, reported, is written as a bare asterisk, which is not understood, and nothing at all is reported. It holds for each capability that is read from its own writing, in particular for all WNFS capabilities that are not wildcards, and in general what is reported is what is read from the writing, for those who vouch for it.)", "quantifier": "every accepted chain, semantics, reported capability, store, clock", "why_tests_cant": "all chains, capabilities and semantics; the tests only pass on claims written by hand", "anchors": ["ucan/src/capability/semantics.rs:275-301", "ucan/src/builder.rs:231-237", "ucan/src/chain.rs:173-300"]}
{"id": "C131", "title": "One's own resources stay one's own", "statement": "A claim to resources of one's own (my:) is about those of the issuer of the token it stands in: when that token is presented, it is reported for that issuer and for nobody else. (Violated: if a cited token also claims my: resources, what is reported are those of the issuer of the cited token; a party that grants what is its own while citing a grant of somebody else's own hands on the latter and not the former. It holds if nobody else in the chain claims my: resources. In any case nobody is reported for an own resource who did not claim own resources, and named resources never turn into own ones or back. Under semantics bound to a URI scheme, as all that come with the crate are, own resources can be claimed only as a whole.)", "quantifier": "every chain, semantics, reported capability and originator", "why_tests_cant": "all chains of any depth and all semantics; the tests contain no my: resource in a chain", "anchors": ["ucan/src/capability/semantics.rs:62-103", "ucan/src/capability/semantics.rs:154-258", "ucan/src/chain.rs:173-300"]}
{"id": "C132", "title": "A grant can be used on behalf of the party that gave it", "statement": "A holder of a grant can claim it on behalf of the party it came from, by a resource of the form as:<DID>:<resource>, next to other claims. (Violated: no text of that form is understood under any semantics, so no capability on behalf of a DID is ever reported, at whatever depth it is claimed; and the claims that come after such a claim in the same token are not read either, so that adding it makes what was reported before disappear.)", "quantifier": "every chain, token, semantics with the provided parser, claim text and DID", "why_tests_cant": "all resource texts, DIDs and chains; no test contains an as: resource", "anchors": ["ucan/src/capability/semantics.rs:116-135", "ucan/src/capability/semantics.rs:160-176", "ucan/src/chain.rs:173-300"]}
{"id": "C133", "title": "Citing everything one holds does no harm", "statement": "A proof that is cited without being handed on, and that offers nothing which enables a claim of the token, makes no difference to the reports: two tokens of one issuer with the same claims and bounds have the very same reports if the same of their cited proofs bear on the claims, whatever other (acceptable) proofs they cite, in whatever places and however often. If a token hands proofs on by number, further proofs cited behind them that do not bear on its claims change nothing either.", "quantifier": "all chains of any depth, semantics, proof lists, stores", "why_tests_cant": "all proof lists and all chains behind them", "anchors": ["ucan/src/chain.rs:173-263", "ucan/src/builder.rs:220-227"]}
{"id": "C134", "title": "Claims can be made together or apart", "statement": "A token with several claims is reported like several tokens of the same issuer with the same proofs and bounds that make these claims one by one. (Violated: if one claim enables another, the originators of the latter are reported for the former; so a holder of one address who also claims all mail has all mail reported for the owner of the address, but only if both claims are in one token. It holds for tokens that hand nothing on and whose claims do not enable one another: any selection of the claims is reported just as they are among all of them.)", "quantifier": "all chains, semantics, claim lists and selections from them", "why_tests_cant": "all combinations of claims and proofs", "anchors": ["ucan/src/chain.rs:218-288", "ucan/src/builder.rs:229-262"]}
{"id": "C135", "title": "Handing a token on and claiming what is reported for it come to the same", "statement": "A holder can pass on everything it was granted in two ways, by handing on the proof and by citing it and claiming each capability that is reported for it; with the same bounds, both are reported alike. (Violated: if one of the capabilities enables another, the originators of the weaker one are reported for the stronger one after handing on, and not after claiming; so a party that granted the weaker ability appears to have granted the stronger one. It holds if none of the reported capabilities enables another.)", "quantifier": "all accepted chains, semantics, proofs", "why_tests_cant": "all chains and all combinations of capabilities; the tests compare the two ways for no grant", "anchors": ["ucan/src/chain.rs:173-288", "ucan/src/builder.rs:220-300"]}
{"id": "C136", "title": "One of those listed granted what is reported", "statement": "The originators of a report cannot each be trusted (C31), but one of them granted the capability by the rules, through an unbroken path of tokens that were valid when read and that were signed by their issuers where these are honest. So a service may accept requests in the name of a group of honest owners whenever a report that covers the request lists nobody outside the group: whatever token, store and clock it is confronted with, one of the group then signed a UCAN that claims something covering it, and if the group belongs to a circle of honest parties that hands the authority on to nobody outside, the token was issued by one of the circle. Conversely what was granted is accepted if all who claimed, in the tokens of the chain, something connected to it by comparisons belong to the group.", "quantifier": "every token, store behaviour, clock, signing history, set of honest keys and capability semantics (transitive for the group check)", "why_tests_cant": "all trees of tokens and all groups; attackers choose tokens and store contents", "anchors": ["ucan/src/chain.rs: reduce_capabilities, try_from_token_string", "ucan/src/ucan.rs: validate"]}
