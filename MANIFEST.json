{
 "claims": [
  {
   "property": "C01",
   "status": "proved",
   "theorems": [
    "Verif.C01_round_trip",
    "Verif.C01_round_trip_general"
   ],
   "note": ""
  },
  {
   "property": "C02",
   "status": "proved",
   "theorems": [
    "Verif.C02_signed_bytes"
   ],
   "note": ""
  },
  {
   "property": "C03",
   "status": "proved",
   "theorems": [
    "Verif.C03_acceptance",
    "Verif.C03_no_panic"
   ],
   "note": ""
  },
  {
   "property": "C04",
   "status": "partial",
   "theorems": [
    "Verif.C04_extra_segments",
    "Verif.C04_not_injective",
    "Verif.C04_same_iff",
    "Verif.C04_unique_three_segments_partial"
   ],
   "note": "Violated by the code: C04_not_injective is the proved negation (text after a third dot is ignored). The partial theorem covers strings with exactly three segments; what is missing is every longer string."
  },
  {
   "property": "C05",
   "status": "proved",
   "theorems": [
    "Verif.C05_content"
   ],
   "note": ""
  },
  {
   "property": "C06",
   "status": "proved",
   "theorems": [
    "Verif.C06_cid_of_text",
    "Verif.C06_foreign_reencode",
    "Verif.C06_reencode"
   ],
   "note": "Tokens made by this library re-encode identically (full). For tokens serialised by other software the claim is false; C06_foreign_reencode is the witness."
  },
  {
   "property": "C07",
   "status": "proved",
   "theorems": [
    "Verif.C07_alphabet",
    "Verif.C07_canonical",
    "Verif.C07_decode_encode",
    "Verif.C07_token"
   ],
   "note": ""
  },
  {
   "property": "C08",
   "status": "proved",
   "theorems": [
    "Verif.C08_reserved_lost",
    "Verif.C08_survives"
   ],
   "note": "Proved for every value without a reserved form; C08_reserved_lost is the witness that reserved forms do not round trip, as the statement says."
  },
  {
   "property": "C09",
   "status": "proved",
   "theorems": [
    "Verif.C09_facts_sorted",
    "Verif.C09_order_irrelevant",
    "Verif.C09_payload_sorted"
   ],
   "note": ""
  },
  {
   "property": "C10",
   "status": "proved",
   "theorems": [
    "Verif.C10_active_stays",
    "Verif.C10_expired_clock",
    "Verif.C10_expired_iff",
    "Verif.C10_expired_stays",
    "Verif.C10_too_early_iff",
    "Verif.C10_total"
   ],
   "note": ""
  },
  {
   "property": "C11",
   "status": "proved",
   "theorems": [
    "Verif.C11_exact",
    "Verif.C11_refl",
    "Verif.C11_sound",
    "Verif.C11_trans"
   ],
   "note": ""
  },
  {
   "property": "C12",
   "status": "partial",
   "theorems": [
    "Verif.C12_accepts_before_nbf",
    "Verif.C12_not_window",
    "Verif.C12_rejects_inside_window",
    "Verif.C12_validate_iff",
    "Verif.C12_window_partial"
   ],
   "note": "validate is characterised exactly (C12_validate_iff). The last sentence, that a supplied time is honoured for the whole window, is violated: C12_not_window. C12_window_partial is the part that holds."
  },
  {
   "property": "C13",
   "status": "proved",
   "theorems": [
    "Verif.C13_antisymm",
    "Verif.C13_caveat_enables_iff",
    "Verif.C13_empty",
    "Verif.C13_refl",
    "Verif.C13_trans"
   ],
   "note": ""
  },
  {
   "property": "C14",
   "status": "proved",
   "theorems": [
    "Verif.C14_antisymm",
    "Verif.C14_contains_iff",
    "Verif.C14_forms",
    "Verif.C14_refl",
    "Verif.C14_trans",
    "Verif.C14_unscoped",
    "Verif.C14_unscoped_only"
   ],
   "note": ""
  },
  {
   "property": "C15",
   "status": "proved",
   "theorems": [
    "Verif.C15_antisymm",
    "Verif.C15_circle",
    "Verif.C15_enables_iff",
    "Verif.C15_non_object",
    "Verif.C15_refl",
    "Verif.C15_trans"
   ],
   "note": ""
  },
  {
   "property": "C16",
   "status": "proved",
   "theorems": [
    "Verif.C16_accepts",
    "Verif.C16_ordered",
    "Verif.C16_permutation",
    "Verif.C16_stable"
   ],
   "note": ""
  },
  {
   "property": "C17",
   "status": "proved",
   "theorems": [
    "Verif.C17_iter_claims",
    "Verif.C17_iter_mem",
    "Verif.C17_no_panic",
    "Verif.C17_ofValue_iff",
    "Verif.C17_rebuild"
   ],
   "note": ""
  },
  {
   "property": "C18",
   "status": "partial",
   "theorems": [
    "Verif.C18_builder_well_formed_partial",
    "Verif.C18_every_map",
    "Verif.C18_harmless",
    "Verif.C18_tokens_bypass_validation"
   ],
   "note": "Violated by token decoding: C18_tokens_bypass_validation. The partial theorem covers UCANs made by the builder. C18_every_map shows that every map of strings gets in, C18_harmless that what is malformed has no effect on what is reported."
  },
  {
   "property": "C19",
   "status": "partial",
   "theorems": [
    "Verif.C19_all_unreachable",
    "Verif.C19_contains",
    "Verif.C19_decimal",
    "Verif.C19_enables",
    "Verif.C19_index_iff",
    "Verif.C19_other_ability",
    "Verif.C19_star",
    "Verif.C19_star_chain",
    "Verif.C19_unique"
   ],
   "note": "Indices are exact (C19_index_iff, C19_decimal, C19_unique). The prf:* part is violated: C19_star, C19_all_unreachable and, for whole chains, C19_star_chain."
  },
  {
   "property": "C20",
   "status": "partial",
   "theorems": [
    "Verif.C20_as_never_parses",
    "Verif.C20_extract_did",
    "Verif.C20_my_wildcard_partial",
    "Verif.C20_no_as_view",
    "Verif.C20_round_trip_fails",
    "Verif.C20_round_trip_iff",
    "Verif.C20_round_trip_partial",
    "Verif.C20_selection",
    "Verif.C20_text",
    "Verif.C20_wildcard_lost"
   ],
   "note": "Violated: C20_round_trip_fails, C20_as_never_parses, C20_wildcard_lost. The partial theorems cover plain scoped resources and my:*."
  },
  {
   "property": "C21",
   "status": "proved",
   "theorems": [
    "Verif.C21_all_valid"
   ],
   "note": ""
  },
  {
   "property": "C22",
   "status": "proved",
   "theorems": [
    "Verif.C22_links",
    "Verif.C22_links_bounds"
   ],
   "note": ""
  },
  {
   "property": "C23",
   "status": "proved",
   "theorems": [
    "Verif.C23_mirrors",
    "Verif.C23_root"
   ],
   "note": ""
  },
  {
   "property": "C24",
   "status": "proved",
   "theorems": [
    "Verif.C24_complete",
    "Verif.C24_depth",
    "Verif.C24_fuel_irrelevant",
    "Verif.C24_unique"
   ],
   "note": ""
  },
  {
   "property": "C25",
   "status": "proved",
   "theorems": [
    "Verif.C25_bounded",
    "Verif.C25_bounds"
   ],
   "note": ""
  },
  {
   "property": "C26",
   "status": "proved",
   "theorems": [
    "Verif.C26_bad_proof",
    "Verif.C26_bad_proof_token",
    "Verif.C26_expired"
   ],
   "note": ""
  },
  {
   "property": "C27",
   "status": "proved",
   "theorems": [
    "Verif.C27_index_matters",
    "Verif.C27_no_panic",
    "Verif.C27_no_panic_inside"
   ],
   "note": ""
  },
  {
   "property": "C28",
   "status": "proved",
   "theorems": [
    "Verif.C28_offered",
    "Verif.C28_own",
    "Verif.C28_step",
    "Verif.C28_token"
   ],
   "note": ""
  },
  {
   "property": "C29",
   "status": "proved",
   "theorems": [
    "Verif.C29_lifetime"
   ],
   "note": ""
  },
  {
   "property": "C30",
   "status": "proved",
   "theorems": [
    "Verif.C30_authentic",
    "Verif.C30_issuer",
    "Verif.C30_nonempty",
    "Verif.C30_sorted"
   ],
   "note": ""
  },
  {
   "property": "C31",
   "status": "partial",
   "theorems": [
    "Verif.C31_always",
    "Verif.C31_always_leaf",
    "Verif.C31_always_marked",
    "Verif.C31_closed_form",
    "Verif.C31_confined",
    "Verif.C31_escalation",
    "Verif.C31_exact_partial",
    "Verif.C31_overall",
    "Verif.C31_overall_plain",
    "Verif.C31_overall_wnfs",
    "Verif.C31_related"
   ],
   "note": "Violated: C31_escalation. C31_exact_partial gives the exact originators when no token of the chain offers two comparable capabilities. C31_closed_form gives the exact reports and originators of every chain; C31_related and C31_confined bound the misattribution. C31_always and C31_overall: every holder of a report can have any greater capability, even everything, reported for the same parties."
  },
  {
   "property": "C32",
   "status": "proved",
   "theorems": [
    "Verif.C32_flow_origin",
    "Verif.C32_sole_flows",
    "Verif.C32_sole_granted",
    "Verif.C32_sole_granted_trans"
   ],
   "note": ""
  },
  {
   "property": "C33",
   "status": "proved",
   "theorems": [
    "Verif.C33_covered",
    "Verif.C33_covered_trans",
    "Verif.C33_offered_covered",
    "Verif.C33_token"
   ],
   "note": ""
  },
  {
   "property": "C34",
   "status": "partial",
   "theorems": [
    "Verif.C34_exact",
    "Verif.C34_foreign_last_partial",
    "Verif.C34_hidden"
   ],
   "note": "Violated: C34_hidden. The partial theorem covers chains in whose root token the foreign claims come last; C34_exact says for every chain what is covered."
  },
  {
   "property": "C35",
   "status": "partial",
   "theorems": [
    "Verif.C35_broad_first_partial",
    "Verif.C35_distinct",
    "Verif.C35_half_partial",
    "Verif.C35_irredundant_iff",
    "Verif.C35_redundant",
    "Verif.C35_reported"
   ],
   "note": "C35_half_partial: no reported capability is enabled by a later one. Pairwise irredundancy is violated: C35_redundant; C35_irredundant_iff is the exact condition."
  },
  {
   "property": "C36",
   "status": "proved",
   "theorems": [
    "Verif.C36_cyclic_store",
    "Verif.C36_endless",
    "Verif.C36_terminates"
   ],
   "note": "Termination for well-founded stores is full; C36_cyclic_store and C36_endless prove the divergence the statement describes. That a server answering with a cycle is the only other case is not claimed."
  },
  {
   "property": "C37",
   "status": "proved",
   "theorems": [
    "Verif.C37_final",
    "Verif.C37_initial"
   ],
   "note": ""
  },
  {
   "property": "C38",
   "status": "proved",
   "theorems": [
    "Verif.C38_cache_transparent",
    "Verif.C38_history"
   ],
   "note": ""
  },
  {
   "property": "C39",
   "status": "partial",
   "theorems": [
    "Verif.C39_accepts_iff",
    "Verif.C39_error_or_key_partial",
    "Verif.C39_panic_iff",
    "Verif.C39_short_did_panics"
   ],
   "note": "C39_accepts_iff is exact. Violated for payloads under two bytes: C39_panic_iff, C39_short_did_panics. The partial theorem excludes them."
  },
  {
   "property": "C40",
   "status": "proved",
   "theorems": [
    "Verif.C40_decode_encode",
    "Verif.C40_denotes_unique",
    "Verif.C40_encode_decode",
    "Verif.C40_injective"
   ],
   "note": ""
  },
  {
   "property": "C41",
   "status": "proved",
   "theorems": [
    "Verif.C41_ed25519",
    "Verif.C41_keys_differ",
    "Verif.C41_no_private_key",
    "Verif.C41_p256",
    "Verif.C41_parsed_keys_cannot_sign",
    "Verif.C41_rsa",
    "Verif.C41_rsa_swallowed",
    "Verif.C41_types_differ"
   ],
   "note": ""
  },
  {
   "property": "C42",
   "status": "proved",
   "theorems": [
    "Verif.C42_ed25519",
    "Verif.C42_p256",
    "Verif.C42_parsed_validates",
    "Verif.C42_rejected",
    "Verif.C42_rsa",
    "Verif.C42_signed_validates"
   ],
   "note": ""
  },
  {
   "property": "C43",
   "status": "proved",
   "theorems": [
    "Verif.C43_authentic_signed",
    "Verif.C43_chain",
    "Verif.C43_token"
   ],
   "note": "That signatures cannot be forged and that keys sign only UCANs are explicit hypotheses."
  },
  {
   "property": "C44",
   "status": "proved",
   "theorems": [
    "Verif.C44_injective",
    "Verif.C44_minimal",
    "Verif.C44_round_trip",
    "Verif.C44_varint"
   ],
   "note": ""
  },
  {
   "property": "C45",
   "status": "partial",
   "theorems": [
    "Verif.C45_panic",
    "Verif.C45_success",
    "Verif.C45_total_partial",
    "Verif.C45_witness"
   ],
   "note": "Exact conditions for success and panic are proved; totality is violated (C45_witness); C45_total_partial excludes declared lengths beyond the data."
  },
  {
   "property": "C46",
   "status": "partial",
   "theorems": [
    "Verif.C46_collision",
    "Verif.C46_injective_partial",
    "Verif.C46_of",
    "Verif.C46_panic",
    "Verif.C46_round_trip_partial",
    "Verif.C46_safe",
    "Verif.C46_same_iff"
   ],
   "note": "Violated: C46_collision, C46_panic. The partial theorems cover DIDs that are not confusable and at least two bytes long; C46_safe shows that real key types qualify; C46_same_iff determines all collisions."
  },
  {
   "property": "C47",
   "status": "proved",
   "theorems": [
    "Verif.C47_encode",
    "Verif.C47_only_portable",
    "Verif.C47_round_trip",
    "Verif.C47_same",
    "Verif.C47_signed",
    "Verif.C47_version"
   ],
   "note": ""
  },
  {
   "property": "C48",
   "status": "proved",
   "theorems": [
    "Verif.C48_isolated",
    "Verif.C48_kept",
    "Verif.C48_only_written",
    "Verif.C48_read_log",
    "Verif.C48_refused",
    "Verif.C48_rewrite",
    "Verif.C48_token",
    "Verif.C48_write_cid"
   ],
   "note": "Freedom from hash collisions on the written tokens is an explicit hypothesis."
  },
  {
   "property": "C49",
   "status": "proved",
   "theorems": [
    "Verif.C49_memory",
    "Verif.C49_read_iff"
   ],
   "note": ""
  },
  {
   "property": "C50",
   "status": "proved",
   "theorems": [
    "Verif.C50_chain",
    "Verif.C50_content"
   ],
   "note": ""
  },
  {
   "property": "C51",
   "status": "proved",
   "theorems": [
    "Verif.C51_build_iff",
    "Verif.C51_built",
    "Verif.C51_explicit_expiry",
    "Verif.C51_missing",
    "Verif.C51_state"
   ],
   "note": ""
  },
  {
   "property": "C52",
   "status": "partial",
   "theorems": [
    "Verif.C52_fits_partial",
    "Verif.C52_panics",
    "Verif.C52_witness",
    "Verif.C52_wraps"
   ],
   "note": "C52_fits_partial covers sums that fit. Violated otherwise: C52_panics (with overflow checks), C52_wraps (without), C52_witness."
  },
  {
   "property": "C53",
   "status": "proved",
   "theorems": [
    "Verif.C53_claims",
    "Verif.C53_indices"
   ],
   "note": ""
  },
  {
   "property": "C54",
   "status": "partial",
   "theorems": [
    "Verif.C54_panics",
    "Verif.C54_payload",
    "Verif.C54_witness"
   ],
   "note": "Faithfulness is full (C54_payload). That signing never panics is violated: C54_panics gives the exact condition, C54_witness a case."
  },
  {
   "property": "C55",
   "status": "proved",
   "theorems": [
    "Verif.C55_claim",
    "Verif.C55_delegation",
    "Verif.C55_two_parties"
   ],
   "note": "C55_delegation covers delegation trees of any depth and width; C55_two_parties states the two party case with the exact report."
  },
  {
   "property": "C56",
   "status": "proved",
   "theorems": [
    "Verif.C56_builder",
    "Verif.C56_injective",
    "Verif.C56_round_trip"
   ],
   "note": ""
  },
  {
   "property": "C57",
   "status": "proved",
   "theorems": [
    "Verif.C57_code_name",
    "Verif.C57_codes",
    "Verif.C57_name_code",
    "Verif.C57_names",
    "Verif.C57_without_alg"
   ],
   "note": ""
  },
  {
   "property": "C58",
   "status": "partial",
   "theorems": [
    "Verif.C58_independent",
    "Verif.C58_signed_partial",
    "Verif.C58_token_accepted",
    "Verif.C58_violated"
   ],
   "note": "Violated: C58_violated, C58_token_accepted; C58_independent shows that validation ignores both. C58_signed_partial covers tokens made by the builder."
  },
  {
   "property": "C59",
   "status": "partial",
   "theorems": [
    "Verif.C59_constructor_unchecked",
    "Verif.C59_covered_partial",
    "Verif.C59_parsed",
    "Verif.C59_signed",
    "Verif.C59_unique"
   ],
   "note": "True of parsed and signed UCANs (C59_parsed, C59_signed, C59_covered_partial); violated for the public constructor: C59_constructor_unchecked."
  },
  {
   "property": "C60",
   "status": "partial",
   "theorems": [
    "Verif.C60_chain",
    "Verif.C60_fixtures_partial",
    "Verif.C60_iff",
    "Verif.C60_scheme_partial",
    "Verif.C60_wildcard_crosses"
   ],
   "note": "Violated: C60_wildcard_crosses, and end to end C60_chain. C60_scheme_partial covers resources that are not wildcards; C60_iff determines what is enabled."
  },
  {
   "property": "C61",
   "status": "proved",
   "theorems": [
    "Verif.C61_determined"
   ],
   "note": "Freedom from hash collisions on the written tokens is an explicit hypothesis."
  },
  {
   "property": "C62",
   "status": "proved",
   "theorems": [
    "Verif.C62_terminates"
   ],
   "note": ""
  },
  {
   "property": "C63",
   "status": "proved",
   "theorems": [
    "Verif.C63_builder",
    "Verif.C63_default_resolves",
    "Verif.C63_other_hasher",
    "Verif.C63_same_cid"
   ],
   "note": ""
  },
  {
   "property": "C64",
   "status": "proved",
   "theorems": [
    "Verif.C64_round_trip"
   ],
   "note": ""
  },
  {
   "property": "C65",
   "status": "proved",
   "theorems": [
    "Verif.C65_authority",
    "Verif.C65_circle",
    "Verif.C65_no_grant_no_access"
   ],
   "note": "That signatures of honest parties cannot be forged and that they sign only UCANs are explicit hypotheses; nothing is assumed about other keys, the store or the clock."
  },
  {
   "property": "C66",
   "status": "proved",
   "theorems": [
    "Verif.C66_clock",
    "Verif.C66_supplied_time"
   ],
   "note": ""
  },
  {
   "property": "C67",
   "status": "proved",
   "theorems": [
    "Verif.C67_more_proofs"
   ],
   "note": ""
  },
  {
   "property": "C68",
   "status": "partial",
   "theorems": [
    "Verif.C68_accesses",
    "Verif.C68_exponential",
    "Verif.C68_nodes",
    "Verif.C68_single_proof_partial"
   ],
   "note": "Violated: C68_exponential (n stored tokens, at least 2^(n+1)-2 accesses). C68_accesses counts exactly; C68_single_proof_partial is linear for proof lists of at most one entry."
  },
  {
   "property": "C69",
   "status": "proved",
   "theorems": [
    "Verif.C69_base32_decode",
    "Verif.C69_base32_encode",
    "Verif.C69_base58_decode",
    "Verif.C69_base58_encode",
    "Verif.C69_base64_decode",
    "Verif.C69_base64_encode",
    "Verif.C69_cid_text",
    "Verif.C69_token",
    "Verif.C69_token_cid"
   ],
   "note": ""
  },
  {
   "property": "C70",
   "status": "proved",
   "theorems": [
    "Verif.C70_many_texts",
    "Verif.C70_reference",
    "Verif.C70_texts_differ",
    "Verif.C70_written"
   ],
   "note": "Acceptance is exact. Multibases other than base32-lower and base58btc are a parameter."
  },
  {
   "property": "C71",
   "status": "proved",
   "theorems": [
    "Verif.C71_accepts",
    "Verif.C71_canonical",
    "Verif.C71_canonical_unique",
    "Verif.C71_exact_prefix",
    "Verif.C71_prefix",
    "Verif.C71_prefix_accepted",
    "Verif.C71_shortest",
    "Verif.C71_shortest_string",
    "Verif.C71_too_deep",
    "Verif.C71_unambiguous",
    "Verif.C71_written"
   ],
   "note": "Acceptance and the written text are exact. The text of doubles is a parameter; C71_shortest is about values without doubles."
  },
  {
   "property": "C72",
   "status": "proved",
   "theorems": [
    "Verif.C72_header_document",
    "Verif.C72_header_read",
    "Verif.C72_payload_document",
    "Verif.C72_payload_names",
    "Verif.C72_payload_read",
    "Verif.C72_signed",
    "Verif.C72_token",
    "Verif.C72_written"
   ],
   "note": "The base of DAG-JSON byte strings is a parameter, as is the text of doubles."
  },
  {
   "property": "C73",
   "status": "proved",
   "theorems": [
    "Verif.C73_document",
    "Verif.C73_injective",
    "Verif.C73_read",
    "Verif.C73_round_trip",
    "Verif.C73_token",
    "Verif.C73_ucan_read",
    "Verif.C73_value_round_trip",
    "Verif.C73_written"
   ],
   "note": "Nesting limit of the reader is a parameter; half/single precision doubles in foreign documents are outside the model."
  },
  {
   "property": "C74",
   "status": "proved",
   "theorems": [
    "Verif.C74_email_contains",
    "Verif.C74_email_names",
    "Verif.C74_email_resource",
    "Verif.C74_email_round_trip",
    "Verif.C74_lawful",
    "Verif.C74_trailing_slash",
    "Verif.C74_wnfs_antisymm",
    "Verif.C74_wnfs_contains",
    "Verif.C74_wnfs_levels",
    "Verif.C74_wnfs_names",
    "Verif.C74_wnfs_origin"
   ],
   "note": "How wnfs:// texts are read is C82."
  },
  {
   "property": "C75",
   "status": "partial",
   "theorems": [
    "Verif.C75_covered_partial",
    "Verif.C75_document",
    "Verif.C75_forged",
    "Verif.C75_forged_chain",
    "Verif.C75_read",
    "Verif.C75_reparsed_partial",
    "Verif.C75_round_trip",
    "Verif.C75_signed",
    "Verif.C75_too_deep",
    "Verif.C75_written"
   ],
   "note": "Violated: C75_forged and C75_forged_chain turn any authentic UCAN into a valid one with arbitrary content. Round trip, exact reading and exact document hold; C75_covered_partial and C75_reparsed_partial state what remains of the last part."
  },
  {
   "property": "C76",
   "status": "partial",
   "theorems": [
    "Verif.C76_conversion_iff",
    "Verif.C76_conversion_panics",
    "Verif.C76_did_partial",
    "Verif.C76_sizes",
    "Verif.C76_small_keys",
    "Verif.C76_token_partial"
   ],
   "note": "Violated for small keys: C76_small_keys (the exact range is C76_conversion_iff and C76_sizes). C76_did_partial and C76_token_partial cover all other sizes."
  },
  {
   "property": "C77",
   "status": "proved",
   "theorems": [
    "Verif.C77_codes",
    "Verif.C77_did",
    "Verif.C77_parse",
    "Verif.C77_unique",
    "Verif.C77_z6Mk",
    "Verif.C77_zDna"
   ],
   "note": ""
  },
  {
   "property": "C78",
   "status": "proved",
   "theorems": [
    "Verif.C78_back",
    "Verif.C78_back_panics",
    "Verif.C78_back_signed",
    "Verif.C78_bytes",
    "Verif.C78_injective",
    "Verif.C78_of",
    "Verif.C78_of_total",
    "Verif.C78_travels"
   ],
   "note": "holds except that the second conversion panics instead of failing on malformed signatures and principals: C78_back_panics determines when"
  },
  {
   "property": "C79",
   "status": "proved",
   "theorems": [
    "Verif.C79_cid",
    "Verif.C79_did",
    "Verif.C79_endless",
    "Verif.C79_exclusive",
    "Verif.C79_text",
    "Verif.C79_token",
    "Verif.C79_ucan",
    "Verif.C79_unique",
    "Verif.C79_validate"
   ],
   "note": "the kinds of `Err` stand for their messages; failures of stores, constructors and keys are passed on unchanged"
  },
  {
   "property": "C80",
   "status": "proved",
   "theorems": [
    "Verif.C80_cid",
    "Verif.C80_token",
    "Verif.C80_ucan"
   ],
   "note": "the clock is read equally often on both sides, so equal clock functions suffice"
  },
  {
   "property": "C81",
   "status": "proved",
   "theorems": [
    "Verif.C81_order_matters",
    "Verif.C81_report",
    "Verif.C81_sets"
   ],
   "note": "`C81_order_matters` shows that the lists of reports depend on the order of redelegated proofs"
  },
  {
   "property": "C82",
   "status": "proved",
   "theorems": [
    "Verif.C82_addresses",
    "Verif.C82_email_lost",
    "Verif.C82_email_resource",
    "Verif.C82_no_dots",
    "Verif.C82_reads",
    "Verif.C82_special",
    "Verif.C82_wnfs_capability",
    "Verif.C82_wnfs_covers",
    "Verif.C82_wnfs_resource",
    "Verif.C82_wnfs_round_trip"
   ],
   "note": "The scheme file and the treatment of domains that are not plain ASCII are parameters. C82_email_resource and C82_email_lost apply it to the e-mail resources of the test fixtures."
  },
  {
   "property": "C83",
   "status": "partial",
   "theorems": [
    "Verif.C83_foreign_unusable",
    "Verif.C83_must_verify",
    "Verif.C83_other_name",
    "Verif.C83_own_partial",
    "Verif.C83_received_partial",
    "Verif.C83_reference",
    "Verif.C83_through_builder",
    "Verif.C83_violated"
   ],
   "note": "refuted by C83_violated; holds for tokens serialised as this library does (C83_own_partial) and for entries made from the CID of the received text (C83_received_partial)"
  },
  {
   "property": "C84",
   "status": "proved",
   "theorems": [
    "Verif.C84_deterministic",
    "Verif.C84_hashers",
    "Verif.C84_nonce",
    "Verif.C84_request",
    "Verif.C84_same_cid",
    "Verif.C84_same_text",
    "Verif.C84_text"
   ],
   "note": ""
  },
  {
   "property": "C85",
   "status": "proved",
   "theorems": [
    "Verif.C85_bounds",
    "Verif.C85_count",
    "Verif.C85_count_own",
    "Verif.C85_depends"
   ],
   "note": ""
  },
  {
   "property": "C86",
   "status": "proved",
   "theorems": [
    "Verif.C86_alias",
    "Verif.C86_authentic",
    "Verif.C86_chain",
    "Verif.C86_no_panic",
    "Verif.C86_refuses",
    "Verif.C86_sign",
    "Verif.C86_token",
    "Verif.C86_unforgeable",
    "Verif.C86_validate",
    "Verif.C86_verify",
    "Verif.C86_web",
    "Verif.C86_web_panics"
   ],
   "note": "the schemes themselves (ed25519-zebra, p256, rsa, SubtleCrypto) are parameters"
  },
  {
   "property": "C87",
   "status": "partial",
   "theorems": [
    "Verif.C87_check",
    "Verif.C87_complete",
    "Verif.C87_escalation",
    "Verif.C87_no_check",
    "Verif.C87_panics",
    "Verif.C87_report",
    "Verif.C87_separate_partial",
    "Verif.C87_sole_partial"
   ],
   "note": "violated: C87_escalation and C87_no_check are the negation; C87_complete, C87_sole_partial and C87_separate_partial are what holds"
  },
  {
   "property": "C88",
   "status": "proved",
   "theorems": [
    "Verif.C88_accepted",
    "Verif.C88_expires",
    "Verif.C88_generate",
    "Verif.C88_no_key_types",
    "Verif.C88_reads_back"
   ],
   "note": ""
  },
  {
   "property": "C89",
   "status": "partial",
   "theorems": [
    "Verif.C89_delegating",
    "Verif.C89_delegating_report",
    "Verif.C89_exact",
    "Verif.C89_grows_partial",
    "Verif.C89_no_caveat",
    "Verif.C89_one_more",
    "Verif.C89_views",
    "Verif.C89_violated",
    "Verif.C89_wildcard"
   ],
   "note": "Violated: C89_wildcard, C89_delegating, C89_violated. C89_grows_partial covers further claims that are understood; C89_exact and C89_one_more determine the effect of every call."
  },
  {
   "property": "C90",
   "status": "partial",
   "theorems": [
    "Verif.C90_accepted",
    "Verif.C90_differs",
    "Verif.C90_iff",
    "Verif.C90_same_partial",
    "Verif.C90_signature_agree",
    "Verif.C90_signature_differs",
    "Verif.C90_signature_made",
    "Verif.C90_signature_panics",
    "Verif.Ex.C90_violated"
   ],
   "note": "Violated: C90_differs, C90_violated, C90_signature_differs. C90_same_partial covers tokens that name no proof beyond the narrower word; C90_iff determines the difference exactly. The width of usize also bounds lengths in memory, which is not modelled."
  },
  {
   "property": "C91",
   "status": "proved",
   "theorems": [
    "Verif.C91_delegation",
    "Verif.C91_filed",
    "Verif.C91_needed",
    "Verif.C91_own_hash",
    "Verif.C91_write",
    "Verif.C91_wrong_hash"
   ],
   "note": "The store is any function of tick and CID; that it returns what is published is a hypothesis, which C91_filed proves for stores with one hash function on tokens with distinct digests."
  },
  {
   "property": "C92",
   "status": "proved",
   "theorems": [
    "Verif.C92_endless",
    "Verif.C92_finished",
    "Verif.C92_interleaved",
    "Verif.C92_parser",
    "Verif.C92_progress",
    "Verif.C92_returns",
    "Verif.C92_reuse",
    "Verif.C92_shared"
   ],
   "note": "Steps are atomic between two readings or awaits; memory accesses within a step cannot interfere because each future borrows its parser exclusively and the store is behind its interface. from_cid and from_ucan run the same machine from another state and are not stated separately."
  },
  {
   "property": "C93",
   "status": "partial",
   "theorems": [
    "Verif.C93_empty_partial",
    "Verif.C93_ignored",
    "Verif.C93_kept_partial",
    "Verif.C93_passed_on",
    "Verif.C93_violated"
   ],
   "note": "Violated: C93_violated is a chain, C93_ignored and C93_passed_on show that it is so for every chain. C93_kept_partial: caveats of the grants themselves are kept. C93_empty_partial: an empty list of caveats delegates nothing."
  },
  {
   "property": "C94",
   "status": "partial",
   "theorems": [
    "Verif.C94_any_number_partial",
    "Verif.C94_capabilities",
    "Verif.C94_irredundant_partial",
    "Verif.C94_second_partial",
    "Verif.C94_violated"
   ],
   "note": "Violated: C94_violated. C94_irredundant_partial, C94_second_partial and C94_any_number_partial are what holds; C94_capabilities determines the reported capabilities of every such chain."
  },
  {
   "property": "C95",
   "status": "partial",
   "theorems": [
    "Verif.C95_accepted",
    "Verif.C95_moment_partial",
    "Verif.C95_violated"
   ],
   "note": "Violated: C95_violated. C95_moment_partial is the first half for chains whose first token has a lifetime; C95_accepted is the second half in full."
  },
  {
   "property": "C96",
   "status": "partial",
   "theorems": [
    "Verif.C96_determined_partial",
    "Verif.C96_pinned_partial",
    "Verif.C96_power",
    "Verif.C96_substitution"
   ],
   "note": "Violated: C96_substitution (what the store returns is not hashed). C96_pinned_partial and C96_determined_partial hold for faithful stores; C96_power is the exact power of any store."
  },
  {
   "property": "C97",
   "status": "proved",
   "theorems": [
    "Verif.C97_enables",
    "Verif.C97_names",
    "Verif.C97_types"
   ],
   "note": "Exact equality of reports, order included, for every renaming (C97_names) and every translation of types (C97_types)."
  },
  {
   "property": "C98",
   "status": "partial",
   "theorems": [
    "Verif.C98_claims",
    "Verif.C98_everything_partial",
    "Verif.C98_host",
    "Verif.C98_none",
    "Verif.C98_wildcards_partial"
   ],
   "note": "Violated for special schemes, which have no wildcard (C98_none; `https:*` is the host `*`, C98_host). Exact for all schemes that are not special (C98_wildcards_partial). Scheme file: not modelled."
  },
  {
   "property": "C99",
   "status": "partial",
   "theorems": [
    "Verif.C99_ignored",
    "Verif.C99_links_partial",
    "Verif.C99_reports",
    "Verif.C99_violated"
   ],
   "note": "Violated: the audience of the presented token is not checked and changes nothing (C99_ignored, C99_reports, C99_violated). All links below it are (C99_links_partial)."
  },
  {
   "property": "C100",
   "status": "partial",
   "theorems": [
    "Verif.C100_bounded_partial",
    "Verif.C100_doubling"
   ],
   "note": "Violated if caveats are not objects (C100_doubling). Proved for object caveats (C100_bounded_partial). The bound counting every citation holds always (C85_count)."
  },
  {
   "property": "C101",
   "status": "partial",
   "theorems": [
    "Verif.C101_build",
    "Verif.C101_build_crash",
    "Verif.C101_chain",
    "Verif.C101_crash",
    "Verif.C101_safe_partial",
    "Verif.C101_validate"
   ],
   "note": "Violated: a panic instead of an error (C101_crash, exact, and C101_build_crash). C101_safe_partial: nothing is accepted without a clock that is not accepted at every time. C101_validate, C101_chain and C101_build carry all other properties over to such clocks."
  },
  {
   "property": "C102",
   "status": "partial",
   "theorems": [
    "Verif.C102_exact",
    "Verif.C102_growth",
    "Verif.C102_leak",
    "Verif.C102_untouched_partial"
   ],
   "note": "Violated: keys of tokens with bad signatures are kept, without bound (C102_leak, C102_growth; exactly which are kept: C102_exact). C102_untouched_partial: tokens refused for other reasons leave nothing."
  },
  {
   "property": "C103",
   "status": "partial",
   "theorems": [
    "Verif.C103_disowned",
    "Verif.C103_iff",
    "Verif.C103_listed_partial",
    "Verif.C103_report"
   ],
   "note": "Violated: C103_disowned (reports computed in C103_report). C103_iff determines when a signer is named; C103_listed_partial covers claims that no cited proof enables."
  },
  {
   "property": "C104",
   "status": "partial",
   "theorems": [
    "Verif.C104_covered",
    "Verif.C104_disowned",
    "Verif.C104_grantors_partial",
    "Verif.C104_offers"
   ],
   "note": "C104_offers and C104_covered are the first half in full. The second half is violated: C104_disowned; C104_grantors_partial bounds the loss."
  },
  {
   "property": "C105",
   "status": "partial",
   "theorems": [
    "Verif.C105_asked",
    "Verif.C105_justified_partial",
    "Verif.C105_quiet",
    "Verif.C105_refused",
    "Verif.C105_unlinked",
    "Verif.C105_violated"
   ],
   "note": "C105_justified_partial, C105_refused, C105_quiet and C105_asked are the first two sentences in full, under any schedule. The last sentence is violated: C105_unlinked, C105_violated."
  },
  {
   "property": "C106",
   "status": "partial",
   "theorems": [
    "Verif.C106_bounded_partial",
    "Verif.C106_exact",
    "Verif.C106_unbounded"
   ],
   "note": "Violated: C106_unbounded. C106_exact gives the depth of every accepting run; C106_bounded_partial bounds it by the number of tokens in a fixed store."
  },
  {
   "property": "C107",
   "status": "proved",
   "theorems": [
    "Verif.C107_determines",
    "Verif.C107_fields",
    "Verif.C107_line",
    "Verif.C107_texts",
    "Verif.C107_times",
    "Verif.C107_verbatim"
   ],
   "note": "C107_line and C107_determines; C107_verbatim, C107_fields and C107_times for what can be read off; the caveat itself is determined if its numbers survive printing."
  },
  {
   "property": "C108",
   "status": "partial",
   "theorems": [
    "Verif.C108_chain_partial",
    "Verif.C108_late",
    "Verif.C108_lifetime",
    "Verif.C108_validate"
   ],
   "note": "Violated: C108_late, for every fraction of a second. C108_validate determines the instants at which a token is accepted; C108_chain_partial bounds the delay for chains; C108_lifetime for the builder."
  },
  {
   "property": "C109",
   "status": "partial",
   "theorems": [
    "Verif.C109_cause",
    "Verif.C109_clock",
    "Verif.C109_crash",
    "Verif.C109_survives_partial",
    "Verif.C109_validate"
   ],
   "note": "Violated: C109_crash, one text for all environments, directly and as a proof. C109_validate, C109_cause and C109_clock show that there is no other cause; C109_survives_partial for tokens without a stub issuer below them."
  },
  {
   "property": "C110",
   "status": "proved",
   "theorems": [
    "Verif.C110_at_once",
    "Verif.C110_withdraw"
   ],
   "note": "C110_withdraw for fixed stores, C110_at_once for stores that change."
  },
  {
   "property": "C111",
   "status": "proved",
   "theorems": [
    "Verif.C111_exactly",
    "Verif.C111_more",
    "Verif.C111_register"
   ],
   "note": "C111_more for any environment, C111_exactly with fixed clock and store, C111_register for parsers made from lists of constructors."
  },
  {
   "property": "C112",
   "status": "proved",
   "theorems": [
    "Verif.C112_order",
    "Verif.C112_reports",
    "Verif.C112_shift"
   ],
   "note": "C112_order for any order-preserving change, C112_shift for a fixed number of seconds, C112_reports for the reports. The moved tokens have other signatures and references; that those are in order is a hypothesis on both sides."
  },
  {
   "property": "C113",
   "status": "partial",
   "theorems": [
    "Verif.C113_builds",
    "Verif.C113_ends_partial",
    "Verif.C113_forever"
   ],
   "note": "Violated: C113_builds, C113_forever. C113_ends_partial is what holds."
  },
  {
   "property": "C114",
   "status": "partial",
   "theorems": [
    "Verif.C114_endless_partial",
    "Verif.C114_refused_partial",
    "Verif.C114_unchecked",
    "Verif.C114_violated"
   ],
   "note": "Violated: C114_unchecked (nothing about authorities is checked), C114_violated (a signed token that is never accepted). C114_refused_partial and C114_endless_partial are what holds."
  },
  {
   "property": "C115",
   "status": "partial",
   "theorems": [
    "Verif.C115_renamed",
    "Verif.C115_second_signature",
    "Verif.C115_violated",
    "Verif.C115_walk_partial"
   ],
   "note": "Violated: C115_renamed (for every token), C115_violated (an accepted chain), C115_second_signature. C115_walk_partial is what holds."
  },
  {
   "property": "C116",
   "status": "proved",
   "theorems": [
    "Verif.C116_check",
    "Verif.C116_exact",
    "Verif.C116_public",
    "Verif.C116_stricter",
    "Verif.C116_vouched"
   ],
   "note": "Positive complement of C31 and C87: the information is in the chain, only the reports lose it."
  },
  {
   "property": "C117",
   "status": "partial",
   "theorems": [
    "Verif.C117_raw",
    "Verif.C117_refused",
    "Verif.C117_text_partial",
    "Verif.C117_violated"
   ],
   "note": "Violated: C117_refused (always), C117_violated (concrete tokens). C117_raw says which references are accepted, C117_text_partial what holds."
  },
  {
   "property": "C118",
   "status": "partial",
   "theorems": [
    "Verif.C118_accepted",
    "Verif.C118_builds",
    "Verif.C118_refused_partial",
    "Verif.C118_still_partial",
    "Verif.C118_violated"
   ],
   "note": "Violated: C118_builds, C118_accepted, C118_violated. C118_refused_partial and C118_still_partial are what holds."
  },
  {
   "property": "C119",
   "status": "partial",
   "theorems": [
    "Verif.C119_ambiguous",
    "Verif.C119_forged",
    "Verif.C119_kind",
    "Verif.C119_line_partial",
    "Verif.C119_same",
    "Verif.C119_worded",
    "Verif.C119_wording"
   ],
   "note": "Violated: C119_forged, C119_ambiguous. C119_same ties the texts to the main model; C119_wording, C119_worded, C119_kind and C119_line_partial are what holds. Assumes that `{:?}` of a CID is `Cid(` its text `)`; texts of other crates' errors are not modelled."
  },
  {
   "property": "C120",
   "status": "partial",
   "theorems": [
    "Verif.C120_content",
    "Verif.C120_first_partial",
    "Verif.C120_order_partial",
    "Verif.C120_two_readings",
    "Verif.C120_written"
   ],
   "note": "Violated: C120_two_readings. C120_content, C120_written, C120_order_partial and C120_first_partial are what holds. That the last of repeated members counts is how libipld's DAG-JSON reader fills its map, as modelled in Codec/DagJson."
  },
  {
   "property": "C121",
   "status": "partial",
   "theorems": [
    "Verif.C121_last",
    "Verif.C121_never_called",
    "Verif.C121_refused",
    "Verif.C121_usable_partial"
   ],
   "note": "Violated: C121_never_called, C121_refused. C121_usable_partial and C121_last are what holds. Registrations under prefixes that are not codes are covered by C121_last only."
  },
  {
   "property": "C122",
   "status": "partial",
   "theorems": [
    "Verif.C122_builds",
    "Verif.C122_nobody",
    "Verif.C122_signs",
    "Verif.C122_usable_partial",
    "Verif.C122_useless",
    "Verif.C122_violated"
   ],
   "note": "Violated: C122_builds, C122_signs, C122_useless, C122_nobody, C122_violated. C122_usable_partial is what holds."
  },
  {
   "property": "C123",
   "status": "partial",
   "theorems": [
    "Verif.C123_confused",
    "Verif.C123_integers_partial",
    "Verif.C123_spellings"
   ],
   "note": "Violated: C123_confused, C123_spellings. C123_integers_partial is what holds. C123_confused assumes ReadsWide: that the double reader, which is not modelled, accepts natural numbers below 2^66."
  },
  {
   "property": "C124",
   "status": "partial",
   "theorems": [
    "Verif.C124_as_issued_partial",
    "Verif.C124_exact",
    "Verif.C124_useless",
    "Verif.C124_violated"
   ],
   "note": "Violated: C124_violated. C124_exact determines which tokens can be read, C124_as_issued_partial is what holds."
  },
  {
   "property": "C125",
   "status": "proved",
   "theorems": [
    "Verif.C125_cited",
    "Verif.C125_growth",
    "Verif.C125_independent",
    "Verif.C125_text"
   ],
   "note": "C125_growth and C125_independent assume digests of 32 bytes (Digests32) for the default hash function, which is a dependency, and signatures of fixed length."
  },
  {
   "property": "C126",
   "status": "partial",
   "theorems": [
    "Verif.C126_ignored",
    "Verif.C126_lower",
    "Verif.C126_schemes_partial",
    "Verif.C126_violated"
   ],
   "note": "Violated: C126_violated; C126_ignored and C126_lower say how far. C126_schemes_partial is what holds."
  },
  {
   "property": "C127",
   "status": "proved",
   "theorems": [
    "Verif.C127_check",
    "Verif.C127_programs",
    "Verif.C127_report"
   ],
   "note": "C127_programs is about builder calls as in the tests, C127_report about any builder calls without redelegation, C127_check about the tests' way of asking."
  },
  {
   "property": "C128",
   "status": "proved",
   "theorems": [
    "Verif.C128_cited",
    "Verif.C128_exact",
    "Verif.C128_repeated",
    "Verif.C128_same_key"
   ],
   "note": "C128_exact and C128_same_key are the equivalences; C128_cited the indistinguishability of cited tokens; C128_repeated counts references."
  },
  {
   "property": "C129",
   "status": "proved",
   "theorems": [
    "Verif.C129_line",
    "Verif.C129_report",
    "Verif.C129_some"
   ],
   "note": "C129_report for chains of every shape; C129_line for lines, C129_some that each line has such a party."
  },
  {
   "property": "C130",
   "status": "partial",
   "theorems": [
    "Verif.C130_report",
    "Verif.C130_survives_partial",
    "Verif.C130_violated",
    "Verif.C130_wnfs_partial"
   ],
   "note": "Violated for wildcards (C130_violated); C130_report says exactly what is reported, C130_survives_partial and C130_wnfs_partial where the claim holds."
  },
  {
   "property": "C131",
   "status": "partial",
   "theorems": [
    "Verif.C131_fixtures",
    "Verif.C131_form_partial",
    "Verif.C131_sole_partial",
    "Verif.C131_violated",
    "Verif.C131_whole"
   ],
   "note": "Violated (C131_violated); C131_form_partial and C131_sole_partial say what holds, C131_whole and C131_fixtures that own resources are claimed as a whole."
  },
  {
   "property": "C132",
   "status": "partial",
   "theorems": [
    "Verif.C132_hides",
    "Verif.C132_not_reported",
    "Verif.C132_not_understood",
    "Verif.C132_violated"
   ],
   "note": "Violated (C132_violated); C132_not_understood, C132_not_reported and C132_hides determine what such claims do instead, for all inputs."
  },
  {
   "property": "C133",
   "status": "proved",
   "theorems": [
    "Verif.C133_append",
    "Verif.C133_cited",
    "Verif.C133_report"
   ],
   "note": "C133_report for any change of proofs that do not bear, C133_append where proofs are handed on, C133_cited for accepted tokens and their references."
  },
  {
   "property": "C134",
   "status": "partial",
   "theorems": [
    "Verif.C134_part_partial",
    "Verif.C134_single_partial",
    "Verif.C134_violated"
   ],
   "note": "Violated (C134_violated); C134_part_partial and C134_single_partial for claims that do not enable one another."
  },
  {
   "property": "C135",
   "status": "partial",
   "theorems": [
    "Verif.C135_same_partial",
    "Verif.C135_violated"
   ],
   "note": "Violated (C135_violated); C135_same_partial for reports that do not enable one another."
  },
  {
   "property": "C136",
   "status": "proved",
   "theorems": [
    "Verif.C136_accepts",
    "Verif.C136_authority",
    "Verif.C136_circle",
    "Verif.C136_flows",
    "Verif.C136_granted",
    "Verif.C136_group"
   ],
   "note": "Generalises C32 and C65 from a sole originator to any number."
  }
 ]
}
