# Axioms of the property theorems

Computed with `Lean.collectAxioms`; all names are in the namespace `Verif`.

## none

`C101_build`, `C101_build_crash`, `C10_expired_clock`, `C10_total`, `C57_codes`, `C57_names`, `C76_conversion_panics`

## propext

`C129_some`, `C13_empty`, `C15_non_object`, `C19_contains`, `C41_no_private_key`, `C41_parsed_keys_cannot_sign`, `C45_witness`, `C57_code_name`, `C57_without_alg`, `C74_email_contains`, `C74_email_names`, `C77_codes`, `C86_no_panic`, `C86_refuses`, `C86_sign`, `C86_verify`, `C86_web`, `C90_signature_differs`, `C91_filed`, `C91_write`, `C98_host`

## Quot.sound, propext

`C07_alphabet`, `C07_canonical`, `C07_decode_encode`, `C10_active_stays`, `C10_expired_iff`, `C10_expired_stays`, `C10_too_early_iff`, `C11_exact`, `C11_refl`, `C11_sound`, `C11_trans`, `C122_nobody`, `C14_antisymm`, `C14_contains_iff`, `C14_forms`, `C14_refl`, `C14_trans`, `C14_unscoped`, `C14_unscoped_only`, `C17_iter_mem`, `C19_enables`, `C19_unique`, `C48_isolated`, `C48_kept`, `C48_only_written`, `C48_read_log`, `C48_refused`, `C48_rewrite`, `C48_write_cid`, `C50_content`, `C57_name_code`, `C70_texts_differ`, `C71_shortest_string`, `C78_of_total`, `C86_web_panics`, `C89_no_caveat`, `C90_signature_agree`, `C90_signature_panics`, `C97_enables`

## Classical.choice, Quot.sound, propext

`C01_round_trip`, `C01_round_trip_general`, `C02_signed_bytes`, `C03_acceptance`, `C03_no_panic`, `C04_extra_segments`, `C04_not_injective`, `C04_same_iff`, `C04_unique_three_segments_partial`, `C05_content`, `C06_cid_of_text`, `C06_foreign_reencode`, `C06_reencode`, `C07_token`, `C08_reserved_lost`, `C08_survives`, `C09_facts_sorted`, `C09_order_irrelevant`, `C09_payload_sorted`, `C100_bounded_partial`, `C100_doubling`, `C101_chain`, `C101_crash`, `C101_safe_partial`, `C101_validate`, `C102_exact`, `C102_growth`, `C102_leak`, `C102_untouched_partial`, `C103_disowned`, `C103_iff`, `C103_listed_partial`, `C103_report`, `C104_covered`, `C104_disowned`, `C104_grantors_partial`, `C104_offers`, `C105_asked`, `C105_justified_partial`, `C105_quiet`, `C105_refused`, `C105_unlinked`, `C105_violated`, `C106_bounded_partial`, `C106_exact`, `C106_unbounded`, `C107_determines`, `C107_fields`, `C107_line`, `C107_texts`, `C107_times`, `C107_verbatim`, `C108_chain_partial`, `C108_late`, `C108_lifetime`, `C108_validate`, `C109_cause`, `C109_clock`, `C109_crash`, `C109_survives_partial`, `C109_validate`, `C110_at_once`, `C110_withdraw`, `C111_exactly`, `C111_more`, `C111_register`, `C112_order`, `C112_reports`, `C112_shift`, `C113_builds`, `C113_ends_partial`, `C113_forever`, `C114_endless_partial`, `C114_refused_partial`, `C114_unchecked`, `C114_violated`, `C115_renamed`, `C115_second_signature`, `C115_violated`, `C115_walk_partial`, `C116_check`, `C116_exact`, `C116_public`, `C116_stricter`, `C116_vouched`, `C117_raw`, `C117_refused`, `C117_text_partial`, `C117_violated`, `C118_accepted`, `C118_builds`, `C118_refused_partial`, `C118_still_partial`, `C118_violated`, `C119_ambiguous`, `C119_forged`, `C119_kind`, `C119_line_partial`, `C119_same`, `C119_worded`, `C119_wording`, `C120_content`, `C120_first_partial`, `C120_order_partial`, `C120_two_readings`, `C120_written`, `C121_last`, `C121_never_called`, `C121_refused`, `C121_usable_partial`, `C122_builds`, `C122_signs`, `C122_usable_partial`, `C122_useless`, `C122_violated`, `C123_confused`, `C123_integers_partial`, `C123_spellings`, `C124_as_issued_partial`, `C124_exact`, `C124_useless`, `C124_violated`, `C125_cited`, `C125_growth`, `C125_independent`, `C125_text`, `C126_ignored`, `C126_lower`, `C126_schemes_partial`, `C126_violated`, `C127_check`, `C127_programs`, `C127_report`, `C128_cited`, `C128_exact`, `C128_repeated`, `C128_same_key`, `C129_line`, `C129_report`, `C12_accepts_before_nbf`, `C12_not_window`, `C12_rejects_inside_window`, `C12_validate_iff`, `C12_window_partial`, `C130_report`, `C130_survives_partial`, `C130_violated`, `C130_wnfs_partial`, `C131_fixtures`, `C131_form_partial`, `C131_sole_partial`, `C131_violated`, `C131_whole`, `C132_hides`, `C132_not_reported`, `C132_not_understood`, `C132_violated`, `C133_append`, `C133_cited`, `C133_report`, `C134_part_partial`, `C134_single_partial`, `C134_violated`, `C135_same_partial`, `C135_violated`, `C136_accepts`, `C136_authority`, `C136_circle`, `C136_flows`, `C136_granted`, `C136_group`, `C13_antisymm`, `C13_caveat_enables_iff`, `C13_refl`, `C13_trans`, `C15_antisymm`, `C15_circle`, `C15_enables_iff`, `C15_refl`, `C15_trans`, `C16_accepts`, `C16_ordered`, `C16_permutation`, `C16_stable`, `C17_iter_claims`, `C17_no_panic`, `C17_ofValue_iff`, `C17_rebuild`, `C18_builder_well_formed_partial`, `C18_every_map`, `C18_harmless`, `C18_tokens_bypass_validation`, `C19_all_unreachable`, `C19_decimal`, `C19_index_iff`, `C19_other_ability`, `C19_star`, `C19_star_chain`, `C20_as_never_parses`, `C20_extract_did`, `C20_my_wildcard_partial`, `C20_no_as_view`, `C20_round_trip_fails`, `C20_round_trip_iff`, `C20_round_trip_partial`, `C20_selection`, `C20_text`, `C20_wildcard_lost`, `C21_all_valid`, `C22_links`, `C22_links_bounds`, `C23_mirrors`, `C23_root`, `C24_complete`, `C24_depth`, `C24_fuel_irrelevant`, `C24_unique`, `C25_bounded`, `C25_bounds`, `C26_bad_proof`, `C26_bad_proof_token`, `C26_expired`, `C27_index_matters`, `C27_no_panic`, `C27_no_panic_inside`, `C28_offered`, `C28_own`, `C28_step`, `C28_token`, `C29_lifetime`, `C30_authentic`, `C30_issuer`, `C30_nonempty`, `C30_sorted`, `C31_always`, `C31_always_leaf`, `C31_always_marked`, `C31_closed_form`, `C31_confined`, `C31_escalation`, `C31_exact_partial`, `C31_overall`, `C31_overall_plain`, `C31_overall_wnfs`, `C31_related`, `C32_flow_origin`, `C32_sole_flows`, `C32_sole_granted`, `C32_sole_granted_trans`, `C33_covered`, `C33_covered_trans`, `C33_offered_covered`, `C33_token`, `C34_exact`, `C34_foreign_last_partial`, `C34_hidden`, `C35_broad_first_partial`, `C35_distinct`, `C35_half_partial`, `C35_irredundant_iff`, `C35_redundant`, `C35_reported`, `C36_cyclic_store`, `C36_endless`, `C36_terminates`, `C37_final`, `C37_initial`, `C38_cache_transparent`, `C38_history`, `C39_accepts_iff`, `C39_error_or_key_partial`, `C39_panic_iff`, `C39_short_did_panics`, `C40_decode_encode`, `C40_denotes_unique`, `C40_encode_decode`, `C40_injective`, `C41_ed25519`, `C41_keys_differ`, `C41_p256`, `C41_rsa`, `C41_rsa_swallowed`, `C41_types_differ`, `C42_ed25519`, `C42_p256`, `C42_parsed_validates`, `C42_rejected`, `C42_rsa`, `C42_signed_validates`, `C43_authentic_signed`, `C43_chain`, `C43_token`, `C44_injective`, `C44_minimal`, `C44_round_trip`, `C44_varint`, `C45_panic`, `C45_success`, `C45_total_partial`, `C46_collision`, `C46_injective_partial`, `C46_of`, `C46_panic`, `C46_round_trip_partial`, `C46_safe`, `C46_same_iff`, `C47_encode`, `C47_only_portable`, `C47_round_trip`, `C47_same`, `C47_signed`, `C47_version`, `C48_token`, `C49_memory`, `C49_read_iff`, `C50_chain`, `C51_build_iff`, `C51_built`, `C51_explicit_expiry`, `C51_missing`, `C51_state`, `C52_fits_partial`, `C52_panics`, `C52_witness`, `C52_wraps`, `C53_claims`, `C53_indices`, `C54_panics`, `C54_payload`, `C54_witness`, `C55_claim`, `C55_delegation`, `C55_two_parties`, `C56_builder`, `C56_injective`, `C56_round_trip`, `C58_independent`, `C58_signed_partial`, `C58_token_accepted`, `C58_violated`, `C59_constructor_unchecked`, `C59_covered_partial`, `C59_parsed`, `C59_signed`, `C59_unique`, `C60_chain`, `C60_fixtures_partial`, `C60_iff`, `C60_scheme_partial`, `C60_wildcard_crosses`, `C61_determined`, `C62_terminates`, `C63_builder`, `C63_default_resolves`, `C63_other_hasher`, `C63_same_cid`, `C64_round_trip`, `C65_authority`, `C65_circle`, `C65_no_grant_no_access`, `C66_clock`, `C66_supplied_time`, `C67_more_proofs`, `C68_accesses`, `C68_exponential`, `C68_nodes`, `C68_single_proof_partial`, `C69_base32_decode`, `C69_base32_encode`, `C69_base58_decode`, `C69_base58_encode`, `C69_base64_decode`, `C69_base64_encode`, `C69_cid_text`, `C69_token`, `C69_token_cid`, `C70_many_texts`, `C70_reference`, `C70_written`, `C71_accepts`, `C71_canonical`, `C71_canonical_unique`, `C71_exact_prefix`, `C71_prefix`, `C71_prefix_accepted`, `C71_shortest`, `C71_too_deep`, `C71_unambiguous`, `C71_written`, `C72_header_document`, `C72_header_read`, `C72_payload_document`, `C72_payload_names`, `C72_payload_read`, `C72_signed`, `C72_token`, `C72_written`, `C73_document`, `C73_injective`, `C73_read`, `C73_round_trip`, `C73_token`, `C73_ucan_read`, `C73_value_round_trip`, `C73_written`, `C74_email_resource`, `C74_email_round_trip`, `C74_lawful`, `C74_trailing_slash`, `C74_wnfs_antisymm`, `C74_wnfs_contains`, `C74_wnfs_levels`, `C74_wnfs_names`, `C74_wnfs_origin`, `C75_covered_partial`, `C75_document`, `C75_forged`, `C75_forged_chain`, `C75_read`, `C75_reparsed_partial`, `C75_round_trip`, `C75_signed`, `C75_too_deep`, `C75_written`, `C76_conversion_iff`, `C76_did_partial`, `C76_sizes`, `C76_small_keys`, `C76_token_partial`, `C77_did`, `C77_parse`, `C77_unique`, `C77_z6Mk`, `C77_zDna`, `C78_back`, `C78_back_panics`, `C78_back_signed`, `C78_bytes`, `C78_injective`, `C78_of`, `C78_travels`, `C79_cid`, `C79_did`, `C79_endless`, `C79_exclusive`, `C79_text`, `C79_token`, `C79_ucan`, `C79_unique`, `C79_validate`, `C80_cid`, `C80_token`, `C80_ucan`, `C81_order_matters`, `C81_report`, `C81_sets`, `C82_addresses`, `C82_email_lost`, `C82_email_resource`, `C82_no_dots`, `C82_reads`, `C82_special`, `C82_wnfs_capability`, `C82_wnfs_covers`, `C82_wnfs_resource`, `C82_wnfs_round_trip`, `C83_foreign_unusable`, `C83_must_verify`, `C83_other_name`, `C83_own_partial`, `C83_received_partial`, `C83_reference`, `C83_through_builder`, `C83_violated`, `C84_deterministic`, `C84_hashers`, `C84_nonce`, `C84_request`, `C84_same_cid`, `C84_same_text`, `C84_text`, `C85_bounds`, `C85_count`, `C85_count_own`, `C85_depends`, `C86_alias`, `C86_authentic`, `C86_chain`, `C86_token`, `C86_unforgeable`, `C86_validate`, `C87_check`, `C87_complete`, `C87_escalation`, `C87_no_check`, `C87_panics`, `C87_report`, `C87_separate_partial`, `C87_sole_partial`, `C88_accepted`, `C88_expires`, `C88_generate`, `C88_no_key_types`, `C88_reads_back`, `C89_delegating`, `C89_delegating_report`, `C89_exact`, `C89_grows_partial`, `C89_one_more`, `C89_views`, `C89_violated`, `C89_wildcard`, `C90_accepted`, `C90_differs`, `C90_iff`, `C90_same_partial`, `C90_signature_made`, `C90_violated`, `C91_delegation`, `C91_needed`, `C91_own_hash`, `C91_wrong_hash`, `C92_endless`, `C92_finished`, `C92_interleaved`, `C92_parser`, `C92_progress`, `C92_returns`, `C92_reuse`, `C92_shared`, `C93_empty_partial`, `C93_ignored`, `C93_kept_partial`, `C93_passed_on`, `C93_violated`, `C94_any_number_partial`, `C94_capabilities`, `C94_irredundant_partial`, `C94_second_partial`, `C94_violated`, `C95_accepted`, `C95_moment_partial`, `C95_violated`, `C96_determined_partial`, `C96_pinned_partial`, `C96_power`, `C96_substitution`, `C97_names`, `C97_types`, `C98_claims`, `C98_everything_partial`, `C98_none`, `C98_wildcards_partial`, `C99_ignored`, `C99_links_partial`, `C99_reports`, `C99_violated`
