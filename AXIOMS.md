# Axioms of the property theorems

Generated by `tools/axioms.py` from `#print axioms`.

## none

* `Nanvm.C14_to_big_int`
* `Nanvm.C31_nul_violated`
* `Nanvm.C32_tables_built`
* `Nanvm.C68_from_u64_zero_violated`

## propext

* `Nanvm.C04_compare_violated`
* `Nanvm.C05_divmod_violated`
* `Nanvm.C05_remainder_sign_violated`
* `Nanvm.C05_quotient_violated`
* `Nanvm.C05_termination_violated`
* `Nanvm.C06_pow_violated`
* `Nanvm.C06_pow_u64_zero_violated`
* `Nanvm.C08_shr_violated`
* `Nanvm.C08_shr_multi_limb_violated`
* `Nanvm.C09_and_violated`
* `Nanvm.C09_or_violated`
* `Nanvm.C09_xor_violated`
* `Nanvm.C11_termination_violated`
* `Nanvm.C11_divmod_violated`
* `Nanvm.C11_quotient_violated`
* `Nanvm.C11_div_zero_panics`
* `Nanvm.C12_shr_violated`
* `Nanvm.C12_shr_big_amount_violated`
* `Nanvm.C15_cmp_violated`
* `Nanvm.C15_divmod_violated`
* `Nanvm.C15_remainder_sign_violated`
* `Nanvm.C15_negative_zero_violated`
* `Nanvm.C23_arena_never`
* `Nanvm.C24_no_panic_violated`
* `Nanvm.C31_from_range_violated`
* `Nanvm.C31_from_one_violated`
* `Nanvm.C34_newlines_merge`
* `Nanvm.Parser.C38_in_progress`
* `Nanvm.Parser.C39_cached`
* `Nanvm.C48_split`
* `Nanvm.C62_hash`
* `Nanvm.C66_no_errors`
* `Nanvm.C68_from_i64_min_violated`
* `Nanvm.C68_violated`
* `Nanvm.C69_track`
* `Nanvm.Analyzer.C71_push`
* `Nanvm.C81_shl_violated`
* `Nanvm.C84_zero_over_zero`
* `Nanvm.C85_zero_to_zero_violated`
* `Nanvm.C89_size_partial`

## propext, Classical.choice, Quot.sound

* `Nanvm.C01_add_exact`
* `Nanvm.C01_sub_exact`
* `Nanvm.C01_not_exact`
* `Nanvm.C02_mul_exact`
* `Nanvm.C03_histories_canonical`
* `Nanvm.C03_canonical_unique`
* `Nanvm.C03_equals_iff`
* `Nanvm.C04_compare_partial`
* `Nanvm.C05_outcome_partial`
* `Nanvm.C05_too_large_partial`
* `Nanvm.C05_goes_well_partial`
* `Nanvm.C05_right_iff_partial`
* `Nanvm.C05_divmod_partial`
* `Nanvm.C05_small_dividend_partial`
* `Nanvm.C05_div_zero_panics`
* `Nanvm.C06_pow_partial`
* `Nanvm.C06_pow_u64_partial`
* `Nanvm.C06_large_exponent`
* `Nanvm.C07_shl_exact`
* `Nanvm.C07_shl_large`
* `Nanvm.C08_shr_partial`
* `Nanvm.C08_shr_large`
* `Nanvm.C08_shr_iff_partial`
* `Nanvm.C09_and_partial`
* `Nanvm.C09_or_partial`
* `Nanvm.C09_xor_partial`
* `Nanvm.C09_result_exists`
* `Nanvm.C09_nonneg`
* `Nanvm.C09_exact_partial`
* `Nanvm.C09_iff_partial`
* `Nanvm.C10_add_exact`
* `Nanvm.C10_sub_exact`
* `Nanvm.C10_mul_exact`
* `Nanvm.C10_cmp_exact`
* `Nanvm.C10_canonical_unique`
* `Nanvm.C10_is_one`
* `Nanvm.C11_divmod_partial`
* `Nanvm.C11_div_partial`
* `Nanvm.C11_outcome_partial`
* `Nanvm.C11_twice_partial`
* `Nanvm.C11_nonzero_remainder_partial`
* `Nanvm.C11_exact_partial`
* `Nanvm.C11_overshoot_partial`
* `Nanvm.C11_right_iff_partial`
* `Nanvm.C11_stuck_iff_partial`
* `Nanvm.C11_iterations_partial`
* `Nanvm.C12_shl_exact`
* `Nanvm.C12_shr_partial`
* `Nanvm.C12_shr_iff_partial`
* `Nanvm.C12_shr_amount_partial`
* `Nanvm.C13_pow_u64_exact`
* `Nanvm.C13_pow_exact`
* `Nanvm.C13_large_exponent`
* `Nanvm.C14_add_exact`
* `Nanvm.C14_abs_exact`
* `Nanvm.C14_sub_exact`
* `Nanvm.C14_mul_exact`
* `Nanvm.C15_cmp_partial`
* `Nanvm.C15_divmod_partial`
* `Nanvm.C15_outcome_partial`
* `Nanvm.C15_right_iff_partial`
* `Nanvm.C16_termination_violated`
* `Nanvm.C16_negative_zero_violated`
* `Nanvm.C16_decimal_partial`
* `Nanvm.BigFloat.C16_never_low_partial`
* `Nanvm.BigFloat.C16_goes_well_partial`
* `Nanvm.C16_literal_well_partial`
* `Nanvm.C16_small_violated`
* `Nanvm.C16_literal_partial`
* `Nanvm.C17_to_f64_partial`
* `Nanvm.C17_band_flushed`
* `Nanvm.C17_to_f64_violated`
* `Nanvm.C18_bigint`
* `Nanvm.C18_integer`
* `Nanvm.C18_negative_zero_violated`
* `Nanvm.C18_no_panic`
* `Nanvm.C19_is_ref`
* `Nanvm.C20_round_trip_partial`
* `Nanvm.C20_nan_never`
* `Nanvm.C21_or_unchecked`
* `Nanvm.C21_or`
* `Nanvm.C21_and`
* `Nanvm.C21_raw_round_trip`
* `Nanvm.C22_destroyed_once`
* `Nanvm.C22_handles_live`
* `Nanvm.C22_at_last_drop`
* `Nanvm.C22_arena`
* `Nanvm.C23_try_to_mut_ref`
* `Nanvm.C23_mut_is_sole`
* `Nanvm.C24_live_iff_reachable`
* `Nanvm.C24_all_released`
* `Nanvm.C24_no_memory_error`
* `Nanvm.C24_no_panic_partial`
* `Nanvm.C24_drop_partial`
* `Nanvm.C24_panic_iff`
* `Nanvm.C24_history_panics_iff`
* `Nanvm.C25_alloc`
* `Nanvm.C25_blocks`
* `Nanvm.C26_accounting`
* `Nanvm.C26_dealloc`
* `Nanvm.C26_alloc`
* `Nanvm.C26_all_released`
* `Nanvm.C27_align_to`
* `Nanvm.C27_field_layout`
* `Nanvm.C27_asserts`
* `Nanvm.C28_construct`
* `Nanvm.C28_drop`
* `Nanvm.C28_layout`
* `Nanvm.C30_merge_union`
* `Nanvm.C30_merge_panics_iff`
* `Nanvm.C30_merge_list`
* `Nanvm.C31_from_range_partial`
* `Nanvm.C31_from_one_partial`
* `Nanvm.C32_total_conv`
* `Nanvm.C32_total_partial`
* `Nanvm.C32_total_violated`
* `Nanvm.C32_total_overflow_violated`
* `Nanvm.Tok.C32_goes_well_partial`
* `Nanvm.C33_surrogate_pair_violated`
* `Nanvm.C33_literal_partial`
* `Nanvm.C33_content_exists`
* `Nanvm.C33_surrogate_rejected`
* `Nanvm.C33_no_silent_acceptance`
* `Nanvm.C33_malformed_rejected`
* `Nanvm.C34_render`
* `Nanvm.C35_end_newline_visible`
* `Nanvm.C35_end_exponent_differs`
* `Nanvm.C36_iterator`
* `Nanvm.C37_grammar_partial`
* `Nanvm.C37_grammar_no_exponent`
* `Nanvm.C37_grammar_violated`
* `Nanvm.C37_complete`
* `Nanvm.C37_complete_bigint`
* `Nanvm.Parser.C38_terminates`
* `Nanvm.Parser.C38_fuel`
* `Nanvm.Parser.C38_no_cycle`
* `Nanvm.Parser.C38_circular`
* `Nanvm.Parser.C38_cycle_rejected`
* `Nanvm.Parser.C39_read_once`
* `Nanvm.Parser.C39_reads`
* `Nanvm.Parser.C39_after_error`
* `Nanvm.Parser.C40_relative_partial`
* `Nanvm.Parser.C40_root_relative`
* `Nanvm.Parser.C40_relative_violated`
* `Nanvm.Parser.C41_stretch_partial`
* `Nanvm.Parser.C41_kind_partial`
* `Nanvm.Parser.C41_not_mixed_partial`
* `Nanvm.Parser.C41_violated`
* `Nanvm.Parser.C42_final`
* `Nanvm.Parser.C42_state`
* `Nanvm.Parser.C42_complete`
* `Nanvm.Parser.C43_json`
* `Nanvm.Parser.C44_members`
* `Nanvm.Parser.C45_defined`
* `Nanvm.Parser.C45_undefined`
* `Nanvm.Parser.C45_sound`
* `Nanvm.Parser.C45_bound`
* `Nanvm.Parser.C46_exact_partial`
* `Nanvm.Parser.C46_ways_partial`
* `Nanvm.Parser.C46_not_both_partial`
* `Nanvm.Parser.C46_no_panic_partial`
* `Nanvm.Parser.C46_step_partial`
* `Nanvm.Parser.C46_violated`
* `Nanvm.Parser.C46_pure_violated`
* `Nanvm.Parser.C47_one_value`
* `Nanvm.Parser.C47_twice`
* `Nanvm.C49_absolute_violated`
* `Nanvm.C49_dot_violated`
* `Nanvm.C49_iff_partial`
* `Nanvm.C49_concat_iff_partial`
* `Nanvm.C50_read_back_partial`
* `Nanvm.C50_surrogates_rejected`
* `Nanvm.C50_violated`
* `Nanvm.C51_goes_well_partial`
* `Nanvm.C51_small_violated`
* `Nanvm.C51_accepted`
* `Nanvm.C51_read_back_partial`
* `Nanvm.C51_numbers_partial`
* `Nanvm.C51_surrogates_rejected`
* `Nanvm.C51_violated`
* `Nanvm.C51_negative_zero_violated`
* `Nanvm.C51_infinity_violated`
* `Nanvm.C52_ascii`
* `Nanvm.C52_denotes`
* `Nanvm.C53_total_partial`
* `Nanvm.C53_bigint_panics`
* `Nanvm.C53_violated`
* `Nanvm.C54_constants`
* `Nanvm.C54_bigint_panics`
* `Nanvm.C55_accepted`
* `Nanvm.C55_read_back_partial`
* `Nanvm.C55_line_breaks_partial`
* `Nanvm.C55_shared_rejected`
* `Nanvm.C55_violated`
* `Nanvm.C56_writes`
* `Nanvm.C56_violated`
* `Nanvm.C56_bigint_violated`
* `Nanvm.C56_semicolon_violated`
* `Nanvm.C56_returns_partial`
* `Nanvm.C56_panics_partial`
* `Nanvm.C57_suffix`
* `Nanvm.C58_lossless`
* `Nanvm.C58_injective`
* `Nanvm.C58_units`
* `Nanvm.C58_onto`
* `Nanvm.C59_graph`
* `Nanvm.C59_literals`
* `Nanvm.C60_json_partial`
* `Nanvm.C60_violated`
* `Nanvm.C60_accepted`
* `Nanvm.Parser.C61_loads`
* `Nanvm.Parser.C61_unique`
* `Nanvm.C62_eq_partial`
* `Nanvm.C62_word_partial`
* `Nanvm.C63_exact_partial`
* `Nanvm.C63_status_violated`
* `Nanvm.C63_status_partial`
* `Nanvm.C64_panic_twice`
* `Nanvm.C64_modify_violated`
* `Nanvm.C65_same_text`
* `Nanvm.C65_track_linear`
* `Nanvm.C65_linear_partial`
* `Nanvm.C65_exponential`
* `Nanvm.C65_tower_ends`
* `Nanvm.C65_violated`
* `Nanvm.C65_upper_partial`
* `Nanvm.C66_sound`
* `Nanvm.C66_complete`
* `Nanvm.C66_unique`
* `Nanvm.C67_cut`
* `Nanvm.C68_from_i64_partial`
* `Nanvm.C69_children`
* `Nanvm.C69_for_each`
* `Nanvm.C69_first_error`
* `Nanvm.C69_write`
* `Nanvm.Parser.C70_sound`
* `Nanvm.Parser.C70_files`
* `Nanvm.Parser.C70_complete`
* `Nanvm.Analyzer.C71_last_token_lost`
* `Nanvm.Parser.C72_blocks`
* `Nanvm.C72_violated`
* `Nanvm.C72_sharing_partial`
* `Nanvm.C72_same_places`
* `Nanvm.C72_tree`
* `Nanvm.C73_same_text`
* `Nanvm.C73_injective`
* `Nanvm.C73_prefix_free`
* `Nanvm.C74_accepted`
* `Nanvm.C74_through_partial`
* `Nanvm.C74_again_partial`
* `Nanvm.C74_violated`
* `Nanvm.C75_frozen`
* `Nanvm.C75_exists`
* `Nanvm.C75_changed`
* `Nanvm.C76_types`
* `Nanvm.C76_get`
* `Nanvm.C76_store_typed`
* `Nanvm.C76_store`
* `Nanvm.Parser.C77_agree`
* `Nanvm.Parser.C77_import`
* `Nanvm.Parser.C78_parse`
* `Nanvm.Parser.C78_named`
* `Nanvm.App.C78_run`
* `Nanvm.App.C78_run_named`
* `Nanvm.Parser.C79_accepts_partial`
* `Nanvm.Parser.C79_kind`
* `Nanvm.Parser.C79_ends_partial`
* `Nanvm.Parser.C79_keys_violated`
* `Nanvm.Parser.C79_require_violated`
* `Nanvm.C80_values_partial`
* `Nanvm.C80_memory_safe_partial`
* `Nanvm.C80_no_leak_partial`
* `Nanvm.C80_no_panic_partial`
* `Nanvm.C80_defined_partial`
* `Nanvm.C80_addresses_partial`
* `Nanvm.C81_shl_partial`
* `Nanvm.C81_shr_partial`
* `Nanvm.C81_pow_partial`
* `Nanvm.C82_shortest`
* `Nanvm.C83_exponent_violated`
* `Nanvm.C83_linear_violated`
* `Nanvm.C83_steps_partial`
* `Nanvm.C84_violated`
* `Nanvm.C84_zero_partial`
* `Nanvm.C84_int_zero_partial`
* `Nanvm.C84_js`
* `Nanvm.C85_uint_histories_partial`
* `Nanvm.C85_int_histories_partial`
* `Nanvm.C85_order_violated`
* `Nanvm.C85_order_partial`
* `Nanvm.C85_int_order_partial`
* `Nanvm.Parser.C86_no_dead_end`
* `Nanvm.Parser.C86_end`
* `Nanvm.Parser.C86_unfinished`
* `Nanvm.Parser.C86_final`
* `Nanvm.Parser.C86_panic`
* `Nanvm.Parser.C86_without_files`
* `Nanvm.Threads.C87_no_use_after_free_partial`
* `Nanvm.Threads.C87_once_partial`
* `Nanvm.Threads.C87_sequential_partial`
* `Nanvm.Threads.C87_one_thread`
* `Nanvm.Threads.C87_exclusive_partial`
* `Nanvm.Threads.C87_kept_partial`
* `Nanvm.Threads.C87_acq_rel_partial`
* `Nanvm.C88_json_partial`
* `Nanvm.C88_djs_partial`
* `Nanvm.C88_djs_short_partial`
* `Nanvm.C88_drop_partial`
* `Nanvm.C88_text_violated`
* `Nanvm.C88_json_violated`
* `Nanvm.C88_djs_violated`
* `Nanvm.C88_drop_program_violated`
* `Nanvm.C88_drop_violated`
* `Nanvm.Parser.C88_imports_partial`
* `Nanvm.Parser.C88_imports_chain_violated`
* `Nanvm.Parser.C88_imports_violated`
* `Nanvm.C89_debug_partial`
* `Nanvm.C89_literal_partial`
* `Nanvm.C89_literal_confused_violated`
* `Nanvm.C89_literal_value_partial`
* `Nanvm.C89_literal_violated`
* `Nanvm.C89_shl`
* `Nanvm.C89_division_partial`
* `Nanvm.C89_from_one_partial`
* `Nanvm.C89_from_range_partial`
* `Nanvm.C89_size_violated`
* `Nanvm.C89_literal_release_partial`
* `Nanvm.C89_to_f64_partial`
* `Nanvm.C89_to_f64_violated`
* `Nanvm.C90_parse_partial`
* `Nanvm.C90_run_partial`
* `Nanvm.C90_writes`
* `Nanvm.C90_run_violated`

## propext, Quot.sound

* `Nanvm.C01_negative_exact`
* `Nanvm.C06_negative_exponent_panics`
* `Nanvm.C07_shift_negative`
* `Nanvm.C10_last_bit`
* `Nanvm.C14_neg_exact`
* `Nanvm.C19_exactly_one_type`
* `Nanvm.C19_visitor`
* `Nanvm.C19_delete_dispatch`
* `Nanvm.C20_number_violated`
* `Nanvm.C20_address_bound_needed`
* `Nanvm.C20_words`
* `Nanvm.C21_from_tag_and_mask`
* `Nanvm.C21_split`
* `Nanvm.C21_constants`
* `Nanvm.C29_get_segment`
* `Nanvm.C29_getState`
* `Nanvm.C29_get_total`
* `Nanvm.C32_tables_correct`
* `Nanvm.C35_blanks`
* `Nanvm.C35_block_comment`
* `Nanvm.C35_block_comment_after_newline`
* `Nanvm.C35_line_comment`
* `Nanvm.C35_line_comment_after_newline`
* `Nanvm.C35_line_comment_at_end`
* `Nanvm.C36_two_tokens`
* `Nanvm.C36_end_one_token`
* `Nanvm.C36_prefix`
* `Nanvm.C36_incremental`
* `Nanvm.C48_normalize_idempotent`
* `Nanvm.C48_concat_normalized`
* `Nanvm.C48_no_empty_segment`
* `Nanvm.C48_parents_lead`
* `Nanvm.C48_no_inner_parent`
* `Nanvm.C49_normalize_partial`
* `Nanvm.C49_concat_partial`
* `Nanvm.C62_violated`
* `Nanvm.C64_modify_partial`
* `Nanvm.C68_from_u64_partial`
* `Nanvm.C68_int_from_u64_partial`
* `Nanvm.C68_js_from_u64`
* `Nanvm.Analyzer.C71_total`
* `Nanvm.Analyzer.C71_silent`
* `Nanvm.C76_holds`
* `Nanvm.C76_new`
* `Nanvm.C80_unique`
* `Nanvm.C80_number_violated`
* `Nanvm.C80_bigint_violated`
* `Nanvm.C81_last_bit`
* `Nanvm.Threads.C87_violated`
* `Nanvm.Threads.C87_write_violated`
* `Nanvm.C89_tokenizer_partial`
* `Nanvm.C89_from_i64`
* `Nanvm.C89_from_range_violated`
* `Nanvm.C89_float_partial`
* `Nanvm.C89_tokenizer_float_partial`

