{
 "claims": [
  {
   "property": "C01",
   "status": "proved",
   "theorems": [
    "Nanvm.C01_add_exact",
    "Nanvm.C01_sub_exact",
    "Nanvm.C01_negative_exact",
    "Nanvm.C01_not_exact"
   ],
   "note": "add, sub, negative, not: exact value and canonical result for all canonical operands"
  },
  {
   "property": "C02",
   "status": "proved",
   "theorems": [
    "Nanvm.C02_mul_exact"
   ],
   "note": ""
  },
  {
   "property": "C03",
   "status": "proved",
   "theorems": [
    "Nanvm.C03_histories_canonical",
    "Nanvm.C03_canonical_unique",
    "Nanvm.C03_equals_iff"
   ],
   "note": "histories over literals, +, -, *, unary -, ~, << ; equals decides value equality"
  },
  {
   "property": "C04",
   "status": "partial",
   "theorems": [
    "Nanvm.C04_compare_violated",
    "Nanvm.C04_compare_partial"
   ],
   "note": "code violates the full property for two negative operands with the same limb count (order reversed); the partial theorem characterises compare on all inputs"
  },
  {
   "property": "C05",
   "status": "partial",
   "theorems": [
    "Nanvm.C05_outcome_partial",
    "Nanvm.C05_too_large_partial",
    "Nanvm.C05_goes_well_partial",
    "Nanvm.C05_right_iff_partial",
    "Nanvm.C05_divmod_violated",
    "Nanvm.C05_remainder_sign_violated",
    "Nanvm.C05_quotient_violated",
    "Nanvm.C05_termination_violated",
    "Nanvm.C05_divmod_partial",
    "Nanvm.C05_small_dividend_partial",
    "Nanvm.C05_div_zero_panics"
   ],
   "note": "code violates the full property (remainder of small dividends, remainder sign, multi-limb divisors, non-termination); proved exact for divisors d*2^(64k), d <= 2^63; for every other divisor with |b| <= |a|: no result, or a quotient that is never too small, a remainder below |b|, and the division identity up to a multiple of 2^(64L); the quotient is right exactly if every guessed digit goes well (C05_right_iff_partial)"
  },
  {
   "property": "C06",
   "status": "partial",
   "theorems": [
    "Nanvm.C06_pow_violated",
    "Nanvm.C06_pow_u64_zero_violated",
    "Nanvm.C06_pow_partial",
    "Nanvm.C06_pow_u64_partial",
    "Nanvm.C06_negative_exponent_panics",
    "Nanvm.C06_large_exponent"
   ],
   "note": "code violates the full property for (-1)^odd (pow) and base 0 (pow_u64); proved for everything else"
  },
  {
   "property": "C07",
   "status": "proved",
   "theorems": [
    "Nanvm.C07_shl_exact",
    "Nanvm.C07_shift_negative",
    "Nanvm.C07_shl_large"
   ],
   "note": ""
  },
  {
   "property": "C08",
   "status": "partial",
   "theorems": [
    "Nanvm.C08_shr_violated",
    "Nanvm.C08_shr_multi_limb_violated",
    "Nanvm.C08_shr_partial",
    "Nanvm.C08_shr_large",
    "Nanvm.C08_shr_iff_partial"
   ],
   "note": "code violates the full property (bits lost between limbs, truncation of negatives); C08_shr_iff_partial says exactly for which numbers and amounts below 2^64 the result is the floor"
  },
  {
   "property": "C09",
   "status": "partial",
   "theorems": [
    "Nanvm.C09_and_violated",
    "Nanvm.C09_or_violated",
    "Nanvm.C09_xor_violated",
    "Nanvm.C09_and_partial",
    "Nanvm.C09_or_partial",
    "Nanvm.C09_xor_partial",
    "Nanvm.C09_result_exists",
    "Nanvm.C09_nonneg",
    "Nanvm.C09_exact_partial",
    "Nanvm.C09_iff_partial"
   ],
   "note": "code violates the full property when a negative result has a zero top limb; C09_exact_partial says what the code answers for all operands, C09_iff_partial that it is right exactly when the top limb is kept"
  },
  {
   "property": "C10",
   "status": "proved",
   "theorems": [
    "Nanvm.C10_add_exact",
    "Nanvm.C10_sub_exact",
    "Nanvm.C10_mul_exact",
    "Nanvm.C10_cmp_exact",
    "Nanvm.C10_canonical_unique",
    "Nanvm.C10_last_bit",
    "Nanvm.C10_is_one"
   ],
   "note": ""
  },
  {
   "property": "C11",
   "status": "partial",
   "theorems": [
    "Nanvm.C11_termination_violated",
    "Nanvm.C11_divmod_violated",
    "Nanvm.C11_quotient_violated",
    "Nanvm.C11_divmod_partial",
    "Nanvm.C11_div_partial",
    "Nanvm.C11_div_zero_panics",
    "Nanvm.C11_outcome_partial",
    "Nanvm.C11_twice_partial",
    "Nanvm.C11_nonzero_remainder_partial",
    "Nanvm.C11_exact_partial",
    "Nanvm.C11_overshoot_partial",
    "Nanvm.C11_right_iff_partial",
    "Nanvm.C11_stuck_iff_partial",
    "Nanvm.C11_iterations_partial"
   ],
   "note": "code violates the full property for multi-limb divisors (non-termination, wrong quotient).  What it does is proved exactly for all operands: C11_exact_partial, C11_right_iff_partial, C11_stuck_iff_partial (long division with guessed digits, Spec/LongDivision.lean); right for divisors d*2^(64k), 0 < d < 2^64; a wrong quotient is too large by at most a factor of 1 + 1/(top limb of the divisor)"
  },
  {
   "property": "C12",
   "status": "partial",
   "theorems": [
    "Nanvm.C12_shl_exact",
    "Nanvm.C12_shr_violated",
    "Nanvm.C12_shr_big_amount_violated",
    "Nanvm.C12_shr_partial",
    "Nanvm.C12_shr_iff_partial",
    "Nanvm.C12_shr_amount_partial"
   ],
   "note": "left shift proved in full; right shift violated by the code, C12_shr_iff_partial says exactly for which numbers and one-limb amounts it is right, C12_shr_amount_partial for which longer amounts"
  },
  {
   "property": "C13",
   "status": "proved",
   "theorems": [
    "Nanvm.C13_pow_u64_exact",
    "Nanvm.C13_pow_exact",
    "Nanvm.C13_large_exponent"
   ],
   "note": ""
  },
  {
   "property": "C14",
   "status": "proved",
   "theorems": [
    "Nanvm.C14_add_exact",
    "Nanvm.C14_neg_exact",
    "Nanvm.C14_abs_exact",
    "Nanvm.C14_to_big_int",
    "Nanvm.C14_sub_exact",
    "Nanvm.C14_mul_exact"
   ],
   "note": ""
  },
  {
   "property": "C15",
   "status": "partial",
   "theorems": [
    "Nanvm.C15_cmp_violated",
    "Nanvm.C15_cmp_partial",
    "Nanvm.C15_divmod_violated",
    "Nanvm.C15_remainder_sign_violated",
    "Nanvm.C15_negative_zero_violated",
    "Nanvm.C15_divmod_partial",
    "Nanvm.C15_outcome_partial",
    "Nanvm.C15_right_iff_partial"
   ],
   "note": "code violates order of negatives, remainder sign, multi-limb division; exactly when the quotient is right and when the division never ends is proved (C15_right_iff_partial, as C11)"
  },
  {
   "property": "C16",
   "status": "partial",
   "theorems": [
    "Nanvm.C16_termination_violated",
    "Nanvm.C16_negative_zero_violated",
    "Nanvm.C16_decimal_partial",
    "Nanvm.BigFloat.C16_never_low_partial",
    "Nanvm.BigFloat.C16_goes_well_partial",
    "Nanvm.C16_literal_well_partial",
    "Nanvm.C16_small_violated",
    "Nanvm.C16_literal_partial"
   ],
   "note": "Proved for literals with decimal exponent at least -27 that are not a negative zero. Below that, proved one-sided: a conversion that ends never gives too small a magnitude (C16_never_low_partial), and the nearest double is given whenever the guessed digits of the division by 5^n go well (C16_goes_well_partial). The code violates the claim elsewhere: 1e-55 never terminates, 1e-28 to 1e-50 are never divided rightly (C16_small_violated), -0.0 loses its sign."
  },
  {
   "property": "C17",
   "status": "partial",
   "theorems": [
    "Nanvm.C17_to_f64_partial",
    "Nanvm.C17_band_flushed",
    "Nanvm.C17_to_f64_violated"
   ],
   "note": "Proved outside the open interval (2^-1075, 2^-1074), where the code answers 0 instead of the smallest subnormal (C17_band_flushed)."
  },
  {
   "property": "C18",
   "status": "partial",
   "theorems": [
    "Nanvm.C18_bigint",
    "Nanvm.C18_integer",
    "Nanvm.C18_negative_zero_violated",
    "Nanvm.C18_no_panic"
   ],
   "note": "proved except that -0 loses its sign (witness proved)"
  },
  {
   "property": "C19",
   "status": "proved",
   "theorems": [
    "Nanvm.C19_exactly_one_type",
    "Nanvm.C19_visitor",
    "Nanvm.C19_is_ref",
    "Nanvm.C19_delete_dispatch"
   ],
   "note": ""
  },
  {
   "property": "C20",
   "status": "partial",
   "theorems": [
    "Nanvm.C20_number_violated",
    "Nanvm.C20_round_trip_partial",
    "Nanvm.C20_nan_never",
    "Nanvm.C20_address_bound_needed",
    "Nanvm.C20_words"
   ],
   "note": "False as stated for doubles: a negative quiet NaN bit pattern is read back as a boolean, null or pointer (C20_number_violated); C20_nan_never shows these are exactly the doubles that fail, C20_round_trip_partial covers everything else including all 48-bit addresses."
  },
  {
   "property": "C21",
   "status": "proved",
   "theorems": [
    "Nanvm.C21_from_tag_and_mask",
    "Nanvm.C21_split",
    "Nanvm.C21_or_unchecked",
    "Nanvm.C21_or",
    "Nanvm.C21_and",
    "Nanvm.C21_raw_round_trip",
    "Nanvm.C21_constants"
   ],
   "note": ""
  },
  {
   "property": "C22",
   "status": "proved",
   "theorems": [
    "Nanvm.C22_destroyed_once",
    "Nanvm.C22_handles_live",
    "Nanvm.C22_at_last_drop",
    "Nanvm.C22_arena"
   ],
   "note": "for managers whose block header counts references (Global, Local); C22_arena describes the arena, whose header has no counter"
  },
  {
   "property": "C23",
   "status": "proved",
   "theorems": [
    "Nanvm.C23_try_to_mut_ref",
    "Nanvm.C23_mut_is_sole",
    "Nanvm.C23_arena_never"
   ],
   "note": "counting headers; for the arena header try_to_mut_ref always fails (C23_arena_never)"
  },
  {
   "property": "C24",
   "status": "partial",
   "theorems": [
    "Nanvm.C24_live_iff_reachable",
    "Nanvm.C24_all_released",
    "Nanvm.C24_no_memory_error",
    "Nanvm.C24_no_panic_violated",
    "Nanvm.C24_no_panic_partial",
    "Nanvm.C24_drop_partial",
    "Nanvm.C24_panic_iff",
    "Nanvm.C24_history_panics_iff"
   ],
   "note": "code violates the no-panic part (dropping the last Any of a bigint is unreachable!()); liveness = reachability, memory safety and termination proved for all histories; the panic condition is proved exactly (C24_panic_iff), so the claim holds except for a bigint whose last path is given up through an Any"
  },
  {
   "property": "C25",
   "status": "proved",
   "theorems": [
    "Nanvm.C25_alloc",
    "Nanvm.C25_blocks"
   ],
   "note": "assumes valid layouts (power-of-two alignment) and a buffer below 2^63"
  },
  {
   "property": "C26",
   "status": "proved",
   "theorems": [
    "Nanvm.C26_accounting",
    "Nanvm.C26_dealloc",
    "Nanvm.C26_alloc",
    "Nanvm.C26_all_released"
   ],
   "note": "assumes the global allocator returns memory that is not in use and that blocks are released with the layout they were requested with"
  },
  {
   "property": "C27",
   "status": "proved",
   "theorems": [
    "Nanvm.C27_align_to",
    "Nanvm.C27_field_layout",
    "Nanvm.C27_asserts"
   ],
   "note": ""
  },
  {
   "property": "C28",
   "status": "proved",
   "theorems": [
    "Nanvm.C28_construct",
    "Nanvm.C28_drop",
    "Nanvm.C28_layout"
   ],
   "note": ""
  },
  {
   "property": "C29",
   "status": "proved",
   "theorems": [
    "Nanvm.C29_get_segment",
    "Nanvm.C29_getState",
    "Nanvm.C29_get_total"
   ],
   "note": ""
  },
  {
   "property": "C30",
   "status": "proved",
   "theorems": [
    "Nanvm.C30_merge_union",
    "Nanvm.C30_merge_panics_iff",
    "Nanvm.C30_merge_list"
   ],
   "note": ""
  },
  {
   "property": "C31",
   "status": "partial",
   "theorems": [
    "Nanvm.C31_from_range_violated",
    "Nanvm.C31_from_one_violated",
    "Nanvm.C31_nul_violated",
    "Nanvm.C31_from_range_partial",
    "Nanvm.C31_from_one_partial"
   ],
   "note": "False as stated at U+E000 (the predecessor is a surrogate, so the first entry is the range start itself / the single entry covers everything below) and at U+0000 (u32 underflow); the _partial theorems cover every other character and the _violated theorems give the witnesses."
  },
  {
   "property": "C32",
   "status": "partial",
   "theorems": [
    "Nanvm.C32_tables_built",
    "Nanvm.C32_tables_correct",
    "Nanvm.C32_total_conv",
    "Nanvm.C32_total_partial",
    "Nanvm.C32_total_violated",
    "Nanvm.C32_total_overflow_violated",
    "Nanvm.Tok.C32_goes_well_partial"
   ],
   "note": "tables proved; totality proved for literals with decimal exponent between -27 and 2^59, and for smaller exponents if the division by 5^n goes well (C32_goes_well_partial); witnesses for the non-termination on 1e-55 and the overflow panic"
  },
  {
   "property": "C33",
   "status": "partial",
   "theorems": [
    "Nanvm.C33_surrogate_pair_violated",
    "Nanvm.C33_literal_partial",
    "Nanvm.C33_content_exists",
    "Nanvm.C33_surrogate_rejected",
    "Nanvm.C33_no_silent_acceptance",
    "Nanvm.C33_malformed_rejected"
   ],
   "note": "surrogate-pair escapes are rejected by the code (witness proved); everything else proved, including that no escape is accepted silently with a wrong value"
  },
  {
   "property": "C34",
   "status": "proved",
   "theorems": [
    "Nanvm.C34_render",
    "Nanvm.C34_newlines_merge"
   ],
   "note": "all spellings and separators; newlines in a row or at the end have no tokens of their own, so the property excludes them"
  },
  {
   "property": "C35",
   "status": "proved",
   "theorems": [
    "Nanvm.C35_blanks",
    "Nanvm.C35_block_comment",
    "Nanvm.C35_block_comment_after_newline",
    "Nanvm.C35_line_comment",
    "Nanvm.C35_line_comment_after_newline",
    "Nanvm.C35_line_comment_at_end",
    "Nanvm.C35_end_newline_visible",
    "Nanvm.C35_end_exponent_differs"
   ],
   "note": "points between two tokens; what happens at the end of the text (newline token becoming visible, 1e) is recorded in two further theorems"
  },
  {
   "property": "C36",
   "status": "proved",
   "theorems": [
    "Nanvm.C36_two_tokens",
    "Nanvm.C36_end_one_token",
    "Nanvm.C36_prefix",
    "Nanvm.C36_incremental",
    "Nanvm.C36_iterator"
   ],
   "note": ""
  },
  {
   "property": "C37",
   "status": "partial",
   "theorems": [
    "Nanvm.C37_grammar_partial",
    "Nanvm.C37_grammar_no_exponent",
    "Nanvm.C37_grammar_violated",
    "Nanvm.C37_complete",
    "Nanvm.C37_complete_bigint"
   ],
   "note": "the code accepts a missing exponent digit before a terminator (witness 1e, proved); everything else of the grammar proved, soundness and completeness"
  },
  {
   "property": "C38",
   "status": "proved",
   "theorems": [
    "Nanvm.Parser.C38_terminates",
    "Nanvm.Parser.C38_fuel",
    "Nanvm.Parser.C38_no_cycle",
    "Nanvm.Parser.C38_circular",
    "Nanvm.Parser.C38_in_progress",
    "Nanvm.Parser.C38_cycle_rejected"
   ],
   "note": "Termination and fuel independence; a successful parse has no import cycle; import rings give CircularDependency; importing a module in progress is CircularDependency"
  },
  {
   "property": "C39",
   "status": "proved",
   "theorems": [
    "Nanvm.Parser.C39_read_once",
    "Nanvm.Parser.C39_cached",
    "Nanvm.Parser.C39_reads",
    "Nanvm.Parser.C39_after_error"
   ],
   "note": "Reads have no duplicates; cached modules are not read; nothing is read after an error"
  },
  {
   "property": "C40",
   "status": "partial",
   "theorems": [
    "Nanvm.Parser.C40_relative_partial",
    "Nanvm.Parser.C40_root_relative",
    "Nanvm.Parser.C40_relative_violated"
   ],
   "note": "Violated: names are resolved against the directory of the root module (C40_relative_violated). Proved when all files are in one directory"
  },
  {
   "property": "C41",
   "status": "partial",
   "theorems": [
    "Nanvm.Parser.C41_stretch_partial",
    "Nanvm.Parser.C41_kind_partial",
    "Nanvm.Parser.C41_not_mixed_partial",
    "Nanvm.Parser.C41_violated"
   ],
   "note": "Violated when a const stands between an import and a CommonJS construct (C41_violated). Proved: no stretch without const is mixed, and the kind reported is that of what follows the last const"
  },
  {
   "property": "C42",
   "status": "proved",
   "theorems": [
    "Nanvm.Parser.C42_final",
    "Nanvm.Parser.C42_state",
    "Nanvm.Parser.C42_complete"
   ],
   "note": "Errors are final; after a complete module only line breaks may follow"
  },
  {
   "property": "C43",
   "status": "proved",
   "theorems": [
    "Nanvm.Parser.C43_json"
   ],
   "note": "All JSON trees, line breaks anywhere"
  },
  {
   "property": "C44",
   "status": "proved",
   "theorems": [
    "Nanvm.Parser.C44_members"
   ],
   "note": "Members of parsed objects"
  },
  {
   "property": "C45",
   "status": "proved",
   "theorems": [
    "Nanvm.Parser.C45_defined",
    "Nanvm.Parser.C45_undefined",
    "Nanvm.Parser.C45_sound",
    "Nanvm.Parser.C45_bound"
   ],
   "note": "Completeness for constants, soundness for all accepted modules, every identifier bound"
  },
  {
   "property": "C46",
   "status": "partial",
   "theorems": [
    "Nanvm.Parser.C46_exact_partial",
    "Nanvm.Parser.C46_ways_partial",
    "Nanvm.Parser.C46_not_both_partial",
    "Nanvm.Parser.C46_no_panic_partial",
    "Nanvm.Parser.C46_step_partial",
    "Nanvm.Parser.C46_violated",
    "Nanvm.Parser.C46_pure_violated"
   ],
   "note": "Violated at const a = ; (todo!) and for the parser without files. Proved for all file systems and import graphs: a parse panics exactly if the module is in Spec/Crashes.lean (C46_exact_partial), and which of panic, value, error it ends with (C46_ways_partial)"
  },
  {
   "property": "C47",
   "status": "proved",
   "theorems": [
    "Nanvm.Parser.C47_one_value",
    "Nanvm.Parser.C47_twice"
   ],
   "note": "One table of values for all imports, with block numbers"
  },
  {
   "property": "C48",
   "status": "proved",
   "theorems": [
    "Nanvm.C48_normalize_idempotent",
    "Nanvm.C48_concat_normalized",
    "Nanvm.C48_no_empty_segment",
    "Nanvm.C48_parents_lead",
    "Nanvm.C48_no_inner_parent",
    "Nanvm.C48_split"
   ],
   "note": "For all path strings; split is characterised as well."
  },
  {
   "property": "C49",
   "status": "partial",
   "theorems": [
    "Nanvm.C49_absolute_violated",
    "Nanvm.C49_dot_violated",
    "Nanvm.C49_normalize_partial",
    "Nanvm.C49_concat_partial",
    "Nanvm.C49_iff_partial",
    "Nanvm.C49_concat_iff_partial"
   ],
   "note": "Exactly which paths keep their place is proved (C49_iff_partial, C49_concat_iff_partial): relative ones without a \".\" that a \"..\" undoes. The code drops the leading slash and treats \".\" as a directory name (C49_absolute_violated, C49_dot_violated)."
  },
  {
   "property": "C50",
   "status": "partial",
   "theorems": [
    "Nanvm.C50_read_back_partial",
    "Nanvm.C50_surrogates_rejected",
    "Nanvm.C50_violated"
   ],
   "note": "Strings without surrogates are read back exactly, of any length; strings with a surrogate are always rejected (C50_surrogates_rejected), so the property does not hold (C50_violated)."
  },
  {
   "property": "C51",
   "status": "partial",
   "theorems": [
    "Nanvm.C51_goes_well_partial",
    "Nanvm.C51_small_violated",
    "Nanvm.C51_accepted",
    "Nanvm.C51_read_back_partial",
    "Nanvm.C51_numbers_partial",
    "Nanvm.C51_surrogates_rejected",
    "Nanvm.C51_violated",
    "Nanvm.C51_negative_zero_violated",
    "Nanvm.C51_infinity_violated"
   ],
   "note": "Values whose strings have no surrogates and whose numbers are finite, not -0 and printed with at most 27 fraction digits, or with more if the division by the power of five goes well (C51_goes_well_partial), are read back, with the members of objects in any order (they are read in ascending order of the keys, of equal keys the last). Refuted for surrogates, -0, infinities and 1e-55, on whose text the parser never ends (C51_small_violated). C51_accepted: given that the numbers are read back, the text is accepted iff no string or key contains half of a surrogate pair."
  },
  {
   "property": "C52",
   "status": "proved",
   "theorems": [
    "Nanvm.C52_ascii",
    "Nanvm.C52_denotes"
   ],
   "note": "For all strings of 16-bit units."
  },
  {
   "property": "C53",
   "status": "partial",
   "theorems": [
    "Nanvm.C53_total_partial",
    "Nanvm.C53_bigint_panics",
    "Nanvm.C53_violated"
   ],
   "note": "Proved for all values without bigints; every value with a bigint panics (C53_bigint_panics, C53_violated)."
  },
  {
   "property": "C54",
   "status": "proved",
   "theorems": [
    "Nanvm.C54_constants",
    "Nanvm.C54_bigint_panics"
   ],
   "note": "For every consistent graph that has a JSON text and for every hash-map order; graphs with a bigint panic (C54_bigint_panics)."
  },
  {
   "property": "C55",
   "status": "partial",
   "theorems": [
    "Nanvm.C55_accepted",
    "Nanvm.C55_read_back_partial",
    "Nanvm.C55_line_breaks_partial",
    "Nanvm.C55_shared_rejected",
    "Nanvm.C55_violated"
   ],
   "note": "Values in which no array or object is shared are read back; with a shared one the output is always rejected because of ';' (C55_shared_rejected, C55_violated); with the ';' replaced by line breaks all values are read back (C55_line_breaks_partial). Strings and numbers restricted as in C51. C55_accepted: the output is accepted iff there are no surrogates and no shared array or object."
  },
  {
   "property": "C56",
   "status": "partial",
   "theorems": [
    "Nanvm.C56_writes",
    "Nanvm.C56_violated",
    "Nanvm.C56_bigint_violated",
    "Nanvm.C56_semicolon_violated",
    "Nanvm.C56_returns_partial",
    "Nanvm.C56_panics_partial"
   ],
   "note": "What is written and when is proved in full (C56_writes). 'Otherwise reports an error' fails for missing arguments, bigints and 'const a = ;', which panic; C56_panics_partial says exactly when the converter panics, C56_returns_partial gives a sufficient condition for not panicking."
  },
  {
   "property": "C57",
   "status": "proved",
   "theorems": [
    "Nanvm.C57_suffix"
   ],
   "note": "For all paths."
  },
  {
   "property": "C58",
   "status": "proved",
   "theorems": [
    "Nanvm.C58_lossless",
    "Nanvm.C58_injective",
    "Nanvm.C58_units",
    "Nanvm.C58_onto"
   ],
   "note": "also onto the well-formed UTF-16 strings; object keys are ordered by code points (BTreeMap<String>), see C44"
  },
  {
   "property": "C59",
   "status": "proved",
   "theorems": [
    "Nanvm.C59_graph",
    "Nanvm.C59_literals"
   ],
   "note": "For all file systems and texts, including imports."
  },
  {
   "property": "C60",
   "status": "partial",
   "theorems": [
    "Nanvm.C60_json_partial",
    "Nanvm.C60_violated",
    "Nanvm.C60_accepted"
   ],
   "note": "Proved for values whose strings have no surrogates and whose numbers are read back (as C51); refuted by a file with one string outside the BMP. C60_accepted says exactly when the written file is accepted, in all formats."
  },
  {
   "property": "C61",
   "status": "proved",
   "theorems": [
    "Nanvm.Parser.C61_loads",
    "Nanvm.Parser.C61_unique"
   ],
   "note": "closed acyclic projects whose import paths are given as the loader resolves them (all modules relative to the root, see C40)"
  },
  {
   "property": "C62",
   "status": "partial",
   "theorems": [
    "Nanvm.C62_eq_partial",
    "Nanvm.C62_violated",
    "Nanvm.C62_hash",
    "Nanvm.C62_word_partial"
   ],
   "note": "False for negative quiet NaNs (C62_violated, cause as C20); all other pairs proved; equivalence and hash agreement proved for all words; the comparison the serializer model uses in its hash maps is that of the words (C62_word_partial)."
  },
  {
   "property": "C63",
   "status": "partial",
   "theorems": [
    "Nanvm.C63_exact_partial",
    "Nanvm.C63_status_violated",
    "Nanvm.C63_status_partial"
   ],
   "note": "The program discards the result of run, so errors give status 0 (C63_status_violated); proved: success gives 0, another status means a panic and unchanged files."
  },
  {
   "property": "C64",
   "status": "partial",
   "theorems": [
    "Nanvm.C64_modify_partial",
    "Nanvm.C64_panic_twice",
    "Nanvm.C64_modify_violated"
   ],
   "note": "If the closure panics the old value is destroyed twice (C64_panic_twice, C64_modify_violated); proved if it returns."
  },
  {
   "property": "C65",
   "status": "partial",
   "theorems": [
    "Nanvm.C65_same_text",
    "Nanvm.C65_track_linear",
    "Nanvm.C65_linear_partial",
    "Nanvm.C65_exponential",
    "Nanvm.C65_tower_ends",
    "Nanvm.C65_violated",
    "Nanvm.C65_upper_partial"
   ],
   "note": "write_compound_const walks into shared blocks again: a graph of n+2 blocks needs 2^n calls in every hash order (C65_exponential, C65_violated). Proved: the search for shared blocks is linear; everything is linear when nothing is shared; in general the count is the search, one call per place, constant and root, and at most one walk over a value as a tree per shared block (C65_upper_partial)."
  },
  {
   "property": "C66",
   "status": "proved",
   "theorems": [
    "Nanvm.C66_sound",
    "Nanvm.C66_complete",
    "Nanvm.C66_unique",
    "Nanvm.C66_no_errors"
   ],
   "note": "Soundness for all texts; completeness for literals and exponents below 2^62 (beyond them the tokenizer may panic with an overflow, see C32)."
  },
  {
   "property": "C67",
   "status": "proved",
   "theorems": [
    "Nanvm.C67_cut"
   ],
   "note": "All points within a token at which the text can be cut off."
  },
  {
   "property": "C68",
   "status": "partial",
   "theorems": [
    "Nanvm.C68_from_u64_partial",
    "Nanvm.C68_int_from_u64_partial",
    "Nanvm.C68_from_i64_partial",
    "Nanvm.C68_from_i64_min_violated",
    "Nanvm.C68_from_u64_zero_violated",
    "Nanvm.C68_violated",
    "Nanvm.C68_js_from_u64"
   ],
   "note": "Violated at from_u64(0) (not canonical) and from_i64(i64::MIN) (overflow). Values exact otherwise; canonical iff not zero. JS bigints: proved"
  },
  {
   "property": "C69",
   "status": "proved",
   "theorems": [
    "Nanvm.C69_children",
    "Nanvm.C69_for_each",
    "Nanvm.C69_first_error",
    "Nanvm.C69_track",
    "Nanvm.C69_write"
   ],
   "note": ""
  },
  {
   "property": "C70",
   "status": "proved",
   "theorems": [
    "Nanvm.Parser.C70_sound",
    "Nanvm.Parser.C70_files",
    "Nanvm.Parser.C70_complete"
   ],
   "note": "Completeness with numbers below the sizes of C66"
  },
  {
   "property": "C71",
   "status": "proved",
   "theorems": [
    "Nanvm.Analyzer.C71_push",
    "Nanvm.Analyzer.C71_total",
    "Nanvm.Analyzer.C71_silent",
    "Nanvm.Analyzer.C71_last_token_lost"
   ],
   "note": "The last token of a text is never processed (C71_last_token_lost)"
  },
  {
   "property": "C72",
   "status": "partial",
   "theorems": [
    "Nanvm.Parser.C72_blocks",
    "Nanvm.C72_violated",
    "Nanvm.C72_sharing_partial",
    "Nanvm.C72_same_places",
    "Nanvm.C72_tree"
   ],
   "note": "Blocks made by the parser (C72_blocks) and JSON as a tree (C72_tree) hold in full. The round trip through to_djs is refuted by the ';' as in C55 (C72_violated); with line breaks for the semicolons it is a copy with one-to-one blocks (C72_sharing_partial); C72_same_places says what a copy is in terms of places."
  },
  {
   "property": "C73",
   "status": "proved",
   "theorems": [
    "Nanvm.C73_same_text",
    "Nanvm.C73_injective",
    "Nanvm.C73_prefix_free"
   ],
   "note": "numbers finite: all NaNs have the same text"
  },
  {
   "property": "C74",
   "status": "partial",
   "theorems": [
    "Nanvm.C74_accepted",
    "Nanvm.C74_through_partial",
    "Nanvm.C74_again_partial",
    "Nanvm.C74_violated"
   ],
   "note": "values whose strings have no surrogates and whose numbers are read back (as C51); no shared arrays or objects if the file between is a module (as C55); violated otherwise: C74_violated. C74_accepted: exactly when the second conversion succeeds; whenever it does, the text is the right one"
  },
  {
   "property": "C75",
   "status": "proved",
   "theorems": [
    "Nanvm.C75_frozen",
    "Nanvm.C75_exists",
    "Nanvm.C75_changed"
   ],
   "note": ""
  },
  {
   "property": "C76",
   "status": "proved",
   "theorems": [
    "Nanvm.C76_holds",
    "Nanvm.C76_types",
    "Nanvm.C76_new",
    "Nanvm.C76_get",
    "Nanvm.C76_store_typed",
    "Nanvm.C76_store"
   ],
   "note": "For all histories; creation, reading and storing included"
  },
  {
   "property": "C77",
   "status": "proved",
   "theorems": [
    "Nanvm.Parser.C77_agree",
    "Nanvm.Parser.C77_import"
   ],
   "note": "Both state machines are modelled separately (they share the functions of AnyState that the Rust code shares)."
  },
  {
   "property": "C78",
   "status": "proved",
   "theorems": [
    "Nanvm.Parser.C78_parse",
    "Nanvm.Parser.C78_named",
    "Nanvm.App.C78_run",
    "Nanvm.App.C78_run_named"
   ],
   "note": "value, error, cache, reads and writes depend only on the files read; runs that panic return no log: for them only the files that can be named matter (C78_named, C78_run_named)"
  },
  {
   "property": "C79",
   "status": "partial",
   "theorems": [
    "Nanvm.Parser.C79_accepts_partial",
    "Nanvm.Parser.C79_kind",
    "Nanvm.Parser.C79_ends_partial",
    "Nanvm.Parser.C79_keys_violated",
    "Nanvm.Parser.C79_require_violated"
   ],
   "note": "Violated: {a:1,b:2} and [require(..)] are rejected. Proved: exactly the language of Spec/Accepts.lean is accepted, for all file systems and import graphs, and the kind is unique."
  },
  {
   "property": "C80",
   "status": "partial",
   "theorems": [
    "Nanvm.C80_values_partial",
    "Nanvm.C80_unique",
    "Nanvm.C80_memory_safe_partial",
    "Nanvm.C80_no_leak_partial",
    "Nanvm.C80_no_panic_partial",
    "Nanvm.C80_defined_partial",
    "Nanvm.C80_addresses_partial",
    "Nanvm.C80_number_violated",
    "Nanvm.C80_bigint_violated"
   ],
   "note": "Full for all histories without a double in the range of the other values (C20) and, for the absence of panics, without a bigint in an Any (C24); both exceptions are shown by C80_number_violated and C80_bigint_violated."
  },
  {
   "property": "C81",
   "status": "partial",
   "theorems": [
    "Nanvm.C81_shl_partial",
    "Nanvm.C81_shl_violated",
    "Nanvm.C81_shr_partial",
    "Nanvm.C81_last_bit",
    "Nanvm.C81_pow_partial"
   ],
   "note": "Exact conditions are proved; shl_on_u64 and pow_u64 panic for zero (C81_shl_violated, C06_pow_u64_zero_violated), and shr_on_u64 loses bits (C08)."
  },
  {
   "property": "C82",
   "status": "proved",
   "theorems": [
    "Nanvm.C82_shortest"
   ],
   "note": "for every string, against every ASCII literal without control characters that denotes it"
  },
  {
   "property": "C83",
   "status": "partial",
   "theorems": [
    "Nanvm.C83_exponent_violated",
    "Nanvm.C83_linear_violated",
    "Nanvm.C83_steps_partial"
   ],
   "note": "code violates the property for large exponents; upper bound linear in the length of the literal and in the exponent, lower bound linear in the exponent; division bounds in C05_divmod_partial and C11_divmod_partial"
  },
  {
   "property": "C84",
   "status": "partial",
   "theorems": [
    "Nanvm.C84_zero_over_zero",
    "Nanvm.C84_violated",
    "Nanvm.C84_zero_partial",
    "Nanvm.C84_int_zero_partial",
    "Nanvm.C84_js"
   ],
   "note": "code violates the property for zero dividends (C84_violated); the exact condition for the panic is proved for BigUint and BigInt; JS bigints always refuse zero (C84_js)"
  },
  {
   "property": "C85",
   "status": "partial",
   "theorems": [
    "Nanvm.C85_uint_histories_partial",
    "Nanvm.C85_zero_to_zero_violated",
    "Nanvm.C85_int_histories_partial",
    "Nanvm.C85_order_violated",
    "Nanvm.C85_order_partial",
    "Nanvm.C85_int_order_partial"
   ],
   "note": "values are exact for every expression without 0^0, which depends on the form of the zeros (C85_zero_to_zero_violated); the order of two zeros is violated (C85_order_violated), the order is right otherwise up to the reversal of negative BigInts known from C15"
  },
  {
   "property": "C86",
   "status": "proved",
   "theorems": [
    "Nanvm.Parser.C86_no_dead_end",
    "Nanvm.Parser.C86_end",
    "Nanvm.Parser.C86_unfinished",
    "Nanvm.Parser.C86_final",
    "Nanvm.Parser.C86_panic",
    "Nanvm.Parser.C86_without_files"
   ],
   "note": "needs some loadable file (Leaf); C86_without_files shows that the hypothesis is needed"
  },
  {
   "property": "C87",
   "status": "partial",
   "theorems": [
    "Nanvm.Threads.C87_no_use_after_free_partial",
    "Nanvm.Threads.C87_once_partial",
    "Nanvm.Threads.C87_sequential_partial",
    "Nanvm.Threads.C87_one_thread",
    "Nanvm.Threads.C87_exclusive_partial",
    "Nanvm.Threads.C87_kept_partial",
    "Nanvm.Threads.C87_violated",
    "Nanvm.Threads.C87_write_violated",
    "Nanvm.Threads.C87_acq_rel_partial"
   ],
   "note": "Holds for all schedules: no use after free, one deletion, exclusive MutRef, every state is that of a single thread doing the same operations in the same order (and conversely every history of one thread is a schedule), and no races while handles stay with their threads or if the counter used AcqRel.  The Relaxed ordering in the code allows a data race once a handle is given to another thread: C87_violated, C87_write_violated."
  },
  {
   "property": "C88",
   "status": "partial",
   "theorems": [
    "Nanvm.C88_json_partial",
    "Nanvm.C88_djs_partial",
    "Nanvm.C88_djs_short_partial",
    "Nanvm.C88_drop_partial",
    "Nanvm.C88_text_violated",
    "Nanvm.C88_json_violated",
    "Nanvm.C88_djs_violated",
    "Nanvm.C88_drop_program_violated",
    "Nanvm.C88_drop_violated",
    "Nanvm.Parser.C88_imports_partial",
    "Nanvm.Parser.C88_imports_chain_violated",
    "Nanvm.Parser.C88_imports_violated"
   ],
   "note": "The property is false: the code is recursive (C88_json_violated, C88_djs_violated, C88_drop_violated, C88_text_violated). Proved: to_json needs exactly as many frames as values are nested, to_djs at most two more, dropping at most the longest chain of owned values. Frames are counted per call of the recursive functions; bytes per frame are not modelled."
  },
  {
   "property": "C89",
   "status": "partial",
   "theorems": [
    "Nanvm.C89_tokenizer_partial",
    "Nanvm.C89_debug_partial",
    "Nanvm.C89_literal_partial",
    "Nanvm.C89_literal_confused_violated",
    "Nanvm.C89_literal_value_partial",
    "Nanvm.C89_literal_violated",
    "Nanvm.C89_from_i64",
    "Nanvm.C89_shl",
    "Nanvm.C89_division_partial",
    "Nanvm.C89_from_one_partial",
    "Nanvm.C89_from_range_partial",
    "Nanvm.C89_from_range_violated",
    "Nanvm.C89_size_partial",
    "Nanvm.C89_size_violated",
    "Nanvm.C89_float_partial",
    "Nanvm.C89_tokenizer_float_partial",
    "Nanvm.C89_literal_release_partial",
    "Nanvm.C89_to_f64_partial",
    "Nanvm.C89_to_f64_violated"
   ],
   "note": "Violated for literals with exponents of 2^63 and more, from_range at U+0000, flexible_size when it overflows, to_f64 of numbers of 2^(2^63) and more; proved: same result when the debug build does not overflow (tokenizer with its conversion of numbers included), exact token of every literal in a release build, from_i64 / shl_on_u64 / from_one never wrong, to_f64 right for all smaller numbers."
  },
  {
   "property": "C90",
   "status": "partial",
   "theorems": [
    "Nanvm.C90_parse_partial",
    "Nanvm.C90_run_partial",
    "Nanvm.C90_writes",
    "Nanvm.C90_run_violated"
   ],
   "note": "violated: a literal whose exponent overflows makes the debug build panic, but the release build writes a file with another number (C90_run_violated). Proved: results, files read and files written agree with the debug build unless that panics for overflow because of the text of some file; at most the output is written."
  }
 ]
}