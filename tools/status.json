{
 "C01": [
  "proved",
  "add, sub, negative, not: exact value and canonical result for all canonical operands"
 ],
 "C02": [
  "proved",
  ""
 ],
 "C03": [
  "proved",
  "histories over literals, +, -, *, unary -, ~, << ; equals decides value equality"
 ],
 "C04": [
  "partial",
  "code violates the full property for two negative operands with the same limb count (order reversed); the partial theorem characterises compare on all inputs"
 ],
 "C05": [
  "partial",
  "code violates the full property (remainder of small dividends, remainder sign, multi-limb divisors, non-termination); proved exact for divisors d*2^(64k), d <= 2^63; for every other divisor with |b| <= |a|: no result, or a quotient that is never too small, a remainder below |b|, and the division identity up to a multiple of 2^(64L); the quotient is right exactly if every guessed digit goes well (C05_right_iff_partial)"
 ],
 "C06": [
  "partial",
  "code violates the full property for (-1)^odd (pow) and base 0 (pow_u64); proved for everything else"
 ],
 "C07": [
  "proved",
  ""
 ],
 "C08": [
  "partial",
  "code violates the full property (bits lost between limbs, truncation of negatives); C08_shr_iff_partial says exactly for which numbers and amounts below 2^64 the result is the floor"
 ],
 "C09": [
  "partial",
  "code violates the full property when a negative result has a zero top limb; C09_exact_partial says what the code answers for all operands, C09_iff_partial that it is right exactly when the top limb is kept"
 ],
 "C10": [
  "proved",
  ""
 ],
 "C11": [
  "partial",
  "code violates the full property for multi-limb divisors (non-termination, wrong quotient).  What it does is proved exactly for all operands: C11_exact_partial, C11_right_iff_partial, C11_stuck_iff_partial (long division with guessed digits, Spec/LongDivision.lean); right for divisors d*2^(64k), 0 < d < 2^64; a wrong quotient is too large by at most a factor of 1 + 1/(top limb of the divisor)"
 ],
 "C12": [
  "partial",
  "left shift proved in full; right shift violated by the code, C12_shr_iff_partial says exactly for which numbers and one-limb amounts it is right, C12_shr_amount_partial for which longer amounts"
 ],
 "C13": [
  "proved",
  ""
 ],
 "C14": [
  "proved",
  ""
 ],
 "C15": [
  "partial",
  "code violates order of negatives, remainder sign, multi-limb division; exactly when the quotient is right and when the division never ends is proved (C15_right_iff_partial, as C11)"
 ],
 "C16": [
  "partial",
  "Proved for literals with decimal exponent at least -27 that are not a negative zero. Below that, proved one-sided: a conversion that ends never gives too small a magnitude (C16_never_low_partial), and the nearest double is given whenever the guessed digits of the division by 5^n go well (C16_goes_well_partial). The code violates the claim elsewhere: 1e-55 never terminates, 1e-28 to 1e-50 are never divided rightly (C16_small_violated), -0.0 loses its sign."
 ],
 "C17": [
  "partial",
  "Proved outside the open interval (2^-1075, 2^-1074), where the code answers 0 instead of the smallest subnormal (C17_band_flushed)."
 ],
 "C18": [
  "partial",
  "proved except that -0 loses its sign (witness proved)"
 ],
 "C19": [
  "proved",
  ""
 ],
 "C20": [
  "partial",
  "False as stated for doubles: a negative quiet NaN bit pattern is read back as a boolean, null or pointer (C20_number_violated); C20_nan_never shows these are exactly the doubles that fail, C20_round_trip_partial covers everything else including all 48-bit addresses."
 ],
 "C21": [
  "proved",
  ""
 ],
 "C22": [
  "proved",
  "for managers whose block header counts references (Global, Local); C22_arena describes the arena, whose header has no counter"
 ],
 "C23": [
  "proved",
  "counting headers; for the arena header try_to_mut_ref always fails (C23_arena_never)"
 ],
 "C24": [
  "partial",
  "code violates the no-panic part (dropping the last Any of a bigint is unreachable!()); liveness = reachability, memory safety and termination proved for all histories; the panic condition is proved exactly (C24_panic_iff), so the claim holds except for a bigint whose last path is given up through an Any"
 ],
 "C25": [
  "proved",
  "assumes valid layouts (power-of-two alignment) and a buffer below 2^63"
 ],
 "C26": [
  "proved",
  "assumes the global allocator returns memory that is not in use and that blocks are released with the layout they were requested with"
 ],
 "C27": [
  "proved",
  ""
 ],
 "C28": [
  "proved",
  ""
 ],
 "C29": [
  "proved",
  ""
 ],
 "C30": [
  "proved",
  ""
 ],
 "C31": [
  "partial",
  "False as stated at U+E000 (the predecessor is a surrogate, so the first entry is the range start itself / the single entry covers everything below) and at U+0000 (u32 underflow); the _partial theorems cover every other character and the _violated theorems give the witnesses."
 ],
 "C32": [
  "partial",
  "tables proved; totality proved for literals with decimal exponent between -27 and 2^59, and for smaller exponents if the division by 5^n goes well (C32_goes_well_partial); witnesses for the non-termination on 1e-55 and the overflow panic"
 ],
 "C33": [
  "partial",
  "surrogate-pair escapes are rejected by the code (witness proved); everything else proved, including that no escape is accepted silently with a wrong value"
 ],
 "C34": [
  "proved",
  "all spellings and separators; newlines in a row or at the end have no tokens of their own, so the property excludes them"
 ],
 "C35": [
  "proved",
  "points between two tokens; what happens at the end of the text (newline token becoming visible, 1e) is recorded in two further theorems"
 ],
 "C36": [
  "proved",
  ""
 ],
 "C37": [
  "partial",
  "the code accepts a missing exponent digit before a terminator (witness 1e, proved); everything else of the grammar proved, soundness and completeness"
 ],
 "C38": [
  "proved",
  "Termination and fuel independence; a successful parse has no import cycle; import rings give CircularDependency; importing a module in progress is CircularDependency"
 ],
 "C39": [
  "proved",
  "Reads have no duplicates; cached modules are not read; nothing is read after an error"
 ],
 "C40": [
  "partial",
  "Violated: names are resolved against the directory of the root module (C40_relative_violated). Proved when all files are in one directory"
 ],
 "C41": [
  "partial",
  "Violated when a const stands between an import and a CommonJS construct (C41_violated). Proved: no stretch without const is mixed, and the kind reported is that of what follows the last const"
 ],
 "C42": [
  "proved",
  "Errors are final; after a complete module only line breaks may follow"
 ],
 "C43": [
  "proved",
  "All JSON trees, line breaks anywhere"
 ],
 "C44": [
  "proved",
  "Members of parsed objects"
 ],
 "C45": [
  "proved",
  "Completeness for constants, soundness for all accepted modules, every identifier bound"
 ],
 "C46": [
  "partial",
  "Violated at const a = ; (todo!) and for the parser without files. Proved for all file systems and import graphs: a parse panics exactly if the module is in Spec/Crashes.lean (C46_exact_partial), and which of panic, value, error it ends with (C46_ways_partial)"
 ],
 "C47": [
  "proved",
  "One table of values for all imports, with block numbers"
 ],
 "C48": [
  "proved",
  "For all path strings; split is characterised as well."
 ],
 "C49": [
  "partial",
  "Exactly which paths keep their place is proved (C49_iff_partial, C49_concat_iff_partial): relative ones without a \".\" that a \"..\" undoes. The code drops the leading slash and treats \".\" as a directory name (C49_absolute_violated, C49_dot_violated)."
 ],
 "C50": [
  "partial",
  "Strings without surrogates are read back exactly, of any length; strings with a surrogate are always rejected (C50_surrogates_rejected), so the property does not hold (C50_violated)."
 ],
 "C51": [
  "partial",
  "Values whose strings have no surrogates and whose numbers are finite, not -0 and printed with at most 27 fraction digits, or with more if the division by the power of five goes well (C51_goes_well_partial), are read back, with the members of objects in any order (they are read in ascending order of the keys, of equal keys the last). Refuted for surrogates, -0, infinities and 1e-55, on whose text the parser never ends (C51_small_violated). C51_accepted: given that the numbers are read back, the text is accepted iff no string or key contains half of a surrogate pair."
 ],
 "C52": [
  "proved",
  "For all strings of 16-bit units."
 ],
 "C53": [
  "partial",
  "Proved for all values without bigints; every value with a bigint panics (C53_bigint_panics, C53_violated)."
 ],
 "C54": [
  "proved",
  "For every consistent graph that has a JSON text and for every hash-map order; graphs with a bigint panic (C54_bigint_panics)."
 ],
 "C55": [
  "partial",
  "Values in which no array or object is shared are read back; with a shared one the output is always rejected because of ';' (C55_shared_rejected, C55_violated); with the ';' replaced by line breaks all values are read back (C55_line_breaks_partial). Strings and numbers restricted as in C51. C55_accepted: the output is accepted iff there are no surrogates and no shared array or object."
 ],
 "C56": [
  "partial",
  "What is written and when is proved in full (C56_writes). 'Otherwise reports an error' fails for missing arguments, bigints and 'const a = ;', which panic; C56_panics_partial says exactly when the converter panics, C56_returns_partial gives a sufficient condition for not panicking."
 ],
 "C57": [
  "proved",
  "For all paths."
 ],
 "C58": [
  "proved",
  "also onto the well-formed UTF-16 strings; object keys are ordered by code points (BTreeMap<String>), see C44"
 ],
 "C59": [
  "proved",
  "For all file systems and texts, including imports."
 ],
 "C60": [
  "partial",
  "Proved for values whose strings have no surrogates and whose numbers are read back (as C51); refuted by a file with one string outside the BMP. C60_accepted says exactly when the written file is accepted, in all formats."
 ],
 "C61": [
  "proved",
  "closed acyclic projects whose import paths are given as the loader resolves them (all modules relative to the root, see C40)"
 ],
 "C62": [
  "partial",
  "False for negative quiet NaNs (C62_violated, cause as C20); all other pairs proved; equivalence and hash agreement proved for all words; the comparison the serializer model uses in its hash maps is that of the words (C62_word_partial)."
 ],
 "C63": [
  "partial",
  "The program discards the result of run, so errors give status 0 (C63_status_violated); proved: success gives 0, another status means a panic and unchanged files."
 ],
 "C64": [
  "partial",
  "If the closure panics the old value is destroyed twice (C64_panic_twice, C64_modify_violated); proved if it returns."
 ],
 "C65": [
  "partial",
  "write_compound_const walks into shared blocks again: a graph of n+2 blocks needs 2^n calls in every hash order (C65_exponential, C65_violated). Proved: the search for shared blocks is linear; everything is linear when nothing is shared; in general the count is the search, one call per place, constant and root, and at most one walk over a value as a tree per shared block (C65_upper_partial)."
 ],
 "C66": [
  "proved",
  "Soundness for all texts; completeness for literals and exponents below 2^62 (beyond them the tokenizer may panic with an overflow, see C32)."
 ],
 "C67": [
  "proved",
  "All points within a token at which the text can be cut off."
 ],
 "C68": [
  "partial",
  "Violated at from_u64(0) (not canonical) and from_i64(i64::MIN) (overflow). Values exact otherwise; canonical iff not zero. JS bigints: proved"
 ],
 "C69": [
  "proved",
  ""
 ],
 "C70": [
  "proved",
  "Completeness with numbers below the sizes of C66"
 ],
 "C71": [
  "proved",
  "The last token of a text is never processed (C71_last_token_lost)"
 ],
 "C72": [
  "partial",
  "Blocks made by the parser (C72_blocks) and JSON as a tree (C72_tree) hold in full. The round trip through to_djs is refuted by the ';' as in C55 (C72_violated); with line breaks for the semicolons it is a copy with one-to-one blocks (C72_sharing_partial); C72_same_places says what a copy is in terms of places."
 ],
 "C73": [
  "proved",
  "numbers finite: all NaNs have the same text"
 ],
 "C74": [
  "partial",
  "values whose strings have no surrogates and whose numbers are read back (as C51); no shared arrays or objects if the file between is a module (as C55); violated otherwise: C74_violated. C74_accepted: exactly when the second conversion succeeds; whenever it does, the text is the right one"
 ],
 "C75": [
  "proved",
  ""
 ],
 "C76": [
  "proved",
  "For all histories; creation, reading and storing included"
 ],
 "C77": [
  "proved",
  "Both state machines are modelled separately (they share the functions of AnyState that the Rust code shares)."
 ],
 "C78": [
  "proved",
  "value, error, cache, reads and writes depend only on the files read; runs that panic return no log: for them only the files that can be named matter (C78_named, C78_run_named)"
 ],
 "C79": [
  "partial",
  "Violated: {a:1,b:2} and [require(..)] are rejected. Proved: exactly the language of Spec/Accepts.lean is accepted, for all file systems and import graphs, and the kind is unique."
 ],
 "C80": [
  "partial",
  "Full for all histories without a double in the range of the other values (C20) and, for the absence of panics, without a bigint in an Any (C24); both exceptions are shown by C80_number_violated and C80_bigint_violated."
 ],
 "C81": [
  "partial",
  "Exact conditions are proved; shl_on_u64 and pow_u64 panic for zero (C81_shl_violated, C06_pow_u64_zero_violated), and shr_on_u64 loses bits (C08)."
 ],
 "C82": [
  "proved",
  "for every string, against every ASCII literal without control characters that denotes it"
 ],
 "C83": [
  "partial",
  "code violates the property for large exponents; upper bound linear in the length of the literal and in the exponent, lower bound linear in the exponent; division bounds in C05_divmod_partial and C11_divmod_partial"
 ],
 "C84": [
  "partial",
  "code violates the property for zero dividends (C84_violated); the exact condition for the panic is proved for BigUint and BigInt; JS bigints always refuse zero (C84_js)"
 ],
 "C85": [
  "partial",
  "values are exact for every expression without 0^0, which depends on the form of the zeros (C85_zero_to_zero_violated); the order of two zeros is violated (C85_order_violated), the order is right otherwise up to the reversal of negative BigInts known from C15"
 ],
 "C86": [
  "proved",
  "needs some loadable file (Leaf); C86_without_files shows that the hypothesis is needed"
 ],
 "C87": [
  "partial",
  "Holds for all schedules: no use after free, one deletion, exclusive MutRef, every state is that of a single thread doing the same operations in the same order (and conversely every history of one thread is a schedule), and no races while handles stay with their threads or if the counter used AcqRel.  The Relaxed ordering in the code allows a data race once a handle is given to another thread: C87_violated, C87_write_violated."
 ],
 "C88": [
  "partial",
  "The property is false: the code is recursive (C88_json_violated, C88_djs_violated, C88_drop_violated, C88_text_violated). Proved: to_json needs exactly as many frames as values are nested, to_djs at most two more, dropping at most the longest chain of owned values. Frames are counted per call of the recursive functions; bytes per frame are not modelled."
 ],
 "C89": [
  "partial",
  "Violated for literals with exponents of 2^63 and more, from_range at U+0000, flexible_size when it overflows, to_f64 of numbers of 2^(2^63) and more; proved: same result when the debug build does not overflow (tokenizer with its conversion of numbers included), exact token of every literal in a release build, from_i64 / shl_on_u64 / from_one never wrong, to_f64 right for all smaller numbers."
 ],
 "C90": [
  "partial",
  "violated: a literal whose exponent overflows makes the debug build panic, but the release build writes a file with another number (C90_run_violated). Proved: results, files read and files written agree with the debug build unless that panics for overflow because of the text of some file; at most the output is written."
 ]
}