{"id": "C01", "title": "JS bigint +, -, unary - and ~ are exact", "statement": "For any two bigints a, b built by the public constructors/operators, add(a,b), sub(a,b), negative(a) and not(a) return the bigint whose mathematical value is a+b, a-b, -a and -a-1, and none of them panics.", "quantifier": "all pairs of arbitrary-size bigints of either sign", "why_tests_cant": "carry/borrow chains of any length and every sign/magnitude combination; a table of examples covers finitely many limb patterns", "anchors": ["nanvm-lib/src/js/js_bigint.rs: add, sub, negative, not, add_vec, sub_vec, normalize_vec, cmp_vec"]}
{"id": "C02", "title": "JS bigint multiplication is exact", "statement": "mul(a,b) returns the bigint whose value is the product of the values, for any sizes and signs, without index or arithmetic-overflow panics.", "quantifier": "all pairs of arbitrary-size bigints of either sign", "why_tests_cant": "the column loop and recursive carry propagation must stay in bounds for every length pair and every carry pattern", "anchors": ["nanvm-lib/src/js/js_bigint.rs: mul, mul_vec, add_to_vec"]}
{"id": "C03", "title": "JS bigint results are canonical, so equality is value equality", "statement": "Every bigint returned by from_u64, add, sub, mul, negative, not and shl has no leading zero limb and zero is never negative; consequently equals(a,b) is true exactly when the mathematical values are equal.", "quantifier": "all bigints reachable by any finite sequence of these operations", "why_tests_cant": "canonicity is an invariant of every operation history; equality of un-normalized values fails only on particular carry/cancellation patterns", "anchors": ["nanvm-lib/src/js/js_bigint.rs: new_bigint, from_u64, normalize_vec, equals, is_zero"]}
{"id": "C04", "title": "JS bigint compare is the numeric order", "statement": "a.compare(b) returns Less/Equal/Greater exactly when the value of a is less than/equal to/greater than the value of b.", "quantifier": "all pairs of bigints of either sign", "why_tests_cant": "must hold for every pair; a wrong sign case is invisible unless the specific sign/length combination is sampled", "anchors": ["nanvm-lib/src/js/js_bigint.rs: JsBigint::compare, cmp_vec"]}
{"id": "C05", "title": "JS bigint division returns quotient and remainder and terminates", "statement": "For every b != 0, div_mod(a,b) terminates and returns (q,r) with a = q*b + r, |r| < |b|, q truncated toward zero and r carrying the sign of a (JavaScript semantics).", "quantifier": "all dividends and all non-zero divisors of any size and sign", "why_tests_cant": "quotient-digit estimation errors and non-termination occur only for specific limb relations in multi-limb operands", "anchors": ["nanvm-lib/src/js/js_bigint.rs: div_mod, mul_vec, sub_vec, cmp_vec"]}
{"id": "C06", "title": "JS bigint exponentiation is exact", "statement": "pow(a,e) equals a^e for every bigint a and every non-negative e below 2^64 (0^0 = 1), and the exponentiation by a machine integer, pow_u64, returns a^e without panicking.", "quantifier": "all bases of any sign and size, all exponents 0 <= e < 2^64", "why_tests_cant": "square-and-multiply correctness is an induction over the exponent bits for an unbounded base", "anchors": ["nanvm-lib/src/js/js_bigint.rs: pow, pow_u64"]}
{"id": "C07", "title": "JS bigint left shift multiplies by a power of two", "statement": "For every bigint a and every shift 0 <= n < 2^64, shl(a,n) has value a*2^n.", "quantifier": "all bigints of either sign, all shift amounts that fit in u64", "why_tests_cant": "the in-place high-to-low carry of shifted-out bits must be right for every limb pattern and every shift residue", "anchors": ["nanvm-lib/src/js/js_bigint.rs: shl, shl_on_u64"]}
{"id": "C08", "title": "JS bigint right shift is floor division by a power of two", "statement": "For every bigint a and every shift 0 <= n < 2^64, shr(a,n) has value floor(a / 2^n), as in JavaScript (>> rounds toward minus infinity).", "quantifier": "all bigints of either sign, all shift amounts that fit in u64", "why_tests_cant": "wrong masks only show for particular residues and limb contents; sign rounding only when bits are lost", "anchors": ["nanvm-lib/src/js/js_bigint.rs: shr, shr_on_u64, shr_on_big"]}
{"id": "C09", "title": "JS bigint &, | and ^ act on infinite two's complement", "statement": "For every bit position i, bit i of and/or/xor(a,b) (in infinite two's complement) is the and/or/xor of bit i of a and bit i of b.", "quantifier": "all pairs of bigints of either sign, all bit positions", "why_tests_cant": "the sign-extension and re-normalization steps interact with limb boundaries; finitely many samples cannot cover all widths", "anchors": ["nanvm-lib/src/js/js_bigint.rs: and, or, xor, to_twos_complement, from_twos_complement, twos_complement_zip"]}
{"id": "C10", "title": "BigUint +, -, * and ordering are exact", "statement": "On canonical BigUint values: + and * give the exact sum/product, - gives the difference when non-negative and ZERO otherwise, comparison is the numeric order, and every result is canonical.", "quantifier": "all pairs of canonical arbitrary-size BigUint values", "why_tests_cant": "unbounded sizes, all carry/borrow/cancellation patterns", "anchors": ["nanvm-lib/src/big_numbers/big_uint.rs: Add, Sub, Mul, Ord, normalize, add_to_vec"]}
{"id": "C11", "title": "BigUint division returns quotient and remainder and terminates", "statement": "For every d != 0, div_mod terminates and returns (q,r) with a = q*d + r and r < d.", "quantifier": "all dividends and non-zero divisors of any size", "why_tests_cant": "quotient-digit estimation errors and non-termination need specific multi-limb operands", "anchors": ["nanvm-lib/src/big_numbers/big_uint.rs: BigUint::div_mod, Div"]}
{"id": "C12", "title": "BigUint shifts multiply / floor-divide by powers of two", "statement": "a << n equals a*2^n and a >> n equals floor(a/2^n) for every BigUint a and every BigUint n for which the operation does not report an overflow.", "quantifier": "all values, all shift amounts", "why_tests_cant": "all shift residues and limb patterns", "anchors": ["nanvm-lib/src/big_numbers/big_uint.rs: Shl, Shr"]}
{"id": "C13", "title": "BigUint pow is exact", "statement": "pow_u64(a,e) and pow(a,e) equal a^e for every base a and every exponent below 2^64.", "quantifier": "all bases, all exponents below 2^64", "why_tests_cant": "induction over exponent bits with an unbounded base", "anchors": ["nanvm-lib/src/big_numbers/big_uint.rs: BigUint::pow, BigUint::pow_u64"]}
{"id": "C14", "title": "BigInt +, -, * and negation are exact integer arithmetic", "statement": "On canonical BigInt values, +, -, *, unary - give the exact integer result in canonical form (zero has positive sign).", "quantifier": "all pairs of canonical signed big integers", "why_tests_cant": "every sign/magnitude combination and every size", "anchors": ["nanvm-lib/src/big_numbers/big_int.rs: Add, Sub, Mul, Neg, normalize"]}
{"id": "C15", "title": "BigInt ordering and division follow the integers", "statement": "Comparison is the numeric order on integers, and div_mod(a,d) satisfies a = q*d + r with |r| < |d|, q truncated toward zero.", "quantifier": "all pairs of signed big integers, d != 0", "why_tests_cant": "sign handling errors show only for particular sign combinations and sizes", "anchors": ["nanvm-lib/src/big_numbers/big_int.rs: Ord, div_mod, Div"]}
{"id": "C16", "title": "Decimal literals become the nearest double (ties to even)", "statement": "A decimal literal with digits m and exponent e becomes the IEEE double nearest to m*10^e, ties to even; magnitudes at or above 2^1024-2^970 become infinity; conversion terminates.", "quantifier": "all decimal significands and all exponents", "why_tests_cant": "correct rounding can fail on single inputs out of 2^64 results; halfway, subnormal and overflow boundaries and arbitrary digit counts cannot be enumerated", "anchors": ["nanvm-lib/src/big_numbers/big_float.rs: BigFloat<10>::to_bin, BigFloat<2>::to_f64, get_f64_bits, get_frac_round, increase_significand, decrease_significand", "nanvm-lib/src/tokenizer/mod.rs: bigfloat_to_f64"]}
{"id": "C17", "title": "Binary big floats round to the nearest double", "statement": "For every binary big float value significand*2^exp (with a sticky flag only if at least 54 significand bits are present), to_f64 returns the IEEE double nearest to it, ties to even, including subnormals, underflow and overflow.", "quantifier": "all significands, exponents and sticky flags", "why_tests_cant": "boundary cases at every exponent; rounding errors are measure-zero events", "anchors": ["nanvm-lib/src/big_numbers/big_float.rs: BigFloat<2>::to_f64, get_f64_bits"]}
{"id": "C18", "title": "Integer and bigint literals carry the exact written value", "statement": "Tokenizing a run of decimal digits followed by n yields the bigint with exactly the written value (with sign), and a run of digits without n yields the double nearest to the written integer; no digit string makes the tokenizer panic.", "quantifier": "all digit strings of any length", "why_tests_cant": "digit strings are unbounded", "anchors": ["nanvm-lib/src/tokenizer/mod.rs: create_bigint, IntegerState, ParseIntegerState, digit_to_number, bigfloat_to_f64"]}
{"id": "C19", "title": "Every value word has exactly one JS type", "statement": "For every 64-bit value word, exactly one of the tests is-null, is-boolean, is-number, is-string, is-object, is-array, is-bigint holds, get_type reports that one, and the visitor dispatch takes the same branch.", "quantifier": "all 2^64 value words", "why_tests_cant": "2^64 words", "anchors": ["nanvm-lib/src/js/any.rs: Any::is, get_type", "nanvm-lib/src/js/visitor.rs: to_visitor", "nanvm-lib/src/js/bitset.rs: all constants", "nanvm-lib/src/js/any_cast.rs", "nanvm-lib/src/js/number.rs", "nanvm-lib/src/js/null.rs"]}
{"id": "C20", "title": "Storing a value in Any and taking it back is lossless", "statement": "For every null, boolean, number and heap pointer (48-bit address) v of type T, Any::move_from(v).try_move::<T>() returns exactly v (numbers: same bits), and try_move at any other type is refused.", "quantifier": "all f64 bit patterns, all booleans, all 48-bit addresses, all type pairs", "why_tests_cant": "2^64 float patterns; aliasing affects a thin band of NaN patterns", "anchors": ["nanvm-lib/src/js/any.rs: Any::move_from, Any::try_move", "nanvm-lib/src/js/any_cast.rs", "nanvm-lib/src/js/number.rs", "nanvm-lib/src/js/bitset.rs"]}
{"id": "C21", "title": "Bit-pattern subsets form a consistent set algebra", "statement": "A subset built by from_tag_and_mask contains v exactly when v agrees with the tag on the mask; split yields two disjoint subsets of the original which together cover it when the split mask is a single bit; or contains both operands; and is the intersection; raw values embed and extract losslessly within a subset.", "quantifier": "all subsets (tag, mask) and all 64-bit words", "why_tests_cant": "2^128 subsets times 2^64 words", "anchors": ["nanvm-lib/src/common/bit_subset64.rs: BitSubset64"]}
{"id": "C22", "title": "A block is destroyed exactly once, when its last handle goes away", "statement": "Under any sequence of create, clone, freeze (MutRef to Ref), thaw (Ref to MutRef) and drop on handles, a block's destructor and deallocation happen exactly once, precisely at the drop of the last remaining handle, and no handle ever refers to a destroyed block.", "quantifier": "all finite histories of handle operations on any number of blocks", "why_tests_cant": "the set of histories is infinite; refcount bugs need particular interleavings", "anchors": ["nanvm-lib/src/mem/ref_.rs: Ref, Clone, Drop, try_to_mut_ref", "nanvm-lib/src/mem/mut_ref.rs: MutRef, to_ref, Drop", "nanvm-lib/src/mem/block_header.rs: BlockHeader", "nanvm-lib/src/mem/block.rs: Block::delete"]}
{"id": "C23", "title": "Mutable access is given only to the sole owner", "statement": "try_to_mut_ref succeeds exactly when the given Ref is the only handle to the block; while a MutRef exists no other handle to that block exists.", "quantifier": "all finite histories of handle operations", "why_tests_cant": "aliasing violations depend on history", "anchors": ["nanvm-lib/src/mem/ref_.rs: Ref::try_to_mut_ref", "nanvm-lib/src/mem/mut_ref.rs", "nanvm-lib/src/mem/block_header.rs"]}
{"id": "C24", "title": "Nested values are reclaimed completely", "statement": "For any acyclic graph of arrays, objects, strings and bigints held through Any values, under any history of construction, cloning, child extraction and dropping, a block is live exactly while reachable from some handle; after all handles are dropped no block remains and no operation panics.", "quantifier": "all value graphs and all histories of handle operations", "why_tests_cant": "recursive destruction over arbitrary shared graphs and arbitrary histories", "anchors": ["nanvm-lib/src/js/any_internal.rs: AnyInternal::delete, update, is_ref", "nanvm-lib/src/mem/optional_ref.rs: OptionalRef", "nanvm-lib/src/mem/flexible_array/mod.rs: Drop"]}
{"id": "C25", "title": "Arena allocations are aligned, in bounds and disjoint", "statement": "Every block handed out by an arena lies inside the arena's buffer, satisfies the requested alignment, and overlaps no other block handed out by that arena; when the request does not fit the arena panics and nothing changes.", "quantifier": "all sequences of allocation requests (size, alignment) and all buffer addresses", "why_tests_cant": "all alignment/offset combinations and request sequences", "anchors": ["nanvm-lib/src/mem/arena.rs: Arena::alloc", "nanvm-lib/src/mem/field_layout.rs"]}
{"id": "C26", "title": "Local manager accounting is exact and layouts match at free", "statement": "At all times the counter/size reported by a Local manager equal the number/total size of its live blocks; each deallocation passes the same base address and layout that the allocation used; after all blocks are released both are zero.", "quantifier": "all histories of allocation and deallocation", "why_tests_cant": "unbounded histories", "anchors": ["nanvm-lib/src/mem/local.rs: Local, LocalHeader, alloc, dealloc"]}
{"id": "C27", "title": "Field layout arithmetic places fields correctly", "statement": "align_to(x,a) is the least multiple of a not below x for every power-of-two a; a struct layout places the adjacent field at an aligned offset not overlapping the first field; the total block layout covers both.", "quantifier": "all sizes and all power-of-two alignments (no usize overflow)", "why_tests_cant": "unbounded sizes", "anchors": ["nanvm-lib/src/mem/field_layout.rs: FieldLayout, align_to, layout", "nanvm-lib/src/mem/block.rs: Block::block_layout"]}
{"id": "C28", "title": "Flexible arrays hold exactly the supplied items", "statement": "Constructing a flexible array of declared length n from an iterator writes exactly the first n items in order, panics when the iterator yields fewer, allocates exactly header+padding+n items, and items() afterwards returns those n items; dropping it drops each item exactly once.", "quantifier": "all lengths and item sequences", "why_tests_cant": "unbounded lengths", "anchors": ["nanvm-lib/src/mem/flexible_array/constructor.rs", "nanvm-lib/src/mem/flexible_array/mod.rs", "nanvm-lib/src/mem/flexible_array/header.rs"]}
{"id": "C29", "title": "Range-map lookup returns the segment of the key", "statement": "For every range map with ascending keys and every key k, get(k) returns the value of the first entry whose key is >= k, or the default when there is none, and terminates.", "quantifier": "all sorted range maps of any length and all keys", "why_tests_cant": "binary search correctness over unbounded lists", "anchors": ["nanvm-lib/src/range_map.rs: RangeMap::get"]}
{"id": "C30", "title": "Merging range maps is pointwise union", "statement": "For range maps a, b with strictly ascending keys, merge(a,b) has strictly ascending keys and looking up any key gives the union of the two lookups; merge panics exactly when some key has two different values; merge_list is the union of all.", "quantifier": "all pairs/lists of sorted range maps and all keys", "why_tests_cant": "unbounded lists, all interleavings of keys", "anchors": ["nanvm-lib/src/range_map.rs: merge, merge_iter, merge_list, Union for State"]}
{"id": "C31", "title": "A range maps exactly its characters", "statement": "from_range(a..=b,v) maps c to v exactly when a <= c <= b and from_one(c0,v) maps exactly c0 to v, for every valid character.", "quantifier": "all Unicode scalar values as bounds and keys", "why_tests_cant": "1.1 million characters squared", "anchors": ["nanvm-lib/src/range_map.rs: from_range, from_one"]}
{"id": "C32", "title": "Tokenizer is total and its tables are conflict free", "statement": "Building the tokenizer's transition tables never panics, each table maps every character to the intended class, and tokenizing any text whose exponent digits fit in i64 terminates without panic, consuming every character.", "quantifier": "all character strings; all characters for each of the tables", "why_tests_cant": "infinite input space; a conflict panics at start-up for every input", "anchors": ["nanvm-lib/src/tokenizer/mod.rs: TransitionMaps, create_*_transitions, tokenize, TokenizerState::push"]}
{"id": "C33", "title": "String literals decode as JSON", "statement": "Tokenizing a JSON string literal (any mix of raw characters and the escapes \\\" \\\\ \\/ \\b \\f \\n \\r \\t \\uXXXX, including surrogate pairs) yields exactly one string token with the JSON-decoded content; malformed escapes and unterminated literals yield error tokens, never silent acceptance.", "quantifier": "all string literals of any length", "why_tests_cant": "unbounded strings, all escape combinations", "anchors": ["nanvm-lib/src/tokenizer/mod.rs: ParseStringState, ParseEscapeCharState, ParseUnicodeCharState"]}
{"id": "C34", "title": "Rendering tokens and tokenizing again is the identity", "statement": "For any sequence of punctuation, identifier, string, number, bigint and newline tokens written in any way the grammar allows and separated by blanks, with no two newlines in a row and none at the end, tokenizing the text gives back the same sequence.", "quantifier": "all token sequences of any length, all spellings and all nonempty blank separators", "why_tests_cant": "unbounded sequences and all adjacency combinations", "anchors": ["nanvm-lib/src/tokenizer/mod.rs: tokenize, Initial state, ParseIdState, ParseOperatorState"]}
{"id": "C35", "title": "Whitespace and comments do not change the token stream", "statement": "Inserting spaces/tabs between tokens, or block comments between tokens, leaves the token sequence unchanged; a line comment acts as one newline.", "quantifier": "all texts, all insertion points between tokens, all comment contents", "why_tests_cant": "unbounded inputs and positions", "anchors": ["nanvm-lib/src/tokenizer/mod.rs: ParseNewLineState, ParseSinglelineCommentState, ParseMultilineCommentState"]}
{"id": "C36", "title": "Tokenizing is incremental", "statement": "The tokens emitted for a prefix never change when more text follows: tokenize(a ++ b) starts with the tokens already emitted while reading a; every character adds at most two tokens.", "quantifier": "all pairs of texts", "why_tests_cant": "all split points of all inputs", "anchors": ["nanvm-lib/src/tokenizer/mod.rs: tokenize, TokenizerState::push, end"]}
{"id": "C37", "title": "Malformed numbers are rejected", "statement": "A number literal is accepted only if it matches the JSON/JS number grammar (an exponent marker must be followed by at least one digit, no leading zeros, a digit after the dot).", "quantifier": "all texts starting with a digit or minus", "why_tests_cant": "infinite input space", "anchors": ["nanvm-lib/src/tokenizer/mod.rs: ParseNumberState, ParseExpBegin, ParseExpSign, ParseZero"]}
{"id": "C38", "title": "Module loading terminates and reports import cycles", "statement": "For every finite file system and every root module, parsing terminates; if following imports leads back to a module that is still being parsed the result is the CircularDependency error, never infinite recursion.", "quantifier": "all file systems with finitely many files and arbitrary import graphs", "why_tests_cant": "all import graphs", "anchors": ["nanvm-lib/src/parser/parser.rs: parse, any_state_parse_import_value", "nanvm-lib/src/parser/shared.rs: ModuleCache"]}
{"id": "C39", "title": "Each imported file is read at most once, and none after an error", "statement": "During one top-level parse each resolved path is read from the file system at most once, the cached value is reused for later imports, and after the first error no further file is read.", "quantifier": "all file systems, all import graphs", "why_tests_cant": "all import graphs and error positions", "anchors": ["nanvm-lib/src/parser/parser.rs: any_state_parse_import_value, parse_with_tokens", "nanvm-lib/src/parser/shared.rs: ModuleCache"]}
{"id": "C40", "title": "Imports resolve relative to the importing file", "statement": "The path an import/require names is resolved against the directory of the file that contains it.", "quantifier": "all module trees and import specifiers", "why_tests_cant": "depends on nesting depth and directory structure", "anchors": ["nanvm-lib/src/parser/parser.rs: any_state_parse_import_value, Context", "nanvm-lib/src/parser/path.rs: concat, split"]}
{"id": "C41", "title": "CommonJS and ES module syntax cannot be mixed", "statement": "A source that uses both CommonJS constructs (require, module.exports) and ES module constructs (import, export default) is rejected.", "quantifier": "all token sequences", "why_tests_cant": "arbitrary placement of constructs", "anchors": ["nanvm-lib/src/parser/root_state.rs", "nanvm-lib/src/parser/shared.rs: DataType", "nanvm-lib/src/parser/const_state.rs", "nanvm-lib/src/parser/any_state.rs"]}
{"id": "C42", "title": "An error is final", "statement": "Once the parser has detected an error, no further tokens can turn the outcome into success, and the first error is the one reported.", "quantifier": "all token sequences and error positions", "why_tests_cant": "all suffixes", "anchors": ["nanvm-lib/src/parser/json_state.rs: JsonState::push, end", "nanvm-lib/src/parser/parser.rs: json_state_push, parse_with_tokens"]}
{"id": "C43", "title": "Every JSON value parses to itself", "statement": "For every JSON value (null, booleans, numbers, strings, bigints, arrays, objects nested to any depth), parsing its token sequence succeeds and yields that value, with object keys in sorted order and, for repeated keys, the last value.", "quantifier": "all JSON value trees and their token sequences", "why_tests_cant": "unbounded depth and width", "anchors": ["nanvm-lib/src/parser/any_state.rs", "nanvm-lib/src/parser/parser.rs", "nanvm-lib/src/parser/json_state.rs"]}
{"id": "C44", "title": "Object members are keyed: last duplicate wins, order by key", "statement": "The parsed object contains each written key exactly once, with the value of its last occurrence, ordered by key.", "quantifier": "all member sequences", "why_tests_cant": "all permutations and duplications", "anchors": ["nanvm-lib/src/parser/any_state.rs: parse_object_*, JsonStackObject", "nanvm-lib/src/parser/shared.rs: to_js_string"]}
{"id": "C45", "title": "Constants resolve to their definitions", "statement": "An identifier used as a value denotes the most recent preceding const/import binding of that name (null/true/false excepted); identifiers without a preceding binding are rejected.", "quantifier": "all token sequences with const definitions", "why_tests_cant": "all definition/use orders", "anchors": ["nanvm-lib/src/parser/shared.rs: try_id_to_any", "nanvm-lib/src/parser/const_state.rs", "nanvm-lib/src/parser/root_state.rs", "nanvm-lib/src/parser/any_state.rs"]}
{"id": "C46", "title": "The parser never panics", "statement": "For every token sequence and file system the parser returns a value or a ParseError; it never aborts.", "quantifier": "all token sequences, all file systems", "why_tests_cant": "infinite input space; panics hide in rarely combined states", "anchors": ["nanvm-lib/src/parser/parser.rs", "nanvm-lib/src/parser/any_state.rs: end_import", "nanvm-lib/src/parser/const_state.rs: todo"]}
{"id": "C47", "title": "Importing one module twice yields the same object", "statement": "Two imports of the same resolved path in one parse denote the identical value (same heap identity), not copies.", "quantifier": "all module graphs", "why_tests_cant": "all import graphs", "anchors": ["nanvm-lib/src/parser/parser.rs: any_state_parse_import_value", "nanvm-lib/src/parser/shared.rs: ModuleCache"]}
{"id": "C48", "title": "Path normalization is idempotent and canonical", "statement": "normalize(p) has no empty segments, contains '..' only as leading segments, is unchanged by a second normalization, and concat(a,b) is normalized.", "quantifier": "all path strings", "why_tests_cant": "unbounded paths", "anchors": ["nanvm-lib/src/parser/path.rs: normalize, concat, split"]}
{"id": "C49", "title": "Path normalization preserves the location", "statement": "normalize(p) names the same place as p (lexically, from any current directory), for relative and for absolute paths.", "quantifier": "all path strings, all current directories", "why_tests_cant": "all segment combinations", "anchors": ["nanvm-lib/src/parser/path.rs: normalize, concat, split_path"]}
{"id": "C50", "title": "Serialized strings read back as the same string", "statement": "For every JS string (any UTF-16 content), the text written for it, when tokenized, is a single string token whose UTF-16 encoding is the original.", "quantifier": "all UTF-16 strings", "why_tests_cant": "unbounded strings; all code units", "anchors": ["nanvm-lib/src/serializer/to_json.rs: write_js_string", "nanvm-lib/src/tokenizer/mod.rs: ParseStringState, ParseUnicodeCharState", "nanvm-lib/src/parser/shared.rs: to_js_string"]}
{"id": "C51", "title": "JSON output parses back to the same value", "statement": "For every value made of null, booleans, numbers, strings, arrays and objects, tokenizing and parsing the output of the JSON serializer yields the same value.", "quantifier": "all value trees", "why_tests_cant": "unbounded trees", "anchors": ["nanvm-lib/src/serializer/to_json.rs: write_json", "nanvm-lib/src/tokenizer/mod.rs", "nanvm-lib/src/parser/parser.rs"]}
{"id": "C52", "title": "Serializer string output is plain ASCII without control characters", "statement": "The text written for a string contains only characters 0x20..0x7F, starts and ends with a quote, and contains no unescaped quote or backslash inside.", "quantifier": "all UTF-16 strings", "why_tests_cant": "all code units and lengths", "anchors": ["nanvm-lib/src/serializer/to_json.rs: write_js_string"]}
{"id": "C53", "title": "JSON serialization is total", "statement": "Serializing any value to JSON succeeds (no panic), and finite numbers are printed as JSON numbers.", "quantifier": "all values of every JS type", "why_tests_cant": "value space is infinite; the failing type must be sampled", "anchors": ["nanvm-lib/src/serializer/to_json.rs: write_json"]}
{"id": "C54", "title": "DJS output defines each shared compound once, before use, and denotes the same value", "statement": "For every value graph and every hash-map iteration order, the DJS output contains one const per array/object that occurs more than once, each const is defined before any reference to it, names are distinct and consecutive from _0, and replacing references by definitions gives exactly the JSON text of the original value.", "quantifier": "all acyclic value graphs, all hash-map orders", "why_tests_cant": "iteration order is nondeterministic; all sharing patterns", "anchors": ["nanvm-lib/src/serializer/to_djs.rs: track_consts, write_consts_and_any, write_compound_const, write_with_const_refs"]}
{"id": "C55", "title": "DJS output parses back to the same value", "statement": "Tokenizing and parsing the DJS output of any value yields the same value.", "quantifier": "all value graphs, all hash-map orders", "why_tests_cant": "all sharing patterns", "anchors": ["nanvm-lib/src/serializer/to_djs.rs: write_djs", "nanvm-lib/src/tokenizer/mod.rs", "nanvm-lib/src/parser/parser.rs"]}
{"id": "C56", "title": "The converter writes the output only on success", "statement": "run(io) writes exactly the output path, exactly once, and only if the input was read, parsed successfully and the output extension is recognised; otherwise it writes nothing and reports an error.", "quantifier": "all file systems, all argument lists", "why_tests_cant": "all failure points", "anchors": ["nanvm-lib/src/app/mod.rs: run, parse_with_tokens, file_to_data_type"]}
{"id": "C57", "title": "Output format is chosen by the output file's suffix", "statement": "A path ending in .json selects JSON, .d.cjs CommonJS, .d.mjs ES module output; every other path is rejected.", "quantifier": "all path strings", "why_tests_cant": "all strings", "anchors": ["nanvm-lib/src/app/mod.rs: file_to_data_type"]}
{"id": "C58", "title": "Text to UTF-16 conversion is lossless", "statement": "Converting a Unicode text to a JS string and decoding the UTF-16 gives back the text; distinct texts give distinct JS strings and key order/equality in objects follows.", "quantifier": "all Unicode texts", "why_tests_cant": "unbounded texts over 1.1M characters", "anchors": ["nanvm-lib/src/parser/shared.rs: to_js_string", "nanvm-lib/src/js/js_string.rs"]}
{"id": "C59", "title": "Parsed values are well-formed graphs", "statement": "Every value returned by the parser, through any number of imported modules, is a graph in which each array and object block has exactly one content, the keys of every object are in order and each occurs once, every string and key is the encoding of a Unicode text, and every number and bigint in it occurs as a literal in one of the files.", "quantifier": "all file systems, all texts, all import structures", "why_tests_cant": "unbounded inputs and sharing patterns", "anchors": ["nanvm-lib/src/parser/parser.rs", "nanvm-lib/src/parser/shared.rs", "nanvm-lib/src/app/mod.rs: parse_with_tokens"]}
{"id": "C60", "title": "Converting to JSON keeps the value", "statement": "After run(io) has converted a file to a .json file, parsing the output file gives the same value as parsing the input file.", "quantifier": "all file systems, all inputs including imports", "why_tests_cant": "composition of tokenizer, parser, module loading and serializer over unbounded inputs", "anchors": ["nanvm-lib/src/app/mod.rs: run", "nanvm-lib/src/serializer/to_json.rs", "nanvm-lib/src/parser/parser.rs"]}
{"id": "C61", "title": "A project of modules loads to the value it denotes", "statement": "Parsing the root module of a finite, acyclic project, all of whose modules are well-formed (const, import and require lines followed by one final expression) and all of whose imports exist, succeeds, and the resulting value is the one the project denotes, each imported name standing for the value of the imported module; that value is unique up to the identity of blocks.", "quantifier": "all file systems, all import graphs without cycles, all spellings of the modules", "why_tests_cant": "unbounded import graphs, module counts and texts", "anchors": ["nanvm-lib/src/parser/parser.rs: parse_with_tokens", "nanvm-lib/src/parser/module.rs", "nanvm-lib/src/parser/path.rs"]}
{"id": "C62", "title": "Equality and hashing of Any", "statement": "Two Any values are equal exactly if they hold the same typed value (the same double bit for bit, the same boolean, the same block of the same type); equality is an equivalence and equal values have equal hashes, as HashMap requires.", "quantifier": "all pairs of typed values, all 64-bit words", "why_tests_cant": "2^128 pairs of words", "anchors": ["nanvm-lib/src/mem/optional_ref.rs: PartialEq, Hash", "nanvm-lib/src/js/any_internal.rs: PartialEq, Hash"]}
{"id": "C63", "title": "The exit status tells whether the conversion succeeded", "statement": "The nanvm program exits with status 0 exactly if the output file was written, and with another status otherwise; with another status than 0 no file has changed.", "quantifier": "all argument lists, all file systems", "why_tests_cant": "unbounded inputs", "anchors": ["nanvm/src/main.rs: main", "nanvm-lib/src/app/mod.rs: run"]}
{"id": "C64", "title": "modify destroys every value exactly once", "statement": "x.modify(f) replaces the value of x by the result of f; counting the drop of x at the end of its scope, the old value, the new value and all values created by f are destroyed exactly once, whether f returns or panics.", "quantifier": "all closures that obey ownership", "why_tests_cant": "all behaviours of a closure including panics; a double drop is undefined behaviour and may stay unnoticed", "anchors": ["nanvm-lib/src/common/ref_mut.rs: modify"]}
{"id": "C65", "title": "Writing a graph takes linear work", "statement": "The number of recursive calls made by to_djs is at most proportional to the number of blocks and references of the graph, however much is shared, for every iteration order of the hash maps.", "quantifier": "all graphs, all hash orders", "why_tests_cant": "asymptotic statement over all graphs", "anchors": ["nanvm-lib/src/serializer/to_djs.rs: track_consts_for_any, write_consts, write_compound_const, write_with_const_refs"]}
{"id": "C66", "title": "The tokenizer implements a lexical grammar", "statement": "A text is tokenized without an error token if and only if it is a sequence of tokens, white space and comments of the lexical grammar (identifiers as long as possible, strings of valid pieces without surrogate escapes, numbers followed by the end, white space, punctuation, a quote or a comment, line breaks with all following white space as one token except at the end), and the tokens are exactly the ones of the grammar, which are unique. Number literals may lack the digits of the exponent as described by C37; for the 'if' part literals and exponents are below 2^62.", "quantifier": "all texts", "why_tests_cant": "every text of every length, both directions", "anchors": ["nanvm-lib/src/tokenizer/mod.rs: TokenizerState::push, TokenizerState::end, tokenize"]}
{"id": "C67", "title": "A text that is cut off is reported", "statement": "If a text of the lexical grammar is cut off within a block comment, a string literal (also within an escape), after a single slash, a minus, the decimal point or the exponent marker of a number, its tokens are the tokens before that point and one error token, which is CommentClosingExpected, MissingQuotes, UnexpectedCharacter or InvalidNumber respectively.", "quantifier": "all texts of the grammar and all points within tokens", "why_tests_cant": "all prefixes of all texts", "anchors": ["nanvm-lib/src/tokenizer/mod.rs: TokenizerState::end"]}
{"id": "C68", "title": "Machine integers are converted exactly", "statement": "BigUint::from_u64, BigInt::from_u64, BigInt::from_i64 and the from_u64 of JS bigints give, for every argument, the canonical form of the number, without a panic.", "quantifier": "all u64 and i64 values", "why_tests_cant": "boundary values 0 and i64::MIN are the ones tests leave out", "anchors": ["nanvm-lib/src/big_numbers/big_uint.rs: from_u64", "nanvm-lib/src/big_numbers/big_int.rs: from_u64, from_i64", "nanvm-lib/src/js/js_bigint.rs: from_u64"]}
{"id": "C69", "title": "for_each visits the children once and in order", "statement": "Any::for_each calls the closure once for each member of an object (with its name) or item of an array (with its index as a double), in order, nothing for other types; it stops at the first error and returns it. The traversals of to_djs are such calls.", "quantifier": "all values with at most 2^53 items, all closures with any state and any errors", "why_tests_cant": "all closures, including failing ones at every position", "anchors": ["nanvm-lib/src/js/any.rs: for_each", "nanvm-lib/src/serializer/to_djs.rs: track_consts_for_any, write_compound_const"]}
{"id": "C70", "title": "Texts mean what the grammars say", "statement": "If parse succeeds, the text of the root file and the texts of all modules it names are sequences of the lexical grammar whose tokens are modules of the module grammar, and the result is the value the grammars give (names resolved against the root); every file that was read is free of lexical errors. Conversely a finite acyclic project of texts of the grammars is loaded.", "quantifier": "all file systems, all texts", "why_tests_cant": "characters to value, through all layers, both directions", "anchors": ["nanvm-lib/src/parser/parser.rs: parse", "nanvm-lib/src/tokenizer/mod.rs: tokenize"]}
{"id": "C71", "title": "The analyzer counts its diagnostics", "statement": "push_mut of the analyzer fails only where the tokenizer does and returns the number of diagnostics added by this character, for every way of processing tokens that only adds diagnostics; the results add up to the number of diagnostics returned by end. The analyzer of the code, which processes no token, reports nothing.", "quantifier": "all texts, all token processors that append", "why_tests_cant": "the token processor is not written yet", "anchors": ["nanvm-lib/src/parser/analyzer.rs: push_mut, end"]}
{"id": "C72", "title": "Identity of arrays and objects", "statement": "Every string, bigint, array and object literal of a module is a new block, and the name of a constant stands for the block of its definition, so that two places hold the same block exactly if they name the same literal; JSON is parsed as a tree. Writing a graph with to_djs and parsing the output gives a copy of the graph: the arrays and objects correspond one to one, whatever the order of the hash map.", "quantifier": "all modules of constants and a value, all graphs of values, all orders of the hash map, both output forms", "why_tests_cant": "sharing patterns are unbounded, and equality of values does not show lost sharing", "anchors": ["nanvm-lib/src/parser/any_state.rs: push_value, end_array, end_object", "nanvm-lib/src/serializer/to_djs.rs: write_djs"]}
{"id": "C73", "title": "Equal values and only equal values have the same JSON text", "statement": "to_json of two values gives the same text if they have the same contents, whatever arrays and objects are shared. Values with different contents have different texts, and no text of a value is the beginning of another one up to the next delimiter, so texts can be compared, hashed or concatenated instead of the values.", "quantifier": "all values with finite numbers, all strings of 16-bit units, all ways of printing doubles that round back", "why_tests_cant": "pairs of values; collisions of unbounded nesting", "anchors": ["nanvm-lib/src/serializer/to_json.rs: to_json, write_js_string, write_list"]}
{"id": "C74", "title": "Conversion through another file gives the same JSON", "statement": "Converting a file to a .json, .d.cjs or .d.mjs file and that file to .json writes the text that converting the first file to .json writes; converting a written .json file again changes nothing.", "quantifier": "all file systems, all inputs whose strings and numbers are read back, all three formats", "why_tests_cant": "relates two and three runs of the converter over all inputs", "anchors": ["nanvm-lib/src/app/mod.rs: run", "nanvm-lib/src/serializer/to_json.rs: to_json", "nanvm-lib/src/serializer/to_djs.rs: to_djs"]}
{"id": "C75", "title": "A value does not change while it is shared", "statement": "As long as a program holds an Any or a Ref of a block, the types and items read from this block along every path are the same before and after any operations. The items of a block change only by a store through a MutRef, and then this MutRef is the only handle of the block and no value contains it.", "quantifier": "all histories of operations on values, all paths into nested values", "why_tests_cant": "aliasing over all interleavings of clones, casts, mutable access and nesting", "anchors": ["nanvm-lib/src/mem/ref_.rs: try_to_mut_ref", "nanvm-lib/src/mem/mut_ref.rs: to_ref, deref_mut", "nanvm-lib/src/mem/flexible_array/mod.rs: items_mut", "nanvm-lib/src/mem/optional_ref.rs: clone, drop"]}
{"id": "C76", "title": "Blocks hold what their type says", "statement": "After any history, arrays hold only values, objects hold properties (a reference to a string and a value each), strings and bigints own nothing, and every reference refers to an existing block of its own type. A block can be made exactly from what its type allows and has these items. Through every handle each item can be read. A store is possible exactly if the block stays well-typed; it replaces the one item and uses up the handle of the stored value.", "quantifier": "all histories of operations on values, all handles and indices", "why_tests_cant": "arbitrary interleavings of creation, casts, reads, stores and drops of nested values", "anchors": ["nanvm-lib/src/js/js_array.rs: JsArray", "nanvm-lib/src/js/js_object.rs: JsObject, Property", "nanvm-lib/src/js/any_cast.rs: try_move, try_ref", "nanvm-lib/src/mem/flexible_array/mod.rs: items, items_mut"]}
{"id": "C77", "title": "The parser without files agrees with the parser with files", "statement": "For every sequence of tokens without `import` and `require`, feeding the tokens to JsonState::push and then calling end gives the same value, error or panic, with the same allocations, as parse_with_tokens, whatever files exist; no file is read. JsonState::push reports an import exactly at the string of an import statement, with its name and module, and then expects a new line.", "quantifier": "all token sequences without import and require, all contexts and file systems; all states and tokens for the reported imports", "why_tests_cant": "two implementations of the same state machine compared on all token sequences", "anchors": ["nanvm-lib/src/parser/json_state.rs: push, end", "nanvm-lib/src/parser/const_state.rs: parse", "nanvm-lib/src/parser/root_state.rs: parse", "nanvm-lib/src/parser/any_state.rs: parse, parse_for_module", "nanvm-lib/src/parser/parser.rs: parse_with_tokens, json_state_push"]}
{"id": "C78", "title": "Only the files that are read matter", "statement": "Loading a module depends on the file system only through the files it reads: if the contents of every file that is read (or its absence) are the same in a second file system, loading there gives the same value or error, the same cache and the same reads. A conversion then has the same result and writes the same text to the same place. Also for runs that panic, files outside any set that contains the root and every file named by a string in it do not matter.", "quantifier": "for all pairs of file systems, input paths, contexts and texts, imports of any depth included", "why_tests_cant": "A test runs against one file system; that no unread file can ever influence the result is a statement about pairs of runs over all file systems.", "anchors": ["nanvm-lib/src/parser/parser.rs: parse, parse_with_tokens", "nanvm-lib/src/parser/parser.rs: any_state_parse_import_value", "nanvm-lib/src/parser/parser.rs: root_state_parse, json_state_push", "nanvm-lib/src/app/mod.rs: run"]}
{"id": "C79", "title": "The parser accepts exactly the modules of the language", "statement": "A parse succeeds exactly if the text of the root module and of every module it names, directly or through others, is a module of the language and no module needs itself. The kind of a module (JSON, DJS, CommonJS, ES) is determined by its text.", "quantifier": "all file systems, root paths and texts, imports of any depth", "why_tests_cant": "Both directions range over all token sequences and all import graphs; a test can only try some texts.", "anchors": ["nanvm-lib/src/parser/parser.rs: parse, parse_with_tokens", "nanvm-lib/src/parser/any_state.rs: parse_value, parse_array_begin, parse_array_comma, parse_object_begin, parse_object_comma", "nanvm-lib/src/parser/root_state.rs: parse", "nanvm-lib/src/parser/const_state.rs: parse"]}
{"id": "C80", "title": "Values in reference-counted memory behave like plain values", "statement": "A program makes strings, bigints, arrays and objects with a manager, and clones, shares, converts, reads, changes and drops them. After every history each handle, read by following its word, the counters' blocks, the length in the header and the items, is the value it would be if values were plain trees without memory, counters or sharing. No operation reads or writes memory that is not allocated or not aligned, gives memory back twice or with another layout. A program without handles has given back all memory. The addresses the allocator answers, the reuse of memory and its initial contents cannot be observed.", "quantifier": "for all histories of operations of any length, all sequences of answers an allocator may give, all initial contents of memory, values of any size and nesting", "why_tests_cant": "Use after free and aliasing appear only for particular interleavings of sharing, dropping and reuse of addresses; a test fixes one history and one allocator, and a wrong read often returns the old bytes.", "anchors": ["nanvm-lib/src/mem/manager.rs: Manager::new", "nanvm-lib/src/mem/block.rs: Block::delete, Block::object, Block::block_layout", "nanvm-lib/src/mem/optional_ref.rs: clone, drop", "nanvm-lib/src/mem/optional_block.rs: ref_counter_update, delete", "nanvm-lib/src/mem/ref_.rs, mut_ref.rs: try_to_mut_ref, to_ref, drop", "nanvm-lib/src/mem/flexible_array/mod.rs, constructor.rs, header.rs", "nanvm-lib/src/js/any.rs: try_move, try_ref, to_visitor", "nanvm-lib/src/js/any_internal.rs: delete", "nanvm-lib/src/js/js_string.rs, js_array.rs, js_object.rs, js_bigint.rs: new_*"]}
{"id": "C81", "title": "JS bigint operations with a machine word are exact for every bigint", "statement": "For every bigint a and every u64 n: shl_on_u64(a,n) is a*2^n, shr_on_u64(a,n) is floor(a/2^n), pow_u64(a,n) is a^n, and get_last_bit(a) is the parity of a. None of them panics.", "quantifier": "for all bigints, including zero and negative ones, and all 64-bit amounts", "why_tests_cant": "The space of values and amounts is unbounded, and the repository's tests reach these functions only through shl, shr and pow, which never pass zero.", "anchors": ["nanvm-lib/src/js/js_bigint.rs: shl_on_u64, shr_on_u64, pow_u64, get_last_bit"]}
{"id": "C82", "title": "Strings are written as short as ASCII allows", "statement": "The text written for a string is a shortest literal: no JSON string literal that consists of ASCII characters other than control characters and denotes the same string is shorter. In particular nothing is escaped without need, and the short escapes are used where they exist.", "quantifier": "for all strings of any length and all literals that denote them", "why_tests_cant": "A test compares the output for chosen strings; a needless escape still reads back as the same string, so round-trip tests do not notice it.", "anchors": ["nanvm-lib/src/serializer/to_json.rs: write_js_string, write_js_escape"]}
{"id": "C83", "title": "The work of reading a number is bounded by the length of its text", "statement": "Every loop of the conversion of a number literal to a double, the division by a power of ten included, runs at most a fixed number of times (say 1000) for each character of the literal. Division of a big integer by a divisor of one limb runs at most twice for each limb of the dividend.", "quantifier": "for all valid number literals and all dividends", "why_tests_cant": "The number of iterations grows with the value of the exponent; a test with a small exponent returns at once, and the huge ones that matter do not return in the time of a test.", "anchors": ["nanvm-lib/src/big_numbers/big_float.rs: increase_significand_to, decrease_significand, to_bin, get_f64_bits", "nanvm-lib/src/js/js_bigint.rs: div_mod", "nanvm-lib/src/big_numbers/big_uint.rs: div_mod", "nanvm-lib/src/tokenizer/mod.rs: bigfloat_to_f64"]}
{"id": "C84", "title": "Division by zero is always refused", "statement": "BigUint::div_mod and /, BigInt::div_mod and /, and the div_mod of JS bigints panic whenever the divisor is zero, however that zero was made.", "quantifier": "for all dividends and all zero divisors that conversions and arithmetic can make", "why_tests_cant": "a test tries one zero; zero has several forms (ZERO, from_u64(0), sums of them), and each meets different dividends", "anchors": ["nanvm-lib/src/big_numbers/big_uint.rs: div_mod, Div, from_u64, is_zero", "nanvm-lib/src/big_numbers/big_int.rs: div_mod, Div", "nanvm-lib/src/js/js_bigint.rs: div_mod, is_zero"]}
{"id": "C85", "title": "Histories of BigUint and BigInt arithmetic are exact", "statement": "Every expression of machine integers, ZERO, +, -, *, <<, pow, unary minus and abs over BigUint and BigInt succeeds and has the mathematical value (BigUint subtraction stops at zero, 0^0 is 1), and comparing two results gives the order of their values.", "quantifier": "for all expressions of any depth over all u64 and i64 literals other than i64::MIN, with shift amounts and exponents below 2^64", "why_tests_cant": "zero is represented in several ways (an empty vector, one zero limb, either sign) and each representation can reach every operation through some history", "anchors": ["nanvm-lib/src/big_numbers/big_uint.rs: Add, Sub, Mul, Shl, pow, Ord, from_u64", "nanvm-lib/src/big_numbers/big_int.rs: Add, Sub, Mul, Neg, abs, Ord, from_u64, from_i64"]}
{"id": "C86", "title": "The parser has no dead ends", "statement": "If some file that is a complete module on its own can be named, then tokens that the parser has not rejected can always be continued to a module it accepts; tokens it has rejected (an error other than UnexpectedEnd, or a panic) are rejected in the same way whatever follows; UnexpectedEnd is reported only if the main module, or a file that was read, is the beginning of an acceptable module, and every beginning of an accepted module is either accepted or reported as UnexpectedEnd.", "quantifier": "for all file systems, paths, token sequences and continuations", "why_tests_cant": "there are infinitely many partial modules, and each needs a continuation found through every open array, object, require and import; tests only try finished or hand-broken modules", "anchors": ["nanvm-lib/src/parser/parser.rs: parse_with_tokens, json_state_push", "nanvm-lib/src/parser/json_state.rs: end", "nanvm-lib/src/parser/any_state.rs", "nanvm-lib/src/parser/root_state.rs"]}
{"id": "C87", "title": "Handles are safe under every schedule of threads", "statement": "With the atomic counter, and any number of threads that create blocks, clone, drop, freeze and thaw handles, read and write objects, and give handles to each other: no deleted block is accessed, every block is deleted exactly once, when its last handle is gone, a mutable handle is the only handle of its block, and no two accesses to the same memory race (in the sense of the C++/Rust memory model).", "quantifier": "for all numbers of threads and all interleavings of their actions", "why_tests_cant": "there are infinitely many interleavings, and a race that needs a weaker ordering than the hardware provides never shows up in a test", "anchors": ["nanvm-lib/src/mem/block_header.rs: <AtomicIsize as BlockHeader>::ref_counter_update", "nanvm-lib/src/mem/optional_ref.rs: clone, drop", "nanvm-lib/src/mem/ref_.rs: try_to_mut_ref", "nanvm-lib/src/mem/mut_ref.rs: to_ref, drop", "nanvm-lib/src/mem/block.rs: delete"]}
{"id": "C88", "title": "The use of the native stack does not grow with the input", "statement": "Writing a value with to_json or to_djs, dropping a handle of a value, and parsing a module with all the modules it imports need a number of stack frames that is bounded by a constant, however deeply values are nested in each other and however long the chains of imports are; so a text that the parser accepts can be written again and its value can be dropped without exhausting the stack.", "quantifier": "for all values, all handles in all states reachable by operations on values, and all finite sets of files", "why_tests_cant": "the depth at which the stack overflows depends on the build and on the platform, and any test has a fixed depth", "anchors": ["nanvm-lib/src/serializer/to_json.rs: write_json", "nanvm-lib/src/serializer/to_djs.rs: track_consts_for_any, write_consts_and_any, write_with_const_refs", "nanvm-lib/src/mem/optional_ref.rs: drop", "nanvm-lib/src/mem/block.rs: delete", "nanvm-lib/src/mem/flexible_array/mod.rs: object_drop", "nanvm-lib/src/parser/parser.rs: parse_with_tokens, root_state_parse, any_state_parse_import_value"]}
{"id": "C89", "title": "A release build gives no wrong value where a debug build panics", "statement": "In a release build, where integer arithmetic wraps, tokenizing a text, BigInt::from_i64, js_bigint::shl_on_u64, range_map::from_one and from_range, the size of a flexible array and the conversion of big floats to doubles give the result of the debug build whenever that does not panic for overflow; and where it does, they panic too or give the right result, never a wrong one.", "quantifier": "for all texts (literals with exponents of any length included), all i64, all bigints and shifts, all characters and ranges, all headers, items and lengths", "why_tests_cant": "tests run in a debug build, and the inputs that overflow (an exponent of 2^64, i64::MIN, U+0000, 2^60 items) are not among the samples", "anchors": ["nanvm-lib/src/tokenizer/mod.rs: FloatState::add_digit, ExpState::add_digit, exp_state_into_token", "nanvm-lib/src/big_numbers/big_int.rs: from_i64", "nanvm-lib/src/big_numbers/js_bigint.rs: shl_on_u64", "nanvm-lib/src/range_map.rs: from_range, from_one", "nanvm-lib/src/mem/flexible_array/mod.rs: flexible_size", "nanvm-lib/src/big_numbers/big_float.rs: to_bin, to_f64"]}
{"id": "C90", "title": "A release build converts files as a debug build does", "statement": "In a release build the converter ends with the same result, reads the same files and writes the same file as in a debug build whenever that does not panic for overflow, and that happens only for the text of some file; it writes at most the output file; and where the debug build panics for overflow it writes no wrong file.", "quantifier": "for all files, arguments, module graphs, printers of numbers and failures of writes", "why_tests_cant": "tests run in a debug build; the release build is only what users run, on files of any content", "anchors": ["nanvm-lib/src/app/mod.rs: run", "nanvm-lib/src/parser/parser.rs: parse, parse_with_tokens, json_state_push, root_state_parse, any_state_parse", "nanvm-lib/src/tokenizer/mod.rs: tokenize, bigfloat_to_f64"]}
