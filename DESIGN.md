# Formal model of nanvm-lib: design

Subject: `functionalscript/nanvm`, sources under `/repo/nanvm-lib/src` (all file
paths below are relative to that directory).  The model is Lean 4 (`/verif/lean`).

## 1. Conventions

* **Panics are values.**  Every model function that can panic returns
  `Except Err α`, where `Err` names the panic (index out of range, arithmetic
  overflow, `panic!`, `unreachable!`, `todo!`).
* **Loops** are structural recursion or take a fuel argument.  For fuelled loops
  we prove a bound after which the result no longer depends on fuel; divergence
  is stated as "out of fuel for every fuel".
* **Machine integers.**  Limbs (`u64`) are `Nat` with explicit `% 2^64`, `/ 2^64`;
  the predicate `Limbs` (all `< 2^64`) is proved preserved by every operation.
  `u128`/`i128` intermediates are `Nat`/`Int` (they cannot overflow; where it is
  not obvious the model checks and the proof shows it).  Value words are `BitVec 64`.
* **f64** is its bit pattern.  No floating-point arithmetic occurs in the code
  except through bits, `to_string` (a parameter of the model) and default `0.0`.
* **External behaviour as parameters**: `f64::to_string`, hash-map iteration order,
  the file system (`Io::read`), base addresses of buffers.
* Layout: `Verif/Model/*` (definitions that model the code, each citing lines),
  `Verif/Spec/*` (independent specifications), `Verif/Lemmas/*` (helper lemmas),
  `Verif/Props/*` (the property theorems and the non-vacuity examples).

## 2. Trusted base

* The Lean 4.33.0 kernel.  Every property theorem depends on at most the axioms `propext`,
  `Classical.choice` and `Quot.sound`; `AXIOMS.md` lists them theorem by theorem (generated by
  `tools/axioms.py`).  There are no own axioms, no `sorry`, no `native_decide` and no `bv_decide`.
* That the definitions in `Verif/Model` were read off the Rust sources correctly.  Every definition cites
  the lines it models.  `seeded/LOG.jsonl` records what happened when the definitions were changed
  as a realistic bug would change them (section 6 says how to read it).  As a further check of the
  reading, the unit tests of the repository are stated about the model (`Verif/Tests`): 104 tests with
  626 assertions of `js_bigint.rs`, `big_numbers/*.rs`, `tokenizer/mod.rs`, `path.rs`, `range_map.rs` and
  `parser.rs` are translated by `tools/repotests.py`, some 50 more of `bit_subset64.rs`, `any.rs`,
  `ref_mut.rs`, `mem/*.rs`, `serializer/*.rs` and `app/mod.rs` by hand.  All of them hold.  These are tests,
  not proofs, and nothing rests on them.  Left out are tests of Rust itself (`js/number.rs`,
  `any_cast.rs`, `test_unsized`, `test_eq`) and of values that are destroyed in place (`fixed.rs`,
  `object.rs`).
* The specifications: the files of `Verif/Spec` and the definitions in the sections headed
  "Specification" of `Verif/Props`.
* The parts of the Rust standard library that are modelled by their documentation: `Vec`, `BTreeMap`,
  `BTreeSet`, `HashMap` (with an arbitrary iteration order), `str::encode_utf16`, `char::from_u32`,
  `str::split`, `usize::to_string`, the layout rules of `Layout`.

What each part of the model leaves out:

| model | code | simplifications |
|-------|------|-----------------|
| `Limbs`, `JsBigint` | `js/js_bigint.rs` | the manager argument is dropped; `u128` intermediates are `Nat` (overflow checked where it could occur) |
| `BigUint`, `BigInt`, `BigFloat` | `big_numbers/*.rs` | the two bases of `BigFloat` share one structure; loops of `to_f64` and of the divisions have fuel |
| `BitSubset`, `AnyWord` | `common/bit_subset64.rs`, `js/bitset.rs`, `any*.rs`, `number.rs`, `null.rs`, `bool.rs`, `visitor.rs` | phantom types dropped; heap pointers are 64-bit words |
| `Handles` | `mem/ref_.rs`, `optional_ref.rs`, `mut_ref.rs`, `block_header.rs`, `manager.rs` | blocks are opaque; single thread; counters are `Int` (no overflow of `isize`) |
| `Threads` | the same files, with the counter `AtomicIsize`, and `block.rs` | handles belong to threads; an action is one atomic operation or access, so a list of actions is a schedule; accesses go to a trace, races are defined on traces in `Spec/HappensBefore.lean`; objects own nothing; giving a handle to another thread is an action although handles are not `Send` |
| `Depth` | `to_json.rs`, `to_djs.rs` | the recursive functions of `Serializer`, with the number of stack frames that are left; one frame per call, frames of helpers are not counted.  For dropping, the fuel of `Graph.drop` is the number of nested calls |
| `Release` | the functions of `tokenizer/mod.rs`, `big_int.rs`, `js_bigint.rs`, `range_map.rs`, `flexible_array/mod.rs` that can overflow | the same functions with wrapping results; the conversion of decimal numbers stays a parameter |
| `ReleaseFloat` | `big_float.rs` | `BigFloat` with exponents that wrap |
| `ReleaseApp` | `parser/parser.rs`, `app/mod.rs` | `Parser` (with files) and `App` with the tokenizer of a release build |
| `Graph` | the same with payloads, `any_internal.rs`, `js_*.rs` | counting headers only (C22 and C23 describe the arena header separately); characters and limbs own nothing and are left out |
| `Memory` | `mem/manager.rs`, `block.rs`, `block_header.rs`, `optional_*.rs`, `ref_.rs`, `mut_ref.rs`, `flexible_array/*`, `js/any*.rs`, `js_*.rs` | memory maps addresses of fields to words, fields are not split into bytes; the allocator is any sequence of free blocks below 2^48; counting headers; a store through `items_mut` writes the new value before it drops the old one |
| `Layout` | `field_layout.rs`, `block.rs`, `arena.rs`, `local.rs`, `flexible_array/*` | types appear through size and alignment; addresses are `Nat` below `2^64` |
| `RefMut` | `common/ref_mut.rs` | values are numbers, the observation is the list of destroyed values |
| `RangeMap`, `Tokenizer` | `range_map.rs`, `tokenizer/mod.rs` | closures in the tables are named (Rust compares them as function pointers); the number conversion `conv` is a parameter, instantiated by `BigFloat.toF64 fuel` |
| `Parser`, `Path`, `Utf16` | `parser/*.rs` | values are trees with block numbers; maps are sorted lists; `Io` is a function from paths to texts and a log of reads |
| `Serializer`, `SerializerCost` | `serializer/*.rs` | the writer is a `String` (never fails); `f64::to_string` is the parameter `sh`; the iteration order of the hash map is the parameter `pick` |
| `ForEach` | `Any::for_each` | the closure is a function with state; indices below 2^53 |
| `Analyzer` | `parser/analyzer.rs` | `process_token`, empty in the code, is a parameter; module and parameters left out |
| `App` | `app/mod.rs`, `nanvm/src/main.rs` | arguments are a list; a failing `write` leaves the files as they are |

## 3. Plan per property

| id | what is modelled | how it is proved |
|----|------------------|------------------|
| C01 | `js_bigint.rs` add/sub/negative/not on limb lists with sign in the header | `val` of limb list (Σ dᵢ·2^64ⁱ); induction on limb lists for add/sub loops; case split on signs |
| C02 | `mul`, `mul_vec`, `add_to_vec` incl. index panics and u128 overflow | loop invariant: value of accumulator = sum of the partial products; bound shows carries stay in range |
| C03 | `new_bigint`, `normalize_vec`, `equals` | invariant `Canon` preserved by each op, then by induction over operation sequences; injectivity of `val` on canonical lists |
| C04 | `compare` | **violated** for two negatives of equal length; witness + `_partial` (not both negative) |
| C05 | `div_mod` with fuel | **violated**: remainder when \|a\|<\|b\|, sign of remainder, wrong digits and non-termination; witnesses + `_partial` (divisor d·2^(64k), d ≤ 2^63, \|a\| ≥ \|b\|); for every other divisor `C05_outcome_partial` says what a result can be (loop invariant modulo 2^(64L), `Lemmas/DivAny.lean`), and `C05_goes_well_partial`, `C05_right_iff_partial` say exactly when it is right, for all operands with \|b\| ≤ \|a\|, in terms of long division with guessed digits corrected by the wrong comparison (`Spec/LowDivision.lean`) |
| C06 | `pow`, `pow_u64` | **violated** for base −1 and for zero base in `pow_u64`; witnesses + `_partial` for all others, strong induction on the exponent |
| C07 | `shl`, `shl_on_u64` | value of the in-place loop, by induction from the top limb |
| C08 | `shr`, `shr_on_u64` | **violated** (mask, negative rounding); witnesses + `_partial` |
| C09 | `and/or/xor` through two's complement | **violated** when zero top limbs are stripped from a negative result; witness, and two theorems over all operands: `C09_exact_partial` gives the answer of the code, `C09_iff_partial` says it is right exactly when the top limb is kept |
| C10–C13 | `big_uint.rs` | same techniques; C11/C12 **violated** as C05/C08; `C11_outcome_partial` for every divisor, with a bound on the error; `C11_exact_partial`, `C11_right_iff_partial`, `C11_stuck_iff_partial` say exactly what the division does for all operands, in terms of long division with guessed digits (`Spec/LongDivision.lean`, `Lemmas/DivExact.lean`), and `C15_right_iff_partial` the same with signs |
| C14–C15 | `big_int.rs` | case split on signs over C10; C15 **violated** (ordering of negatives, remainder sign) |
| C16–C17 | `big_float.rs` over the bigint model | spec: nearest double over rationals with ties-to-even; **violated** for ≥ 28 fractional digits (division) and for values in (2^-1075, 2^-1074); `_partial` for the rest; below 10^-27 a conversion that ends is proved never too small in magnitude (`C16_never_low_partial`), and right if every digit of the quotient by the power of five goes well (`C16_goes_well_partial`, with `Spec/LowDivision.lean`); for `1e-28` to `1e-50` the division never gives the right quotient (`C16_small_violated`) |
| C18 | digit states of the tokenizer | induction over digit string |
| C19–C21 | `bit_subset64.rs`, `bitset.rs`, `any*.rs`, `number.rs`, `null.rs`, `visitor.rs` over `BitVec 64` | bitwise extensionality; the word of each value is fixed (`C20_words`); C20 **violated** for negative quiet NaN |
| C22–C24 | handle machine over a heap with counters; recursive drop | invariant `counter+1 = #handles`, induction over histories; C24 **violated** for bigint, with the exact condition (`C24_panic_iff`) |
| C25–C28 | `arena.rs`, `local.rs`, `field_layout.rs`, `flexible_array` | invariants over request sequences |
| C29–C31 | `range_map.rs` | binary search invariant; pointwise union; C31 **violated** at U+E000 |
| C32–C37 | `tokenizer/mod.rs` state machine with its tables built by the range-map model | table lemma (lookup = classifier) then induction over text; totality for literals whose division goes well (`C32_goes_well_partial`), **violated** by `1e-55`; C33 **violated** for surrogate escapes, C37 **violated** for empty exponents |
| C38–C47 | `parser/*.rs` state machines, module cache, virtual file system | induction over tokens / value trees / fuel; C40, C41, C46 **violated**, witnesses + partials; the panics of C46 exactly: a grammar of unfinished modules (`Spec/Crashes.lean`), the run to the token that panics is decomposed into a derivation and back, no module both loads and panics (run in a file system that lacks the one module) |
| C48–C49 | `parser/path.rs` | fold invariant over segments; C49 **violated** for absolute paths and `.` undone by `..`; `C49_iff_partial` says exactly for which paths it holds |
| C50–C53 | `to_json.rs` + tokenizer + parser | structural induction; C50 **violated** outside the BMP, C51 for −0, inf, NaN and numbers such as 1e-55 (`C51_small_violated`), C53 for bigints; numbers with more than 27 fraction digits are read back if their division goes well (`C51_goes_well_partial`) |
| C54–C55 | `to_djs.rs` with arbitrary choice order | induction over the choice sequence; C55 **violated** as soon as a const is emitted |
| C56–C57 | `app/mod.rs` | decision logic |
| C58 | `to_js_string`, UTF-16 | induction |
| C59 | all of `parser/*.rs` through imports | invariant over parser states: every value is described by a heap, id → content |
| C60 | `run`, then `parse` of the output | C51 + C59; **violated** as C51; exactly when the output is accepted: `C60_accepted` |
| C61 | `parse_with_tokens` with imports over a whole project | well-founded induction over the import graph, declarative project denotation in `Spec/Project.lean`; uniqueness up to block numbers |
| C62 | `PartialEq`, `Hash` of `Any` | from C20; `C62_word_partial`: keys of the serializer's hash maps compare as the words do; **violated** for negative quiet NaN |
| C63 | `main` | decision logic over C56; **violated**: errors give status 0.  Proved instead: exactly when the status is 101, from the exact description of the panics (`C63_exact_partial`) |
| C64 | `RefMut::modify` with a log of destroyed values | **violated** when the closure panics |
| C65 | `to_djs.rs` with a count of the calls; erasure theorem | exact count of `track`; `C65_upper_partial`: general bound, with exact cost of what is written; **violated**: `2^n` calls for a graph of `n + 2` blocks, in every hash order |
| C66, C67 | the whole tokenizer | an inductive lexical grammar (`Lexed`); soundness by strong induction over the text, completeness by induction over the derivation |
| C68 | `from_u64`, `from_i64` | exact condition for the canonical form; zero and `i64::MIN` as witnesses |
| C69 | `for_each` | loop over the list of children by induction, children specified by position; the traversals of `to_djs` in `Model/Serializer` shown to be such loops |
| C70 | `parse` with the tokenizer | C66 and C40/C61 put together; an accepted module has no error token |
| C71 | `analyzer.rs` | induction over the text, token processor as a parameter |
| C72 | parser and `to_djs.rs`, blocks with exact numbers (`Src.Makes`, `Builds`) | induction over source trees; the literals that are written (C54, each block once) are matched with the blocks made; **violated** for the output as it is (semicolons, C55), `_partial` with line breaks |
| C73 | `to_json.rs` | induction over pairs of values; texts are prefix-free up to a character that no number contains |
| C74 | two runs of `run` | C51/C55 + C59 + C73; **violated** as C51 and C55; exactly when the second run succeeds: `C74_accepted` |
| C75 | `Graph.lean` (handles, blocks that own handles) | invariant of C24 (a `MutRef` is the only owner); only stores change items; induction over the path and the history |
| C76 | `Graph.lean` | what a block of each type holds is a separate specification (`Holds`), proved an invariant of all histories; creation, reading and storing are described by it, so `fits`, the model of Rust's typing, is exactly `Holds` |
| C77 | `Parser.lean`: `JState.push` and `jsonPush` are separate models of the two state machines | simulation: outside of `import` and `require` each step of one is a step of the other; the place where imports are reported is characterized exactly |
| C78 | `Parser.lean`, `App.lean`; the model logs every call of `io.read_to_string` in `Ctx.reads` | two-run simulation by induction on the fuel and the tokens: each step only adds to the reads and repeats itself if these files are the same; a panic returns no log, so for panics a closed set of nameable files takes the place of the log (`C78_named`, `C78_run_named`) |
| C79 | `Parser.lean` | a grammar without parser states (`Spec/Accepts.lean`) that says what is accepted, with the kind of the module threaded through; both directions by induction: the derivation gives the run, the run is decomposed into a derivation; over the import graph by a rank (the least depth at which a module loads), which shows that a module in progress is never asked for |
| C80 | `Memory.lean`: words, addresses, counters and items in memory | the specification is a step relation on trees (`Spec/Memory.lean`) and a reading of memory (`Decodes`); refinement: memory stores the graph of `Graph.lean` at addresses given by a map that changes with every allocation, so the invariant of C24 excludes dangling reads; readings are carried over every step by an induction over `Decodes`; the graph does not depend on addresses, which gives `C80_addresses_partial` |
| C81 | `JsBigint.lean`: the public helpers of the shifts and of `pow` | against the integer operations; the exact condition of each panic and of each wrong result |
| C82 | `Serializer.lean`: `writeJsString` | against all lists of pieces of the JSON grammar whose text is plain ASCII; the piece written for a unit is compared with every piece that denotes the unit, then induction over the string |
| C83 | `BigFloat.lean`, the division loops; `fuel` counts the iterations of each loop | **violated** by large exponents (`1e999999999` needs more than 10^9 iterations, `C83_exponent_violated` gives the lower bound for every exponent); partial: an upper bound linear in the length and in the exponent; the bounds for division are in the fuel hypotheses of `C05_divmod_partial`, `C11_divmod_partial` |
| C84 | division of `BigUint.lean`, `BigInt.lean`, `JsBigint.lean` on whatever conversions and arithmetic make | **violated**: `from_u64(0)` is not `is_zero`, so `from_u64(0) / from_u64(0)` is 1; partial: the exact condition for the panic, for `BigUint` and for `BigInt`; JS bigints always panic (`C84_js`) |
| C85 | expressions over `BigUint.lean`, `BigInt.lean` (`+`, `-`, `*`, `<<`, `pow`, unary minus, `abs`) | induction over the expression with the invariant "canonical, or the vector `[0]`"; the values are exact except for `0^0`, which is **violated** (`C85_zero_to_zero_violated`); the order is **violated** when both are zero, `C85_order_partial` and `C85_int_order_partial` are the rest |
| C86 | `Parser.lean` | a measure-free completion: from every state that satisfies the invariant of C40 a list of closing tokens is built by induction over the stack (`Lemmas/ParserDeadEnd.lean`); needs a file that can be named, `C86_without_files` shows why |
| C87 | `Threads.lean` | an invariant that ties counters to the handles of all threads (`Lemmas/Threads.lean`): no use after free, one deletion, `MutRef` alone, for all schedules.  Races: none while handles stay with their threads; with `send` the `Relaxed` ordering of the code allows one (`C87_violated`, `C87_write_violated`); `C87_acq_rel_partial` shows by induction over schedules that `AcqRel` would allow none; `C87_sequential_partial` is a simulation: the state is that of a history of one thread (`Handles.lean`) with the same operations in the same order; conversely `C87_one_thread`: every history of one thread is a schedule, so the two models agree |
| C88 | `Depth.lean`, `Graph.lean`, `Parser.lean` | **violated** for `to_json`, `to_djs`, dropping and importing: for every number of frames there is a text of nested arrays (accepted by the parser), a program, and a chain of modules, that need more (induction over the nesting).  Proved instead: `to_json` needs exactly the nesting depth, `to_djs` at most two more (and no less than the depth when no block is shared), dropping at most the length of the longest chain of owned values, the parser at most the length of the longest chain of different files that name each other (`C88_imports_partial`) |
| C89 | `Release.lean`, `ReleaseFloat.lean` | **violated** for literals (a release build reduces the exponent modulo 2^64: `1e18446744073709551617` is read as 10, where the debug build panics), for a range that starts at U+0000, for the size of a flexible array (too small whenever it overflows) and for a binary big float of `2^(2^63)` or more (zero instead of infinity, exactly then: `C89_to_f64_partial`, `C89_to_f64_violated`).  Proved instead: equal results whenever the debug build does not overflow (relation between the two runs, carried through every step), the exact token of every literal, no wrong value for `from_i64`, `shl_on_u64`, `from_one`, and no overflow in the divisions of numbers without leading zeros |
| C90 | `ReleaseApp.lean` | **violated**: `1e18446744073709551617` converted to JSON is an overflow panic in a debug build and the file with the number 10 in a release build (`C90_run_violated`); partial: parser and converter of a release build do what those of the debug build do (result, files read, file written) unless the text of some file overflows there and the debug build panics for it, by induction on the modules (`C90_parse_partial`, `C90_run_partial`); full: at most the output is written (`C90_writes`) |

## 4. Where the code disagrees with the properties

Each of these has a theorem with a concrete witness (`_violated` or named below) and a `_partial`
theorem for what does hold.

| code | what happens | theorems |
|------|--------------|----------|
| `js_bigint.rs` `compare` | two negative numbers with the same number of limbs are ordered backwards | C04 |
| `js_bigint.rs` `div_mod`, `big_uint.rs` `div_mod` | wrong quotient or an endless loop for divisors of several limbs; a dividend smaller than the divisor leaves the divisor itself as remainder; remainder has the wrong sign | C05, C11, C15 |
| `js_bigint.rs` `pow` | (-1)^odd is 1; `pow_u64` of zero | C06 |
| right shifts | the mask `1 << (s-1)` keeps one bit of the bits that move between limbs; negative numbers are truncated instead of rounded down.  `C08_shr_iff_partial` and `C12_shr_iff_partial` say exactly when the result is right | C08, C12 |
| `shl_on_u64`, `pow_u64` | panic for zero (`len - 1` of an empty vector) | C06, C81 |
| `big_uint.rs` `Shr` | only the low limb of the amount counts | C12 |
| bitwise operators | zero top limbs are stripped from a negative two's complement | C09 |
| `big_uint.rs` `from_u64(0)` | is not the canonical zero: it is greater than `ZERO`, `from_u64(0) / from_u64(0)` is 1, and `ZERO.pow(from_u64(0))` is 0 although `ZERO.pow(ZERO)` is 1 | C68, C84, C85 |
| `big_float.rs` `to_bin`, `decrease_significand` | a literal such as `1e999999999` computes `5^999999999` and then shifts it right one bit at a time: billions of iterations over hundreds of megabytes for a text of eleven characters | C83 |
| `big_int.rs` | `from_i64(i64::MIN)` overflows; ordering of negatives reversed; `-0` from a division | C68, C15 |
| `big_float.rs` | `1e-55` never terminates (C05's loop); none of `1e-28` to `1e-50` is divided rightly; values in (2^-1075, 2^-1074) become 0; `-0.0` becomes `0.0` | C16, C17, C18, C32 |
| `number.rs`, `any.rs` | a negative quiet NaN is read back as a boolean, null or pointer, and two NaNs or a NaN and a reference can be equal; dropping such a number frees memory that is not allocated | C20, C62, C80 |
| `any_internal.rs` `delete` | dropping the last `Any` of a bigint is `unreachable!()` | C24, C80 |
| `range_map.rs` `from_range`, `from_one` | wrong at U+E000, panic at U+0000 | C31 |
| tokenizer, `\u` escapes | surrogate pairs are rejected, so the serializer's own output is not read back | C33, C50, C51, C60, C74 |
| tokenizer, numbers | `1e,` is accepted; `-0` loses its sign; huge exponents overflow | C18, C32, C37 |
| `parser.rs` imports | nested imports are resolved against the directory of the root module; `./b` is a directory named `.`; absolute paths lose their slash | C40, C49 |
| `root_state.rs` | `const` resets the module type, so CommonJS and ES modules can be mixed | C41 |
| `any_state.rs` `parse_object_comma`, `parse_array_begin` | an identifier as a key is only accepted directly after the brace (`{a:1,b:2}` is rejected), and `require` not directly after `[`; `C79_accepts_partial` says exactly what is accepted | C79 |
| `const_state.rs` | `const a = ;` is `todo!()`; `C46_exact_partial` says exactly which modules panic | C46, C56 |
| `any_state.rs` without files | `require(...)` reaches `unreachable!()` | C46 |
| `to_json.rs` | bigint is `todo!()`; infinities and NaN are printed as Rust prints them; `-0`; the parser never ends on the text written for `1e-55` | C51, C53, C56 |
| `to_djs.rs` | constants end with `;`, which the parser rejects; nested shared blocks take exponential time | C55, C65 |
| `app/mod.rs`, `main.rs` | missing arguments panic; the result of `run` is discarded, so errors exit with status 0 | C56, C63 |
| `ref_mut.rs` `modify` | if the closure panics the old value is destroyed twice | C64 |
| `block_header.rs` `AtomicIsize` | `fetch_add` is `Relaxed`, so releasing a handle in one thread is not ordered before the deletion (or a write through `try_to_mut_ref`) in another: a data race as soon as handles are sent to other threads.  Safe programs cannot do so now, as handles hold raw pointers and are not `Send` | C87 |
| `to_json.rs`, `to_djs.rs`, `optional_ref.rs` `drop` | recursive: the parser reads nested arrays with a stack on the heap, but writing or dropping the value takes a native stack frame per level, so a short text kills the process; the same holds for a long chain of modules that import each other | C88 |
| `tokenizer/mod.rs` `ExpState`, `range_map.rs` `from_range`, `flexible_array/mod.rs` `flexible_size`, `big_float.rs` `get_f64_bits` | unchecked arithmetic: in a release build a long exponent is reduced modulo 2^64 and read as another number, a range from U+0000 misses U+0000, a flexible array with too many items gets a block that is too small, `BigFloat::to_f64` of a number of `2^(2^63)` or more is zero | C89 |

Smaller observations that follow from the theorems but contradict no property: trailing
commas are allowed; a `/` that starts no comment swallows the next character; a line break at the end
of the text has no token, but has one if a comment follows; `\n/**/\n` has two newline tokens; `00` is an
error token followed by a number; the analyzer never sees the last token of a text, because its `end`
does not end the tokenizer (`C71_last_token_lost`).

## 5. Not modelled

* Code: `ast/mod.rs` (types and `Default` only),
  `mem/fixed.rs`, `mem/global.rs` (forwards to `std::alloc`), `js/new.rs`, `js/ref_cast.rs`,
  `common/default.rs`, `common/usize.rs`, `common/vec.rs`, `static_ref_default.rs`.  No module cites
  these files.  Traits that only forward (`value_cast.rs`, `constructor.rs`) appear inlined.
* `Debug` output and the tests.
* The runtime: bytes (`Memory.lean` has words at addresses), threads (only in `Threads.lean`), failure of
  the allocator, memory limits.  Overflow of reference counters is modelled in `Memory.lean` only.  Time is modelled only in C65.
* Overflow of machine integers is a panic, as in a debug build.  A release build wraps instead; C89 and C90 (`Release`, `ReleaseFloat`, `ReleaseApp`) have the functions for which this is reachable; the divisions of big integers do not overflow (`C89_division_partial`).

## 6. How to read `seeded/LOG.jsonl`

Each line is one edit of a definition of the model and one build.  `result` is one of

* `theorem of the claim failed`: the proof of a theorem of the claim broke;
* `other property theorem failed`: a theorem of another property broke;
* `lemma failed`: only helper lemmas broke.  The theorems of the claim that rest on them
  (`theorems_not_built`) were not compiled.  Such a run does not by itself show that these theorems are
  false for the edited model: a proof can break although the statement still holds;
* `not detected`: everything still built.  `theorems_tightened` names what was changed or added then;
* `invalid edit`: the edited model does not compile, so nothing was tested.

A broken proof is weaker evidence than a counterexample in all cases.  `counterexample`, where present, is
a concrete instance of a theorem of the claim that was evaluated to false on the edited model and to true
on the original one.

An earlier version of the log had a single result `detected` and listed theorems that were not built
among those that failed.
