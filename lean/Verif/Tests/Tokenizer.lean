import Verif.Model.Tokenizer
/-!
# The unit tests of `tokenizer/mod.rs`

Written by `tools/repotests.py`.
-/
namespace Nanvm
namespace RepoTests
open Tok

/-- the double `-0.0` equals `0.0` -/
def sameZero : Token → Token
  | .number n => .number (if n = 2 ^ 63 then 0 else n)
  | t => t

def toks (s : String) : Res (List Token) := (·.map sameZero) <$> tokenize (BigFloat.toF64 4000) s.toList

def bits (b : BigFloat) : Nat :=
  match BigFloat.toF64 4000 b with
  | .ok n => n
  | .error _ => 0

/-- `test_empty`, tokenizer/mod.rs:1099 -/
example :
    toks "" = .ok [] := by
  decide +kernel

/-- `test_ops`, tokenizer/mod.rs:1106 -/
example :
    (·[0]?) <$> toks "{" = .ok (some .objectBegin) ∧
    toks "}" = .ok [.objectEnd] ∧
    toks "[" = .ok [.arrayBegin] ∧
    toks "]" = .ok [.arrayEnd] ∧
    toks ":" = .ok [.colon] ∧
    toks "," = .ok [.comma] ∧
    toks "=" = .ok [.equals] ∧
    toks "." = .ok [.dot] ∧
    toks ";" = .ok [.semicolon] ∧
    toks "()" = .ok [.openingParenthesis, .closingParenthesis] ∧
    toks "[{ :, }]" = .ok [.arrayBegin, .objectBegin, .colon, .comma, .objectEnd, .arrayEnd] := by
  decide +kernel

/-- `test_id`, tokenizer/mod.rs:1156 -/
example :
    toks "true" = .ok [.id "true".toList] ∧
    toks "false" = .ok [.id "false".toList] ∧
    toks "null" = .ok [.id "null".toList] ∧
    toks "tru tru" = .ok [.id "tru".toList, .id "tru".toList] ∧
    toks "ABCxyz_0123456789$" = .ok [.id "ABCxyz_0123456789$".toList] ∧
    toks "_" = .ok [.id "_".toList] ∧
    toks "$" = .ok [.id "$".toList] := by
  decide +kernel

/-- `test_whitespace`, tokenizer/mod.rs:1190 -/
example :
    toks " \t\n\r" = .ok [] := by
  decide +kernel

/-- `test_string`, tokenizer/mod.rs:1197 -/
example :
    toks "\"\"" = .ok [.string "".toList] ∧
    toks "\"value\"" = .ok [.string "value".toList] ∧
    toks "\"value1\" \"value2\"" = .ok [.string "value1".toList, .string "value2".toList] ∧
    toks "\"value" = .ok [.error .missingQuotes] := by
  decide +kernel

/-- `test_escaped_characters`, tokenizer/mod.rs:1219 -/
example :
    toks "\"\\b\\f\\n\\r\\t\"" = .ok [.string "\x08\x0c\n\r\t".toList] ∧
    toks "\"\\x\"" = .ok [.error .unexpectedCharacter, .string "x".toList] ∧
    toks "\"\\" = .ok [.error .missingQuotes] := by
  decide +kernel

/-- `test_unicode`, tokenizer/mod.rs:1241 -/
example :
    toks "\"\\u1234\"" = .ok [.string "ሴ".toList] ∧
    toks "\"\\uaBcDEeFf\"" = .ok [.string "ꯍEeFf".toList] ∧
    toks "\"\\uEeFg\"" = .ok [.error .invalidHex, .string "g".toList] ∧
    toks "\"\\uEeF" = .ok [.error .missingQuotes] := by
  decide +kernel

/-- `test_integer`, tokenizer/mod.rs:1263 -/
example :
    toks "0" = .ok [.number 0] ∧
    toks "-0" = .ok [.number 0] ∧
    toks "0abc" = .ok [.error .invalidNumber, .id "abc".toList] ∧
    toks "0. 2" = .ok [.error .invalidNumber, .number 4611686018427387904] ∧
    toks "1234567890" = .ok [.number 4742964961033060352] ∧
    toks "-1234567890" = .ok [.number 13966336997887836160] ∧
    toks "[0,1]" = .ok [.arrayBegin, .number 0, .comma, .number 4607182418800017408, .arrayEnd] ∧
    toks "001" = .ok [.error .invalidNumber, .error .invalidNumber, .number 4607182418800017408] ∧
    toks "-" = .ok [.error .invalidNumber] ∧
    toks "-{}" = .ok [.error .invalidNumber, .objectBegin, .objectEnd] ∧
    toks "9007199254740991" = .ok [.number 4845873199050653695] ∧
    toks "9007199254740992" = .ok [.number 4845873199050653696] ∧
    toks "9007199254740993" = .ok [.number 4845873199050653696] := by
  decide +kernel

/-- `test_big_float`, tokenizer/mod.rs:1341 -/
example :
    toks "340282366920938463463374607431768211456" = .ok [.number (bits ⟨JsBig.new .pos [0, 0, 1], .pos, 0, false⟩)] := by
  decide +kernel

/-- `test_float`, tokenizer/mod.rs:1360 -/
example :
    toks "0.01" = .ok [.number 4576918229304087675] ∧
    toks "[-12.34]" = .ok [.arrayBegin, .number 13846508457334753198, .arrayEnd] := by
  decide +kernel

/-- `test_infinity`, tokenizer/mod.rs:1377 -/
example :
    toks "1e1000" = .ok [.number 9218868437227405312] ∧
    toks "-1e+1000" = .ok [.number 18442240474082181120] := by
  decide +kernel

/-- `test_exp`, tokenizer/mod.rs:1387 -/
example :
    toks "1e2" = .ok [.number 4636737291354636288] ∧
    toks "1E+2" = .ok [.number 4636737291354636288] ∧
    toks "0e-2" = .ok [.number 0] ∧
    toks "1e-2" = .ok [.number 4576918229304087675] ∧
    toks "1.2e+2" = .ok [.number 4638144666238189568] ∧
    toks "12e0000" = .ok [.number 4622945017495814144] ∧
    toks "1e" = .ok [.error .invalidNumber] ∧
    toks "1e+" = .ok [.error .invalidNumber] ∧
    toks "1e-" = .ok [.error .invalidNumber] := by
  decide +kernel

/-- `test_big_int`, tokenizer/mod.rs:1418 -/
example :
    toks "0n" = .ok [.bigInt JsBig.zero] ∧
    toks "-0n" = .ok [.bigInt (JsBig.fromU64 .neg 0)] ∧
    toks "1234567890n" = .ok [.bigInt (JsBig.fromU64 .pos 1234567890)] ∧
    toks "-1234567890n" = .ok [.bigInt (JsBig.fromU64 .neg 1234567890)] ∧
    toks "123.456n" = .ok [.error .invalidNumber, .id "n".toList] ∧
    toks "123e456n" = .ok [.error .invalidNumber, .id "n".toList] ∧
    toks "1234567890na" = .ok [.error .invalidNumber, .id "a".toList] ∧
    toks "1234567890nn" = .ok [.error .invalidNumber, .id "n".toList] := by
  decide +kernel

/-- `test_errors`, tokenizer/mod.rs:1487 -/
example :
    toks "ᄑ" = .ok [.error .unexpectedCharacter] := by
  decide +kernel

/-- `test_djs`, tokenizer/mod.rs:1497 -/
example :
    toks "module.exports = " = .ok [.id "module".toList, .dot, .id "exports".toList, .equals] := by
  decide +kernel

/-- `test_singleline_comments`, tokenizer/mod.rs:1512 -/
example :
    toks "{//abc\n2\n}" = .ok [.objectBegin, .newLine, .number 4611686018427387904, .newLine, .objectEnd] ∧
    toks "0//abc/*" = .ok [.number 0] ∧
    toks "0//abc 1" = .ok [.number 0] ∧
    toks "0//abc\n1" = .ok [.number 0, .newLine, .number 4607182418800017408] ∧
    toks "0//" = .ok [.number 0] ∧
    toks "0/" = .ok [.number 0, .error .unexpectedCharacter] ∧
    toks "0/a" = .ok [.number 0, .error .unexpectedCharacter] := by
  decide +kernel

/-- `test_multiline_comments`, tokenizer/mod.rs:1565 -/
example :
    toks "{/*abc\ndef*/2}" = .ok [.objectBegin, .number 4611686018427387904, .objectEnd] ∧
    toks "{/*/* /**/2}" = .ok [.objectBegin, .number 4611686018427387904, .objectEnd] ∧
    toks "{/*" = .ok [.objectBegin, .error .commentClosingExpected] ∧
    toks "{/**" = .ok [.objectBegin, .error .commentClosingExpected] := by
  decide +kernel

end RepoTests
end Nanvm
