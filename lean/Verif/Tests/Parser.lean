import Verif.Model.Parser
/-!
# The unit tests of `parser/parser.rs`

Written by `tools/repotests.py`.
-/
namespace Nanvm
namespace RepoTests
open Tok Parser

def fileSystem (files : List (String × String)) (p : Text) : Option Text :=
  (files.find? fun f => f.1.toList = p).map fun f => f.2.toList

abbrev Out := Res Outcome

/-- `parse_with_virtual_io` -/
def ofTokens (ts : List Token) : Out :=
  (·.2) <$> parseWithTokens ⟨fileSystem [], BigFloat.toF64 4000, []⟩ 100 Ctx.empty ts

/-- `tokenize`, then `parse_with_virtual_io` -/
def ofText (s : String) : Out := do
  ofTokens (← tokenize (BigFloat.toF64 4000) s.toList)

/-- `parse` with some files; the current directory is the empty path -/
def ofFile (files : List (String × String)) (p : String) : Out :=
  (·.2) <$> parse ⟨fileSystem files, BigFloat.toF64 4000, Path.concat [] p.toList⟩ 100 Ctx.empty

def Out.isOk : Out → Bool
  | .ok (.ok _) => true
  | _ => false
def Out.isErr : Out → Bool
  | .ok (.error _) => true
  | _ => false
def Out.err : Out → Option ParseError
  | .ok (.error e) => some e
  | _ => none
def Out.dataType : Out → Option DataType
  | .ok (.ok (t, _)) => some t
  | _ => none
def Out.any : Out → Option Val
  | .ok (.ok (_, v)) => some v
  | _ => none
def isNull : Option Val → Bool
  | some .null => true
  | _ => false
def asBool : Option Val → Option Bool
  | some (.bool b) => some b
  | _ => none
def asNum : Option Val → Option Nat
  | some (.num b) => some b
  | _ => none
def asStr : Option Val → Option JsStr
  | some (.str _ s) => some s
  | _ => none
def asBig : Option Val → Option JsBig
  | some (.big _ s) => some s
  | _ => none
def noItems : Option Val → Bool
  | some (.arr _ []) => true
  | some (.obj _ []) => true
  | _ => false
def item (n : Nat) : Option Val → Option Val
  | some (.arr _ l) => l[n]?
  | _ => none
def key (n : Nat) : Option Val → Option JsStr
  | some (.obj _ l) => l[n]?.map Prod.fst
  | _ => none
def value (n : Nat) : Option Val → Option Val
  | some (.obj _ l) => l[n]?.map Prod.snd
  | _ => none

/-- `test_json`, parser.rs:311 -/
example :
    Out.isOk (ofText "{\n    \"key\": [true, false, null]\n}") = true ∧
    Out.dataType (ofText "{\n    \"key\": [true, false, null]\n}") = some .json := by
  decide +kernel

/-- `test_djs`, parser.rs:321 -/
example :
    Out.isOk (ofText "module.exports = {\n    id: null\n}") = true ∧
    Out.dataType (ofText "module.exports = {\n    id: null\n}") = some .cjs ∧
    Out.isOk (ofText "export default {\n    id: null\n}") = true ∧
    Out.dataType (ofText "export default {\n    id: null\n}") = some .mjs := by
  decide +kernel

/-- `test_const`, parser.rs:337 -/
example :
    Out.isOk (ofText "const a = 2\nconst b = [a, a]\nmodule.exports = b") = true ∧
    asNum (item 0 (Out.any (ofText "const a = 2\nconst b = [a, a]\nmodule.exports = b"))) = some 4611686018427387904 ∧
    asNum (item 1 (Out.any (ofText "const a = 2\nconst b = [a, a]\nmodule.exports = b"))) = some 4611686018427387904 ∧
    Out.isErr (ofText "const a = 2\nmodule.exports = [b]") = true ∧
    Out.isErr (ofText "const a = 5 const b = 7\nmodule.exports = a") = true ∧
    Out.err (ofText "const a = 5 const b = 7\nmodule.exports = a") = some .newLineExpected := by
  decide +kernel

/-- `test_stack`, parser.rs:371 -/
example :
    Out.isOk (ofText "module.exports = [{\"a\":[null]}]") = true ∧
    key 0 (item 0 (Out.any (ofText "module.exports = [{\"a\":[null]}]"))) = some [0x61] ∧
    isNull (item 0 (value 0 (item 0 (Out.any (ofText "module.exports = [{\"a\":[null]}]"))))) = true := by
  decide +kernel

/-- `test_import`, parser.rs:400 -/
example :
    Out.isOk (ofFile [("test_import_main.d.cjs", "const a = 0\nconst b = require(\"test_import_module.d.cjs\")\nconst c = 0\nmodule.exports = [b]"), ("test_import_module.d.cjs", "module.exports = 3")] "test_import_main.d.cjs") = true ∧
    asNum (item 0 (Out.any (ofFile [("test_import_main.d.cjs", "const a = 0\nconst b = require(\"test_import_module.d.cjs\")\nconst c = 0\nmodule.exports = [b]"), ("test_import_module.d.cjs", "module.exports = 3")] "test_import_main.d.cjs"))) = some 4613937818241073152 ∧
    Out.isOk (ofFile [("test_import_main.d.mjs", "const a = 0\nimport b from \"test_import_module.d.mjs\"\nconst c = 0\nexport default [b]"), ("test_import_module.d.mjs", "export default 4")] "test_import_main.d.mjs") = true ∧
    asNum (item 0 (Out.any (ofFile [("test_import_main.d.mjs", "const a = 0\nimport b from \"test_import_module.d.mjs\"\nconst c = 0\nexport default [b]"), ("test_import_module.d.mjs", "export default 4")] "test_import_main.d.mjs"))) = some 4616189618054758400 := by
  decide +kernel

/-- `test_cache`, parser.rs:468 -/
example :
    Out.isOk (ofFile [("test_cache_main.d.cjs", "const b = require(\"test_cache_b.d.cjs\")\nconst c = require(\"test_cache_c.d.cjs\")\nmodule.exports = [b, c]"), ("test_cache_b.d.cjs", "const c = require(\"test_cache_c.d.cjs\")\nmodule.exports = c"), ("test_cache_c.d.cjs", "module.exports = 1")] "test_cache_main.d.cjs") = true ∧
    asNum (item 0 (Out.any (ofFile [("test_cache_main.d.cjs", "const b = require(\"test_cache_b.d.cjs\")\nconst c = require(\"test_cache_c.d.cjs\")\nmodule.exports = [b, c]"), ("test_cache_b.d.cjs", "const c = require(\"test_cache_c.d.cjs\")\nmodule.exports = c"), ("test_cache_c.d.cjs", "module.exports = 1")] "test_cache_main.d.cjs"))) = some 4607182418800017408 ∧
    asNum (item 1 (Out.any (ofFile [("test_cache_main.d.cjs", "const b = require(\"test_cache_b.d.cjs\")\nconst c = require(\"test_cache_c.d.cjs\")\nmodule.exports = [b, c]"), ("test_cache_b.d.cjs", "const c = require(\"test_cache_c.d.cjs\")\nmodule.exports = c"), ("test_cache_c.d.cjs", "module.exports = 1")] "test_cache_main.d.cjs"))) = some 4607182418800017408 ∧
    Out.isOk (ofFile [("test_cache_main.d.mjs", "import b from \"test_cache_b.d.mjs\"\nimport c from \"test_cache_c.d.mjs\"\nexport default [b, c]"), ("test_cache_b.d.mjs", "import c from \"test_cache_c.d.mjs\"\nexport default c"), ("test_cache_c.d.mjs", "export default 2")] "test_cache_main.d.mjs") = true ∧
    asNum (item 0 (Out.any (ofFile [("test_cache_main.d.mjs", "import b from \"test_cache_b.d.mjs\"\nimport c from \"test_cache_c.d.mjs\"\nexport default [b, c]"), ("test_cache_b.d.mjs", "import c from \"test_cache_c.d.mjs\"\nexport default c"), ("test_cache_c.d.mjs", "export default 2")] "test_cache_main.d.mjs"))) = some 4611686018427387904 ∧
    asNum (item 1 (Out.any (ofFile [("test_cache_main.d.mjs", "import b from \"test_cache_b.d.mjs\"\nimport c from \"test_cache_c.d.mjs\"\nexport default [b, c]"), ("test_cache_b.d.mjs", "import c from \"test_cache_c.d.mjs\"\nexport default c"), ("test_cache_c.d.mjs", "export default 2")] "test_cache_main.d.mjs"))) = some 4611686018427387904 := by
  decide +kernel

/-- `test_circular_error`, parser.rs:546 -/
example :
    Out.isErr (ofFile [("test_circular_1.d.cjs.txt", "const a = require(\"test_circular_2.d.cjs.txt\")\nmodule.exports = a"), ("test_circular_2.d.cjs.txt", "const a = require(\"test_circular_1.d.cjs.txt\")\nmodule.exports = a")] "test_circular_1.d.cjs.txt") = true ∧
    Out.err (ofFile [("test_circular_1.d.cjs.txt", "const a = require(\"test_circular_2.d.cjs.txt\")\nmodule.exports = a"), ("test_circular_2.d.cjs.txt", "const a = require(\"test_circular_1.d.cjs.txt\")\nmodule.exports = a")] "test_circular_1.d.cjs.txt") = some .circularDependency ∧
    Out.isErr (ofFile [("test_circular_1.d.mjs.txt", "import a from \"test_circular_2.d.mjs.txt\"\nmodule.exports = a"), ("test_circular_2.d.mjs.txt", "import a from \"test_circular_1.d.mjs.txt\"\nmodule.exports = a")] "test_circular_1.d.mjs.txt") = true ∧
    Out.err (ofFile [("test_circular_1.d.mjs.txt", "import a from \"test_circular_2.d.mjs.txt\"\nmodule.exports = a"), ("test_circular_2.d.mjs.txt", "import a from \"test_circular_1.d.mjs.txt\"\nmodule.exports = a")] "test_circular_1.d.mjs.txt") = some .circularDependency := by
  decide +kernel

/-- `test_import_error`, parser.rs:598 -/
example :
    Out.isErr (ofFile [("test_import_error.d.cjs.txt", "import b from \"test_import_module.d.mjs\"\nmodule.exports = [b]"), ("test_import_module.d.mjs", "export default 4")] "test_import_error.d.cjs.txt") = true ∧
    Out.err (ofFile [("test_import_error.d.cjs.txt", "import b from \"test_import_module.d.mjs\"\nmodule.exports = [b]"), ("test_import_module.d.mjs", "export default 4")] "test_import_error.d.cjs.txt") = some .unexpectedToken ∧
    Out.isErr (ofFile [("test_import_error.d.mjs.txt", "const b = require(\"test_import_module.d.cjs\")\nexport default [b]"), ("test_import_module.d.cjs", "module.exports = 3")] "test_import_error.d.mjs.txt") = true ∧
    Out.err (ofFile [("test_import_error.d.mjs.txt", "const b = require(\"test_import_module.d.cjs\")\nexport default [b]"), ("test_import_module.d.cjs", "module.exports = 3")] "test_import_error.d.mjs.txt") = some .unexpectedToken := by
  decide +kernel

/-- `test_trailing_comma`, parser.rs:652 -/
example :
    Out.isOk (ofText "module.exports = [0,{\"a\":1,\"b\":2,},]") = true := by
  decide +kernel

/-- `test_check_sizes`, parser.rs:661 -/
example :
    Out.isOk (ofTokens [.objectBegin, .string "k".toList, .colon, .objectBegin, .objectEnd, .objectEnd]) = true := by
  decide +kernel

/-- `test_check_sizes2`, parser.rs:682 -/
example :
    Out.isOk (ofTokens [.objectBegin, .string "k".toList, .colon, .objectBegin, .objectEnd, .objectEnd]) = true := by
  decide +kernel

/-- `test_data_type`, parser.rs:705 -/
example :
    Out.isOk (ofTokens [.id "null".toList]) = true ∧
    Out.dataType (ofTokens [.id "null".toList]) = some .json := by
  decide +kernel

/-- `test_export_block`, parser.rs:714 -/
example :
    Out.isOk (ofTokens [.id "export".toList, .id "default".toList, .id "null".toList]) = true ∧
    Out.dataType (ofTokens [.id "export".toList, .id "default".toList, .id "null".toList]) = some .mjs ∧
    Out.isOk (ofTokens [.id "module".toList, .dot, .id "exports".toList, .equals, .id "null".toList]) = true ∧
    Out.dataType (ofTokens [.id "module".toList, .dot, .id "exports".toList, .equals, .id "null".toList]) = some .cjs := by
  decide +kernel

/-- `test_id_in_objects`, parser.rs:738 -/
example :
    Out.isOk (ofTokens [.id "export".toList, .id "default".toList, .objectBegin, .id "key".toList, .colon, .number 0, .objectEnd]) = true ∧
    key 0 (Out.any (ofTokens [.id "export".toList, .id "default".toList, .objectBegin, .id "key".toList, .colon, .number 0, .objectEnd])) = some [0x6b, 0x65, 0x79] ∧
    asNum (value 0 (Out.any (ofTokens [.id "export".toList, .id "default".toList, .objectBegin, .id "key".toList, .colon, .number 0, .objectEnd]))) = some 0 ∧
    Out.isErr (ofTokens [.objectBegin, .id "key".toList, .colon, .number 0, .objectEnd]) = true := by
  decide +kernel

/-- `test_valid_global`, parser.rs:770 -/
example :
    Out.isOk (ofTokens [.id "null".toList]) = true ∧
    isNull (Out.any (ofTokens [.id "null".toList])) = true ∧
    Out.isOk (ofTokens [.id "true".toList]) = true ∧
    asBool (Out.any (ofTokens [.id "true".toList])) = some true ∧
    Out.isOk (ofTokens [.id "false".toList]) = true ∧
    asBool (Out.any (ofTokens [.id "false".toList])) = some false ∧
    Out.isOk (ofTokens [.number 4591870180066957722]) = true ∧
    asNum (Out.any (ofTokens [.number 4591870180066957722])) = some 4591870180066957722 ∧
    Out.isOk (ofTokens [.string "abc".toList]) = true ∧
    ((Out.any (ofTokens [.string "abc".toList]))).isSome = true ∧
    asStr (Out.any (ofTokens [.string "abc".toList])) = some [0x61, 0x62, 0x63] ∧
    Out.isOk (ofTokens [.bigInt (JsBig.fromU64 .pos 1)]) = true ∧
    ((Out.any (ofTokens [.bigInt (JsBig.fromU64 .pos 1)]))).isSome = true ∧
    (asBig (Out.any (ofTokens [.bigInt (JsBig.fromU64 .pos 1)]))).map (fun b => (b.sign, b.items.length)) = some (.pos, 1) ∧
    (asBig (Out.any (ofTokens [.bigInt (JsBig.fromU64 .pos 1)]))).map JsBig.items = some [0x1] ∧
    Out.isOk (ofTokens [.bigInt (JsBig.new .neg [2, 3])]) = true ∧
    ((Out.any (ofTokens [.bigInt (JsBig.new .neg [2, 3])]))).isSome = true ∧
    (asBig (Out.any (ofTokens [.bigInt (JsBig.new .neg [2, 3])]))).map (fun b => (b.sign, b.items.length)) = some (.neg, 2) ∧
    (asBig (Out.any (ofTokens [.bigInt (JsBig.new .neg [2, 3])]))).map JsBig.items = some [0x2, 0x3] ∧
    Out.isOk (ofTokens [.arrayBegin, .arrayEnd]) = true ∧
    noItems (Out.any (ofTokens [.arrayBegin, .arrayEnd])) = true ∧
    Out.isOk (ofTokens [.arrayBegin, .number 4607182418800017408, .comma, .id "true".toList, .arrayEnd]) = true ∧
    asNum (item 0 (Out.any (ofTokens [.arrayBegin, .number 4607182418800017408, .comma, .id "true".toList, .arrayEnd]))) = some 4607182418800017408 ∧
    asBool (item 1 (Out.any (ofTokens [.arrayBegin, .number 4607182418800017408, .comma, .id "true".toList, .arrayEnd]))) = some true ∧
    Out.isOk (ofTokens [.arrayBegin, .number 4607182418800017408, .comma, .id "true".toList, .comma, .arrayEnd]) = true ∧
    Out.isOk (ofTokens [.objectBegin, .string "k1".toList, .colon, .number 4607182418800017408, .comma, .string "k0".toList, .colon, .number 0, .comma, .string "k2".toList, .colon, .number 4611686018427387904, .objectEnd]) = true ∧
    key 0 (Out.any (ofTokens [.objectBegin, .string "k1".toList, .colon, .number 4607182418800017408, .comma, .string "k0".toList, .colon, .number 0, .comma, .string "k2".toList, .colon, .number 4611686018427387904, .objectEnd])) = some [0x6b, 0x30] ∧
    asNum (value 0 (Out.any (ofTokens [.objectBegin, .string "k1".toList, .colon, .number 4607182418800017408, .comma, .string "k0".toList, .colon, .number 0, .comma, .string "k2".toList, .colon, .number 4611686018427387904, .objectEnd]))) = some 0 ∧
    key 1 (Out.any (ofTokens [.objectBegin, .string "k1".toList, .colon, .number 4607182418800017408, .comma, .string "k0".toList, .colon, .number 0, .comma, .string "k2".toList, .colon, .number 4611686018427387904, .objectEnd])) = some [0x6b, 0x31] ∧
    asNum (value 1 (Out.any (ofTokens [.objectBegin, .string "k1".toList, .colon, .number 4607182418800017408, .comma, .string "k0".toList, .colon, .number 0, .comma, .string "k2".toList, .colon, .number 4611686018427387904, .objectEnd]))) = some 4607182418800017408 ∧
    key 2 (Out.any (ofTokens [.objectBegin, .string "k1".toList, .colon, .number 4607182418800017408, .comma, .string "k0".toList, .colon, .number 0, .comma, .string "k2".toList, .colon, .number 4611686018427387904, .objectEnd])) = some [0x6b, 0x32] ∧
    asNum (value 2 (Out.any (ofTokens [.objectBegin, .string "k1".toList, .colon, .number 4607182418800017408, .comma, .string "k0".toList, .colon, .number 0, .comma, .string "k2".toList, .colon, .number 4611686018427387904, .objectEnd]))) = some 4611686018427387904 ∧
    Out.isOk (ofTokens [.objectBegin, .objectEnd]) = true ∧
    noItems (Out.any (ofTokens [.objectBegin, .objectEnd])) = true ∧
    Out.isOk (ofTokens [.objectBegin, .string "k".toList, .colon, .objectBegin, .objectEnd, .objectEnd]) = true ∧
    noItems (value 0 (Out.any (ofTokens [.objectBegin, .string "k".toList, .colon, .objectBegin, .objectEnd, .objectEnd]))) = true := by
  decide +kernel

/-- `test_invalid_global`, parser.rs:942 -/
example :
    Out.isErr (ofTokens []) = true ∧
    Out.isErr (ofTokens [.error .invalidNumber]) = true ∧
    Out.isErr (ofTokens [.arrayBegin, .comma, .arrayEnd]) = true ∧
    Out.isErr (ofTokens [.arrayBegin, .number 0, .number 4607182418800017408, .arrayEnd]) = true ∧
    Out.isErr (ofTokens [.arrayBegin, .number 0, .comma, .comma, .number 4607182418800017408, .arrayEnd]) = true ∧
    Out.isErr (ofTokens [.arrayBegin, .arrayEnd, .arrayEnd]) = true ∧
    Out.isErr (ofTokens [.arrayBegin, .string []]) = true ∧
    Out.isErr (ofTokens [.arrayBegin, .comma, .number 4607182418800017408, .arrayEnd]) = true ∧
    Out.isErr (ofTokens [.arrayBegin, .colon, .arrayEnd]) = true ∧
    Out.isErr (ofTokens [.arrayEnd]) = true ∧
    Out.isErr (ofTokens [.objectBegin, .comma, .objectEnd]) = true ∧
    Out.isErr (ofTokens [.objectBegin, .number 0, .comma, .number 4607182418800017408, .objectEnd]) = true ∧
    Out.isErr (ofTokens [.objectBegin, .string "key".toList, .number 0, .objectEnd]) = true ∧
    Out.isErr (ofTokens [.objectBegin, .string "key".toList, .colon, .colon, .number 0, .objectEnd]) = true ∧
    Out.isErr (ofTokens [.objectBegin, .string "key0".toList, .colon, .number 0, .comma, .comma, .string "key1".toList, .colon, .number 4607182418800017408, .objectEnd]) = true ∧
    Out.isErr (ofTokens [.objectBegin, .objectEnd, .objectEnd]) = true ∧
    Out.isErr (ofTokens [.objectBegin, .string "key".toList, .colon, .number 0]) = true ∧
    Out.isErr (ofTokens [.objectBegin, .comma, .string "key".toList, .colon, .number 0, .objectEnd]) = true ∧
    Out.isErr (ofTokens [.objectEnd]) = true ∧
    Out.isErr (ofTokens [.arrayBegin, .objectBegin, .arrayEnd, .objectEnd]) = true ∧
    Out.isErr (ofTokens [.objectBegin, .arrayBegin, .objectEnd, .arrayEnd]) = true := by
  decide +kernel

end RepoTests
end Nanvm
