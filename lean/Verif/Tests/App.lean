import Verif.Model.App
/-!
# The unit tests of `serializer/to_json.rs`, `serializer/to_djs.rs` and `app/mod.rs`

Written by hand.  The printer of doubles is given by a table.  In `app/mod.rs`, `VirtualIo::new`
takes the arguments after the name of the program.
-/
namespace Nanvm
namespace RepoTests
open Ser Tok Parser

def printed (b : Nat) : Text :=
  if b = 0x3FF0_0000_0000_0000 then "1".toList
  else if b = 0x4000_0000_0000_0000 then "2".toList
  else if b = 0x4008_0000_0000_0000 then "3".toList
  else if b = 0x4010_0000_0000_0000 then "4".toList
  else "?".toList

def one' : Val := .num 0x3FF0_0000_0000_0000
def obj : Val := .obj 0 [([0x61, 0x5C, 0x62, 0x22, 31], .num 0x4000_0000_0000_0000)]

/-- `test`, to_json.rs:113-132 -/
example : toJson printed (.arr 4 [one', .bool true, .null, .arr 1 [], .str 2 [], .obj 3 [], obj]) =
    .ok "[1,true,null,[],\"\",{},{\"a\\\\b\\\"\\u001F\":2}]".toList := by decide +kernel

def a0 : Val := .arr 4 [one', .bool true, .null, .arr 1 [], .str 2 [], obj]

/-- `test`, to_djs.rs:206-230, whichever entry of the hash map comes first -/
example : ∀ i ∈ [0, 1], toDjs printed (fun _ _ => i) 5 (.arr 5 [a0, a0, obj]) false =
    .ok ("const _0={\"a\\\\b\\\"\\u001F\":2};const _1=[1,true,null,[],\"\",_0];" ++
      "export default [_1,_1,_0]").toList := by decide +kernel

/-- a run of the converter with some files: what it returns, and the written text -/
def appRun (args : List String) (files : List (String × String)) :
    Res (Except App.AppError Unit) × Option Text :=
  let r := App.run ⟨("nanvm" :: args).map String.toList, fun _ _ => true, BigFloat.toF64 4000, printed,
    fun _ _ => 0, 100, 100⟩ ⟨fun p => (files.find? fun f => f.1.toList = p).map fun f => f.2.toList, []⟩
  (r.1, r.2.files (args[1]?.getD "").toList)

def appOk (args : List String) (files : List (String × String)) (text : String) : Bool :=
  match appRun args files with
  | (.ok (.ok ()), some t) => t = text.toList
  | _ => false

def testJson : String := "{\n    \"key\": [true, false, null]\n}"

/-- `test_json`, `test_output_data_type`, app/mod.rs:78-118 -/
example :
    appOk ["test_json.json", "output.json"] [("test_json.json", testJson)]
      "{\"key\":[true,false,null]}" ∧
    appOk ["test_json.json", "output.d.cjs"] [("test_json.json", testJson)]
      "module.exports={\"key\":[true,false,null]}" ∧
    appOk ["test_json.json", "output.d.mjs"] [("test_json.json", testJson)]
      "export default {\"key\":[true,false,null]}" := by decide +kernel

/-- `test_cjs`, `test_mjs`, app/mod.rs:122-150 -/
example :
    appOk ["test_djs.d.cjs", "output.d.cjs"] [("test_djs.d.cjs", "module.exports = {\n    id: null\n}")]
      "module.exports={\"id\":null}" ∧
    appOk ["test_djs.d.mjs", "output.d.mjs"] [("test_djs.d.mjs", "export default {\n    id: null\n}")]
      "export default {\"id\":null}" := by decide +kernel

/-- `test_cjs_import`, `test_mjs_import`, app/mod.rs:154-190: the second write replaces the first, so
these tests do not import anything -/
example :
    appOk ["test_import_main.d.cjs", "output.d.cjs"] [("test_import_main.d.cjs", "module.exports = 3")]
      "module.exports=3" ∧
    appOk ["test_import_main.d.mjs", "output.d.mjs"] [("test_import_main.d.mjs", "export default 4")]
      "export default 4" := by decide +kernel

/-- `test_invalid_ouput_extension`, app/mod.rs:194-203 -/
example : (match (appRun ["test_json.json", "outputd.cjs"] [("test_json.json", testJson)]).1 with
    | .ok (.error _) => true | _ => false) = true := by decide +kernel

end RepoTests
end Nanvm
