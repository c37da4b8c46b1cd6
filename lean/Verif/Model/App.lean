import Verif.Model.Serializer
/-!
# The converter: `app/mod.rs`

Simplifications:
* The file system is a function from paths to texts; `io.write` is recorded with its arguments.  It
  may fail (`canWrite`), and then leaves the files as they are.
* `to_json` and `to_djs` return `fmt::Result`, but writing to a `String` never fails; so the
  branches `Err(e) => Err(Error::other(e))` (lines 30, 37, 44) are not modelled.
* The conversion of numbers, their printer, the order of hash maps and the fuels are parameters.
-/
namespace Nanvm
namespace App
open Tok Parser Ser

/-- the errors returned by `run`, app/mod.rs:49-51, 65, and by `io.write` -/
inductive AppError
  | extension
  | parse (e : ParseError)
  | write
deriving Repr, DecidableEq

/-- `str::ends_with` -/
def endsWith (s suffix : Text) : Bool := suffix.isSuffixOf s

/-- `file_to_data_type`, app/mod.rs:55-66 -/
def fileToDataType (s : Text) : Except AppError DataType :=
  if endsWith s ".json".toList then .ok .json
  else if endsWith s ".d.cjs".toList then .ok .cjs
  else if endsWith s ".d.mjs".toList then .ok .mjs
  else .error .extension

/-- what a run can change: the files, and the calls of `io.write` so far -/
structure World where
  files : Text → Option Text
  writes : List (Text × Text)

/-- what a run depends on besides the files -/
structure Io where
  args : List Text
  canWrite : Text → Text → Bool
  conv : BigFloat → Res Nat
  sh : Nat → Text
  pick : HMap Seen → HMap Nat → Nat
  fuelParse : Nat
  fuelDjs : Nat

/-- `io.write` -/
def ioWrite (io : Io) (path text : Text) (w : World) : Except AppError Unit × World :=
  let writes := w.writes ++ [(path, text)]
  if io.canWrite path text then
    (.ok (), ⟨fun p => if p = path then some text else w.files p, writes⟩)
  else (.error .write, ⟨w.files, writes⟩)

/-- `match to_json_result {..}`, app/mod.rs:28-31, 35-38, 42-45 -/
def writeResult (io : Io) (output : Text) (s : Res Text) (w : World) :
    Res (Except AppError Unit) × World :=
  match s with
  | .ok s =>
    let (r, w) := ioWrite io output s w
    (.ok r, w)
  | .error e => (.error e, w)

/-- `run`, app/mod.rs:14-53 -/
def run (io : Io) (w : World) : Res (Except AppError Unit) × World :=
  match io.args with
  | _ :: input :: output :: _ =>
    match fileToDataType output with
    | .ok dataType =>
      match parse ⟨w.files, io.conv, input⟩ io.fuelParse Ctx.empty with
      | .ok (_, .ok (_, any)) =>
        match dataType with
        | .json => writeResult io output (toJson io.sh any) w
        | .cjs => writeResult io output (toDjs io.sh io.pick io.fuelDjs any true) w
        | .mjs => writeResult io output (toDjs io.sh io.pick io.fuelDjs any false) w
        | .djs => (.error (.panic .unreachable), w)
      | .ok (_, .error e) => (.ok (.error (.parse e)), w)
      | .error e => (.error e, w)
    | .error e => (.ok (.error e), w)
  | _ => (.error (.panic .unwrap), w)

/-- `main`, nanvm/src/main.rs:4-6: the result of `run` is discarded (`let _ = run(..)`).  The exit
status of the process: 0 if `main` returns, 101 after a panic (Rust runtime); `none` if the run does
not end within the fuels. -/
def mainStatus (io : Io) (w : World) : Option Nat :=
  match (run io w).1 with
  | .ok _ => some 0
  | .error (.panic _) => some 101
  | .error .fuel => none

end App
end Nanvm
