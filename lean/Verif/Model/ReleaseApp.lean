import Verif.Model.App
import Verif.Model.ReleaseFloat
/-!
# Release builds: `parser/parser.rs` and `app/mod.rs`

The functions of `Model/Parser.lean` and `Model/App.lean` that read files, with the tokenizer of a
release build (`tokenizeR`).  Nothing else that they call does arithmetic that may overflow: the
states of the parser (`RootState.parse`, `dispatch`, `forModule`, `constResult`) and the serializers
are those of the debug build.  The conversion of numbers is a parameter, as in the debug build.
-/
namespace Nanvm
namespace Parser
open Tok

/-- the common part of `any_state_parse_import_value` (parser.rs:90-123) and `root_state_parse`
(parser.rs:162-197) -/
def importModuleR (env : Env) (self : ParseTokens) (ctx : Ctx) (s : Text) :
    Res (Ctx × Except ParseError Val) :=
  let path := env.resolve s
  match ctx.complete.get path with
  | some v => .ok (ctx, .ok v)
  | none =>
    if path ∈ ctx.progress then .ok (ctx, .error .circularDependency)
    else
      let ctx := { ctx with
        progress := setInsert ctx.progress path, reads := path :: ctx.reads }
      match env.fs path with
      | some text => do
        let tokens ← tokenizeR env.conv text
        let (ctx, r) ← self ctx tokens
        match r with
        | .ok (_, v) =>
          return ({ ctx with
            progress := setRemove ctx.progress path,
            complete := ctx.complete.insert path v }, .ok v)
        | .error e => return (ctx, .error e)
      | none => .ok (ctx, .error .cannotReadFile)

/-- `any_state_parse_import_value`, parser.rs:83-128 -/
def importValueR (env : Env) (self : ParseTokens) (ctx : Ctx) (st : AnyState) (t : Token) :
    Res (Ctx × AnyResult) :=
  match t with
  | .string s => do
    let (ctx, r) ← importModuleR env self ctx s
    match r with
    | .ok v => return (ctx, .cont { st with status := .importEnd, current := .any v })
    | .error e => return (ctx, .error e)
  | _ => .ok (ctx, .error .wrongRequireStatement)

/-- `any_state_parse`, parser.rs:130-150 -/
def anyParseR (env : Env) (self : ParseTokens) (ctx : Ctx) (st : AnyState) (t : Token) :
    Res (Ctx × AnyResult) :=
  dispatch ctx.next st t (fun r => ({ ctx with next := r.2 }, r.1)) (importValueR env self ctx st t)

/-- `root_state_parse`, parser.rs:152-203 -/
def rootParseR (env : Env) (self : ParseTokens) (ctx : Ctx) (r : RootState) (t : Token) :
    Res (Ctx × JState) := do
  let ((j, imp), n) ← r.parse ctx.next t
  let ctx := { ctx with next := n }
  match imp with
  | none => return (ctx, j)
  | some (id, module) =>
    match j with
    | .parseRoot r =>
      let (ctx, v) ← importModuleR env self ctx module
      match v with
      | .ok v =>
        return (ctx, .parseRoot
          ⟨.initial, { r.state with consts := r.state.consts.insert id v }, false⟩)
      | .error e => return (ctx, .error e)
    | _ => .error (.panic .explicit)

/-- `any_state_parse_for_module`, parser.rs:67-81 -/
def moduleParseR (env : Env) (self : ParseTokens) (ctx : Ctx) (st : AnyState) (t : Token) :
    Res (Ctx × JState) := do
  let (ctx, r) ← anyParseR env self ctx st t
  return (ctx, forModule r)

/-- `const_state_parse`, parser.rs:39-65 -/
def constStateParseR (env : Env) (self : ParseTokens) (ctx : Ctx) (key : Text) (st : AnyState)
    (t : Token) : Res (Ctx × JState) :=
  match t with
  | .semicolon => .error (.panic .todo)
  | _ => do
    let (ctx, r) ← anyParseR env self ctx st t
    return (ctx, constResult key r)

/-- `json_state_push`, parser.rs:205-223 -/
def jsonPushR (env : Env) (self : ParseTokens) (ctx : Ctx) (j : JState) (t : Token) :
    Res (Ctx × JState) :=
  match t with
  | .newLine =>
    match j with
    | .parseRoot r => rootParseR env self ctx r t
    | _ => .ok (ctx, j)
  | _ =>
    match j with
    | .parseRoot r => rootParseR env self ctx r t
    | .result _ _ => .ok (ctx, .error .unexpectedToken)
    | .parseModule st => moduleParseR env self ctx st t
    | .parseConst key st => constStateParseR env self ctx key st t
    | .error _ => .ok (ctx, j)

/-- the loop of `parse_with_tokens`, parser.rs:248-250 -/
def pushAllR (env : Env) (self : ParseTokens) (ctx : Ctx) (j : JState) :
    List Token → Res (Ctx × JState)
  | [] => .ok (ctx, j)
  | t :: ts => do
    let (ctx, j) ← jsonPushR env self ctx j t
    pushAllR env self ctx j ts

/-- `parse_with_tokens`, parser.rs:239-252 -/
def parseWithTokensR (env : Env) : Nat → ParseTokens
  | 0 => fun _ _ => .error .fuel
  | fuel + 1 => fun ctx ts => do
    let (ctx, j) ← pushAllR env (parseWithTokensR env fuel) ctx JState.start ts
    return (ctx, j.end_)

/-- `parse`, parser.rs:225-237 -/
def parseR (env : Env) (fuel : Nat) (ctx : Ctx) : Res (Ctx × Outcome) :=
  let ctx := { ctx with
    progress := setInsert ctx.progress env.path, reads := env.path :: ctx.reads }
  match env.fs env.path with
  | some text => do
    let tokens ← tokenizeR env.conv text
    parseWithTokensR env fuel ctx tokens
  | none => .ok (ctx, .error .cannotReadFile)

end Parser

namespace App
open Tok Parser Ser

/-- `run`, app/mod.rs:14-53 -/
def runR (io : Io) (w : World) : Res (Except AppError Unit) × World :=
  match io.args with
  | _ :: input :: output :: _ =>
    match fileToDataType output with
    | .ok dataType =>
      match parseR ⟨w.files, io.conv, input⟩ io.fuelParse Ctx.empty with
      | .ok (_, .ok (_, any)) =>
        match dataType with
        | .json => writeResult io output (toJson io.sh any) w
        | .cjs => writeResult io output (toDjs io.sh io.pick io.fuelDjs any true) w
        | .mjs => writeResult io output (toDjs io.sh io.pick io.fuelDjs any false) w
        | .djs => (.error (.panic .unreachable), w)
      | .ok (_, .error e) => (.ok (.error (.parse e)), w)
      | .error e => (.error e, w)
    | .error e => (.ok (.error e), w)
  | _ => (.error (.panic .unwrap), w)

end App
end Nanvm
