import Verif.Model.Tokenizer
import Verif.Model.Utf16
/-!
# The parser: `parser/shared.rs`, `any_state.rs`, `const_state.rs`, `root_state.rs`,
`json_state.rs`, `parser.rs`

Simplifications:
* A value is a tree whose heap blocks carry the number of their allocation, so that identity of
  blocks is visible; reference counts are the subject of `Model/Graph.lean`.
* `BTreeMap<String, _>` and `BTreeSet<String>` belong to the Rust standard library; a map is a list
  of entries sorted by key, a set is a list without duplicates.  `String`s are ordered by their
  bytes, which for UTF-8 is the order by code points.
* `Io::read_to_string` is a function from paths to texts; the paths read are recorded.
* A bigint token holds a block already; here the block is allocated with the value.
-/
namespace Nanvm

/-- a JS value, `Any` (js/any.rs), as the parser builds it -/
inductive Val
  | null
  | bool (b : Bool)
  /-- the bits of a double -/
  | num (bits : Nat)
  | str (id : Nat) (s : JsStr)
  | big (id : Nat) (b : JsBig)
  | arr (id : Nat) (l : List Val)
  | obj (id : Nat) (l : List (JsStr × Val))

/-- the order of `String`s -/
def textLt : Text → Text → Bool
  | _, [] => false
  | [], _ :: _ => true
  | a :: as, b :: bs => a < b || (a = b && textLt as bs)

/-- `BTreeMap<String, T>` -/
abbrev TMap (α : Type) := List (Text × α)

/-- `BTreeMap::get` -/
def TMap.get {α : Type} (m : TMap α) (k : Text) : Option α :=
  match m with
  | [] => none
  | (k', v) :: m => if k' = k then some v else TMap.get m k

/-- `BTreeMap::insert` -/
def TMap.insert {α : Type} (m : TMap α) (k : Text) (v : α) : TMap α :=
  match m with
  | [] => [(k, v)]
  | (k', v') :: m =>
    if k = k' then (k, v) :: m
    else if textLt k k' then (k, v) :: (k', v') :: m
    else (k', v') :: TMap.insert m k v

namespace Parser
open Tok

/-- `DataType`, shared.rs:17-23 -/
inductive DataType | json | djs | cjs | mjs
deriving Repr, DecidableEq

/-- `is_djs`, shared.rs:34-36 -/
def DataType.isDjs : DataType → Bool
  | .json => false
  | _ => true

/-- `is_cjs_compatible`, shared.rs:38-40 -/
def DataType.cjsCompatible : DataType → Bool
  | .mjs => false
  | _ => true

/-- `is_mjs_compatible`, shared.rs:42-44 -/
def DataType.mjsCompatible : DataType → Bool
  | .cjs => false
  | _ => true

/-- `ParsingStatus`, shared.rs:48-62 -/
inductive Status
  | initial | arrayBegin | arrayValue | arrayComma | objectBegin | objectKey | objectColon
  | objectValue | objectComma | importBegin | importValue | importEnd
deriving Repr, DecidableEq

/-- `ParseError`, shared.rs:65-75 -/
inductive ParseError
  | unexpectedToken | unexpectedEnd | wrongExportStatement | wrongConstStatement
  | wrongRequireStatement | wrongImportStatement | cannotReadFile | circularDependency
  | newLineExpected
deriving Repr, DecidableEq

/-- `JsonStackElement`, `JsonStackObject`, shared.rs:107-115 -/
inductive Frame
  | object (map : TMap Val) (key : Text)
  | array (l : List Val)

/-- `JsonElement`, shared.rs:117-121 -/
inductive Elem
  | none
  | stack (f : Frame)
  | any (v : Val)

/-- `AnyState`, any_state.rs:27-33; the top of the stack comes first -/
structure AnyState where
  dataType : DataType
  status : Status
  current : Elem
  stack : List Frame
  consts : TMap Val

/-- `AnyState::default`, any_state.rs:35-45 -/
def AnyState.default : AnyState := ⟨.json, .initial, .none, [], []⟩

/-- `AnyResult`, any_state.rs:21-25 -/
inductive AnyResult
  | cont (st : AnyState)
  | success (st : AnyState) (v : Val)
  | error (e : ParseError)

/-- `try_id_to_any`, shared.rs:141-153 -/
def tryIdToAny (s : Text) (consts : TMap Val) : Option Val :=
  if s = "null".toList then some .null
  else if s = "true".toList then some (.bool true)
  else if s = "false".toList then some (.bool false)
  else consts.get s

/-- `try_to_any`, shared.rs:155-169; `n` is the number of the next allocation -/
def tryToAny (n : Nat) (t : Token) (consts : TMap Val) : Option (Val × Nat) :=
  match t with
  | .number f => some (.num f, n)
  | .string s => some (.str n (toJsString s), n + 1)
  | .id s => (tryIdToAny s consts).map fun v => (v, n)
  | .bigInt b => some (.big n b, n + 1)
  | _ => none

/-- `push_value`, any_state.rs:209-242 -/
def pushValue (st : AnyState) (v : Val) : Res AnyResult :=
  match st.current with
  | .none => .ok (.success { st with status := .initial } v)
  | .stack (.array l) =>
    .ok (.cont { st with status := .arrayValue, current := .stack (.array (l ++ [v])) })
  | .stack (.object map key) =>
    .ok (.cont { st with
      status := .objectValue, current := .stack (.object (map.insert key v) []) })
  | .any _ => .error (.panic .todo)

/-- `if let JsonElement::Stack(top) = self.current { self.stack.push(top) }` -/
def saveTop (st : AnyState) : List Frame :=
  match st.current with
  | .stack top => top :: st.stack
  | _ => st.stack

/-- `let current = match self.stack.pop() {..}` -/
def popTop (st : AnyState) : AnyState :=
  match st.stack with
  | f :: stack => { st with current := .stack f, stack }
  | [] => { st with current := .none }

/-- `begin_import`, any_state.rs:162-172 -/
def beginImport (st : AnyState) : AnyResult :=
  .cont { st with
    dataType := .cjs, status := .importBegin, current := .none, stack := saveTop st }

/-- `end_import`, any_state.rs:174-190 -/
def endImport (st : AnyState) : Res AnyResult :=
  match st.current with
  | .any v => pushValue { popTop st with status := .initial } v
  | _ => .error (.panic .unreachable)

/-- `parse_import_begin`, any_state.rs:126-134 -/
def parseImportBegin (st : AnyState) (t : Token) : AnyResult :=
  match t with
  | .openingParenthesis => .cont { st with status := .importValue }
  | _ => .error .wrongRequireStatement

/-- `parse_import_end`, any_state.rs:136-141 -/
def parseImportEnd (st : AnyState) (t : Token) : Res AnyResult :=
  match t with
  | .closingParenthesis => endImport st
  | _ => .ok (.error .wrongRequireStatement)

/-- `begin_array`, any_state.rs:305-315 -/
def beginArray (st : AnyState) : AnyResult :=
  .cont { st with status := .arrayBegin, current := .stack (.array []), stack := saveTop st }

/-- `end_array`, any_state.rs:317-330 -/
def endArray (n : Nat) (st : AnyState) : Res (AnyResult × Nat) :=
  match st.current with
  | .stack (.array l) => do return (← pushValue (popTop st) (.arr n l), n + 1)
  | _ => .error (.panic .unreachable)

/-- `begin_object`, any_state.rs:370-383 -/
def beginObject (st : AnyState) : AnyResult :=
  .cont { st with status := .objectBegin, current := .stack (.object [] []), stack := saveTop st }

/-- `end_object`, any_state.rs:385-403 (the blocks of the keys are not numbered) -/
def endObject (n : Nat) (st : AnyState) : Res (AnyResult × Nat) :=
  match st.current with
  | .stack (.object map _) => do
    return (← pushValue (popTop st) (.obj n (map.map fun kv => (toJsString kv.1, kv.2))), n + 1)
  | _ => .error (.panic .unreachable)

/-- `push_key`, any_state.rs:244-259 -/
def pushKey (st : AnyState) (s : Text) : AnyResult :=
  match st.current with
  | .stack (.object map _) =>
    .cont { st with status := .objectKey, current := .stack (.object map s) }
  | _ => .error .unexpectedToken

/-- `match token.try_to_any(..) {..}`, the common last branch -/
def pushToken (n : Nat) (st : AnyState) (t : Token) : Res (AnyResult × Nat) :=
  match tryToAny n t st.consts with
  | some (v, n) => do return (← pushValue st v, n)
  | none => .ok (.error .unexpectedToken, n)

/-- `parse_value`, any_state.rs:192-207 -/
def parseValue (n : Nat) (st : AnyState) (t : Token) : Res (AnyResult × Nat) :=
  match t with
  | .arrayBegin => .ok (beginArray st, n)
  | .objectBegin => .ok (beginObject st, n)
  | .id s =>
    if st.dataType.cjsCompatible ∧ s = "require".toList then .ok (beginImport st, n)
    else pushToken n st t
  | _ => pushToken n st t

/-- `parse_array_comma`, any_state.rs:261-277 -/
def parseArrayComma (n : Nat) (st : AnyState) (t : Token) : Res (AnyResult × Nat) :=
  match t with
  | .arrayBegin => .ok (beginArray st, n)
  | .objectBegin => .ok (beginObject st, n)
  | .id s =>
    if st.dataType = .cjs ∧ s = "require".toList then .ok (beginImport st, n)
    else pushToken n st t
  | .arrayEnd => endArray n st
  | _ => pushToken n st t

/-- `parse_array_begin`, any_state.rs:279-292 -/
def parseArrayBegin (n : Nat) (st : AnyState) (t : Token) : Res (AnyResult × Nat) :=
  match t with
  | .arrayBegin => .ok (beginArray st, n)
  | .arrayEnd => endArray n st
  | .objectBegin => .ok (beginObject st, n)
  | _ => pushToken n st t

/-- `parse_array_value`, any_state.rs:294-303 -/
def parseArrayValue (n : Nat) (st : AnyState) (t : Token) : Res (AnyResult × Nat) :=
  match t with
  | .arrayEnd => endArray n st
  | .comma => .ok (.cont { st with status := .arrayComma }, n)
  | _ => .ok (.error .unexpectedToken, n)

/-- `parse_object_begin`, any_state.rs:332-339 -/
def parseObjectBegin (n : Nat) (st : AnyState) (t : Token) : Res (AnyResult × Nat) :=
  match t with
  | .string s => .ok (pushKey st s, n)
  | .id s => if st.dataType.isDjs then .ok (pushKey st s, n) else .ok (.error .unexpectedToken, n)
  | .objectEnd => endObject n st
  | _ => .ok (.error .unexpectedToken, n)

/-- `parse_object_next`, any_state.rs:341-350 -/
def parseObjectNext (n : Nat) (st : AnyState) (t : Token) : Res (AnyResult × Nat) :=
  match t with
  | .objectEnd => endObject n st
  | .comma => .ok (.cont { st with status := .objectComma }, n)
  | _ => .ok (.error .unexpectedToken, n)

/-- `parse_object_comma`, any_state.rs:352-358 -/
def parseObjectComma (n : Nat) (st : AnyState) (t : Token) : Res (AnyResult × Nat) :=
  match t with
  | .string s => .ok (pushKey st s, n)
  | .objectEnd => endObject n st
  | _ => .ok (.error .unexpectedToken, n)

/-- `parse_object_key`, any_state.rs:360-368 -/
def parseObjectKey (st : AnyState) (t : Token) : AnyResult :=
  match t with
  | .colon => .cont { st with status := .objectColon }
  | _ => .error .unexpectedToken

/-- the branches that `AnyState::parse` (any_state.rs:70-93) and `any_state_parse`
(parser.rs:130-150) have in common; `importValue` is the branch they do not -/
def dispatch {α : Type} (n : Nat) (st : AnyState) (t : Token) (f : AnyResult × Nat → α)
    (importValue : Res α) : Res α :=
  match st.status with
  | .initial | .objectColon => do return f (← parseValue n st t)
  | .arrayBegin => do return f (← parseArrayBegin n st t)
  | .arrayValue => do return f (← parseArrayValue n st t)
  | .arrayComma => do return f (← parseArrayComma n st t)
  | .objectBegin => do return f (← parseObjectBegin n st t)
  | .objectKey => .ok (f (parseObjectKey st t, n))
  | .objectValue => do return f (← parseObjectNext n st t)
  | .objectComma => do return f (← parseObjectComma n st t)
  | .importBegin => .ok (f (parseImportBegin st t, n))
  | .importValue => importValue
  | .importEnd => do return f (← parseImportEnd st t, n)

/-- `parse_import_value`, any_state.rs:143-160 -/
def parseImportValue (st : AnyState) (t : Token) : AnyResult × Option Text :=
  match t with
  | .string s => (.cont { st with status := .importEnd }, some s)
  | _ => (.error .wrongRequireStatement, none)

/-- `AnyState::parse`, any_state.rs:70-93 -/
def AnyState.parse (n : Nat) (st : AnyState) (t : Token) : Res ((AnyResult × Option Text) × Nat) :=
  dispatch n st t (fun r => ((r.1, none), r.2)) (.ok (parseImportValue st t, n))

/-- `RootStatus`, root_state.rs:6-18 -/
inductive RootStatus
  | initial | export_ | module | moduleDot | moduleDotExports | const_ | constId (s : Text)
  | import_ | importId (s : Text) | importIdFrom (s : Text)
deriving Repr, DecidableEq

/-- `RootState`, root_state.rs:20-24 -/
structure RootState where
  status : RootStatus
  state : AnyState
  newLine : Bool

/-- `JsonState`, json_state.rs:9-15 -/
inductive JState
  | parseRoot (r : RootState)
  | parseConst (key : Text) (st : AnyState)
  | parseModule (st : AnyState)
  | result (dt : DataType) (v : Val)
  | error (e : ParseError)

/-- the last match of `parse_for_module`, any_state.rs:112-122 and parser.rs:73-80 -/
def forModule (r : AnyResult) : JState :=
  match r with
  | .cont st => .parseModule st
  | .success st v => .result st.dataType v
  | .error e => .error e

/-- `parse_for_module`, any_state.rs:95-124 -/
def parseForModule (n : Nat) (st : AnyState) (t : Token) : Res ((JState × Option Text) × Nat) := do
  let ((r, name), n) ← st.parse n t
  match name with
  | some name =>
    match r with
    | .cont st => return ((.parseModule st, some name), n)
    | _ => .error (.panic .explicit)
  | none => return ((forModule r, none), n)

/-- `RootState::parse`, root_state.rs:26-191 -/
def RootState.parse (n : Nat) (r : RootState) (t : Token) :
    Res ((JState × Option (Text × Text)) × Nat) :=
  let root (status : RootStatus) (state : AnyState) :
      Res ((JState × Option (Text × Text)) × Nat) :=
    .ok ((.parseRoot ⟨status, state, false⟩, none), n)
  let err (e : ParseError) : Res ((JState × Option (Text × Text)) × Nat) :=
    .ok ((.error e, none), n)
  let value : Res ((JState × Option (Text × Text)) × Nat) := do
    let ((j, _), n) ← parseForModule n r.state t
    return ((j, none), n)
  match r.status with
  | .initial =>
    match t with
    | .newLine => .ok ((.parseRoot { r with newLine := true }, none), n)
    | .id s =>
      if r.newLine then
        if s = "const".toList then root .const_ { r.state with dataType := .djs }
        else if s = "export".toList ∧ r.state.dataType.mjsCompatible then
          root .export_ { r.state with dataType := .mjs }
        else if s = "module".toList ∧ r.state.dataType.cjsCompatible then
          root .module { r.state with dataType := .cjs }
        else if s = "import".toList ∧ r.state.dataType.mjsCompatible then
          root .import_ { r.state with dataType := .mjs }
        else value
      else err .newLineExpected
    | _ => if r.newLine then value else err .newLineExpected
  | .export_ =>
    match t with
    | .id s =>
      if s = "default".toList then .ok ((.parseModule r.state, none), n)
      else err .wrongExportStatement
    | _ => err .wrongExportStatement
  | .module =>
    match t with
    | .dot => root .moduleDot r.state
    | _ => err .wrongExportStatement
  | .moduleDot =>
    match t with
    | .id s =>
      if s = "exports".toList then root .moduleDotExports r.state else err .wrongExportStatement
    | _ => err .wrongExportStatement
  | .moduleDotExports =>
    match t with
    | .equals => .ok ((.parseModule r.state, none), n)
    | _ => err .wrongExportStatement
  | .const_ =>
    match t with
    | .id s => root (.constId s) r.state
    | _ => err .wrongConstStatement
  | .constId s =>
    match t with
    | .equals => .ok ((.parseConst s r.state, none), n)
    | _ => err .wrongConstStatement
  | .import_ =>
    match t with
    | .id s => root (.importId s) r.state
    | _ => err .wrongImportStatement
  | .importId id =>
    match t with
    | .id s => if s = "from".toList then root (.importIdFrom id) r.state else err .wrongImportStatement
    | _ => err .wrongImportStatement
  | .importIdFrom id =>
    match t with
    | .string module =>
      .ok ((.parseRoot { r with status := .initial, newLine := false }, some (id, module)), n)
    | _ => err .wrongImportStatement

/-- the match on the result in `ConstState::parse`, const_state.rs:21-35, and
`const_state_parse`, parser.rs:48-62 -/
def constResult (key : Text) (r : AnyResult) : JState :=
  match r with
  | .cont st => .parseConst key st
  | .success st v =>
    .parseRoot ⟨.initial, { st with consts := st.consts.insert key v }, false⟩
  | .error e => .error e

/-- `ConstState::parse`, const_state.rs:13-38 -/
def constParse (n : Nat) (key : Text) (st : AnyState) (t : Token) : Res (JState × Nat) :=
  match t with
  | .semicolon => .error (.panic .todo)
  | _ => do
    let ((r, _), n) ← st.parse n t
    return (constResult key r, n)

/-- `JsonState::push`, json_state.rs:18-43 (the parser without files) -/
def JState.push (n : Nat) (j : JState) (t : Token) : Res ((JState × Option (Text × Text)) × Nat) :=
  match t with
  | .newLine =>
    match j with
    | .parseRoot r => r.parse n t
    | _ => .ok ((j, none), n)
  | _ =>
    match j with
    | .parseRoot r => r.parse n t
    | .parseConst key st => do
      let (j, n) ← constParse n key st t
      return ((j, none), n)
    | .result _ _ => .ok ((.error .unexpectedToken, none), n)
    | .parseModule st => do
      let ((j, _), n) ← parseForModule n st t
      return ((j, none), n)
    | .error _ => .ok ((j, none), n)

/-- `Result<ParseResult, ParseError>` -/
abbrev Outcome := Except ParseError (DataType × Val)

/-- `JsonState::end`, json_state.rs:45-51 -/
def JState.end_ (j : JState) : Outcome :=
  match j with
  | .result dt v => .ok (dt, v)
  | .error e => .error e
  | _ => .error .unexpectedEnd

/-! ## With files: `parser.rs` -/

/-- the mutable part of `Context` (parser.rs:16-21) with `ModuleCache` (shared.rs:93-96), the
number of the next allocation, and the paths read so far, last first -/
structure Ctx where
  complete : TMap Val
  progress : List Text
  next : Nat
  reads : List Text

/-- `ModuleCache::default`, shared.rs:98-105 -/
def Ctx.empty : Ctx := ⟨[], [], 0, []⟩

/-- `BTreeSet::insert` -/
def setInsert (s : List Text) (k : Text) : List Text := if k ∈ s then s else k :: s
/-- `BTreeSet::remove` -/
def setRemove (s : List Text) (k : Text) : List Text := s.filter (· ≠ k)

/-- what does not change during a parse: the files, the conversion of numbers, `Context::path` -/
structure Env where
  fs : Text → Option Text
  conv : BigFloat → Res Nat
  path : Text

/-- `concat(split(&context.path).0, s)`, parser.rs:90 and 162 -/
def Env.resolve (env : Env) (s : Text) : Text := Path.concat (Path.split env.path).1 s

/-- parsing the tokens of a module: `parse_with_tokens` -/
abbrev ParseTokens := Ctx → List Token → Res (Ctx × Outcome)

/-- the common part of `any_state_parse_import_value` (parser.rs:90-123) and `root_state_parse`
(parser.rs:162-197): the value of the module named `s` -/
def importModule (env : Env) (self : ParseTokens) (ctx : Ctx) (s : Text) :
    Res (Ctx × Except ParseError Val) :=
  let path := env.resolve s
  match ctx.complete.get path with
  | some v => .ok (ctx, .ok v)
  | none =>
    if path ∈ ctx.progress then .ok (ctx, .error .circularDependency)
    else
      let ctx := { ctx with
        progress := setInsert ctx.progress path, reads := path :: ctx.reads }
      match env.fs path with
      | some text => do
        let tokens ← tokenize env.conv text
        let (ctx, r) ← self ctx tokens
        match r with
        | .ok (_, v) =>
          return ({ ctx with
            progress := setRemove ctx.progress path,
            complete := ctx.complete.insert path v }, .ok v)
        | .error e => return (ctx, .error e)
      | none => .ok (ctx, .error .cannotReadFile)

/-- `any_state_parse_import_value`, parser.rs:83-128 -/
def importValue (env : Env) (self : ParseTokens) (ctx : Ctx) (st : AnyState) (t : Token) :
    Res (Ctx × AnyResult) :=
  match t with
  | .string s => do
    let (ctx, r) ← importModule env self ctx s
    match r with
    | .ok v => return (ctx, .cont { st with status := .importEnd, current := .any v })
    | .error e => return (ctx, .error e)
  | _ => .ok (ctx, .error .wrongRequireStatement)

/-- `any_state_parse`, parser.rs:130-150 -/
def anyParse (env : Env) (self : ParseTokens) (ctx : Ctx) (st : AnyState) (t : Token) :
    Res (Ctx × AnyResult) :=
  dispatch ctx.next st t (fun r => ({ ctx with next := r.2 }, r.1)) (importValue env self ctx st t)

/-- `root_state_parse`, parser.rs:152-203 -/
def rootParse (env : Env) (self : ParseTokens) (ctx : Ctx) (r : RootState) (t : Token) :
    Res (Ctx × JState) := do
  let ((j, imp), n) ← r.parse ctx.next t
  let ctx := { ctx with next := n }
  match imp with
  | none => return (ctx, j)
  | some (id, module) =>
    match j with
    | .parseRoot r =>
      let (ctx, v) ← importModule env self ctx module
      match v with
      | .ok v =>
        return (ctx, .parseRoot
          ⟨.initial, { r.state with consts := r.state.consts.insert id v }, false⟩)
      | .error e => return (ctx, .error e)
    | _ => .error (.panic .explicit)

/-- `any_state_parse_for_module`, parser.rs:67-81 -/
def moduleParse (env : Env) (self : ParseTokens) (ctx : Ctx) (st : AnyState) (t : Token) :
    Res (Ctx × JState) := do
  let (ctx, r) ← anyParse env self ctx st t
  return (ctx, forModule r)

/-- `const_state_parse`, parser.rs:39-65 -/
def constStateParse (env : Env) (self : ParseTokens) (ctx : Ctx) (key : Text) (st : AnyState)
    (t : Token) : Res (Ctx × JState) :=
  match t with
  | .semicolon => .error (.panic .todo)
  | _ => do
    let (ctx, r) ← anyParse env self ctx st t
    return (ctx, constResult key r)

/-- `json_state_push`, parser.rs:205-223 -/
def jsonPush (env : Env) (self : ParseTokens) (ctx : Ctx) (j : JState) (t : Token) :
    Res (Ctx × JState) :=
  match t with
  | .newLine =>
    match j with
    | .parseRoot r => rootParse env self ctx r t
    | _ => .ok (ctx, j)
  | _ =>
    match j with
    | .parseRoot r => rootParse env self ctx r t
    | .result _ _ => .ok (ctx, .error .unexpectedToken)
    | .parseModule st => moduleParse env self ctx st t
    | .parseConst key st => constStateParse env self ctx key st t
    | .error _ => .ok (ctx, j)

/-- the loop of `parse_with_tokens`, parser.rs:248-250 -/
def pushAll (env : Env) (self : ParseTokens) (ctx : Ctx) (j : JState) :
    List Token → Res (Ctx × JState)
  | [] => .ok (ctx, j)
  | t :: ts => do
    let (ctx, j) ← jsonPush env self ctx j t
    pushAll env self ctx j ts

/-- the first state, parser.rs:243-247 -/
def JState.start : JState := .parseRoot ⟨.initial, AnyState.default, true⟩

/-- `parse_with_tokens`, parser.rs:239-252; the fuel bounds the nesting of modules -/
def parseWithTokens (env : Env) : Nat → ParseTokens
  | 0 => fun _ _ => .error .fuel
  | fuel + 1 => fun ctx ts => do
    let (ctx, j) ← pushAll env (parseWithTokens env fuel) ctx JState.start ts
    return (ctx, j.end_)

/-- `parse`, parser.rs:225-237 -/
def parse (env : Env) (fuel : Nat) (ctx : Ctx) : Res (Ctx × Outcome) :=
  let ctx := { ctx with
    progress := setInsert ctx.progress env.path, reads := env.path :: ctx.reads }
  match env.fs env.path with
  | some text => do
    let tokens ← tokenize env.conv text
    parseWithTokens env fuel ctx tokens
  | none => .ok (ctx, .error .cannotReadFile)

end Parser
end Nanvm
