import Verif.Model.Parser
/-!
# The serializers: `serializer/to_json.rs`, `serializer/to_djs.rs`

Simplifications:
* The target of `fmt::Write` is a `String` (`to_json`, `to_djs`), whose `write_str` never fails, so
  a writer is a function giving the text it appends; a panic loses the text.
* `f64::to_string` belongs to the Rust standard library: the parameter `sh`, from the bits of a
  double to a text.
* `usize::to_string` is `Nat.toDigits 10`.
* A value is a tree whose blocks carry their numbers (`Model/Parser.lean`); a block that is used
  several times occurs several times with the same number.  The 64-bit word of an `Any`, by which
  `Any`s are compared and hashed (optional_ref.rs:16-30, any_internal.rs:24-36), is `Val.word`.
* `HashMap<Any, T>` is a list of entries; the entry that the iterator yields first (`peek`) is
  chosen by a parameter.
-/
namespace Nanvm
namespace Ser

/-! ## to_json.rs -/

/-- the table of `write_u4_hex`, to_json.rs:24 -/
def hexDigits : Text := "0123456789ABCDEF".toList

/-- `write_u4_hex`, to_json.rs:23-25 -/
def writeU4Hex (v : Nat) : Res Char := idx hexDigits (v &&& 0xF)

/-- `write_js_escape`, to_json.rs:27-33 -/
def writeJsEscape (c : Nat) : Res Text := do
  return ['\\', 'u', ← writeU4Hex (c >>> 12), ← writeU4Hex (c >>> 8), ← writeU4Hex (c >>> 4),
    ← writeU4Hex c]

/-- the body of the loop of `write_js_string`, to_json.rs:39-53; `c` is a `u16` -/
def writeUnit (c : Nat) : Res Text :=
  if c < 0x80 then
    if c = 0x5C then .ok ['\\', '\\']
    else if c = 0x22 then .ok ['\\', '"']
    else if c = 0x08 then .ok ['\\', 'b']
    else if c = 0x0C then .ok ['\\', 'f']
    else if c = 0x0A then .ok ['\\', 'n']
    else if c = 0x0D then .ok ['\\', 'r']
    else if c = 0x09 then .ok ['\\', 't']
    else if c < 0x20 then writeJsEscape c
    else .ok [Char.ofNat c]
  else writeJsEscape c

/-- the loop of `write_js_string`, to_json.rs:38-54 -/
def writeUnits : JsStr → Res Text
  | [] => .ok []
  | c :: cs => do return (← writeUnit c) ++ (← writeUnits cs)

/-- `write_js_string`, to_json.rs:36-56 -/
def writeJsString (s : JsStr) : Res Text := do return '"' :: ((← writeUnits s) ++ ['"'])

/-- the loop of `write_list`, to_json.rs:67-71, over the texts of the items -/
def writeListLoop (comma : Text) : List Text → Text
  | [] => []
  | i :: is => comma ++ (i ++ writeListLoop [','] is)

/-- `write_list`, to_json.rs:58-73 -/
def writeList (open_ close : Char) (items : List Text) : Text :=
  open_ :: (writeListLoop [] items ++ [close])

/-- `if b { "true" } else { "false" }`, to_json.rs:80 -/
def boolText (b : Bool) : Text := if b then "true".toList else "false".toList

mutual
/-- `write_json`, to_json.rs:75-90 -/
def writeJson (sh : Nat → Text) : Val → Res Text
  | .num b => .ok (sh b)
  | .null => .ok "null".toList
  | .bool b => .ok (boolText b)
  | .str _ s => writeJsString s
  | .obj _ l => do return writeList '{' '}' (← jsonMembers sh l)
  | .arr _ l => do return writeList '[' ']' (← jsonItems sh l)
  | .big _ _ => .error (.panic .todo)

/-- the items of an array, to_json.rs:87 -/
def jsonItems (sh : Nat → Text) : List Val → Res (List Text)
  | [] => .ok []
  | v :: vs => do return (← writeJson sh v) :: (← jsonItems sh vs)

/-- the members of an object, to_json.rs:82-86 -/
def jsonMembers (sh : Nat → Text) : List (JsStr × Val) → Res (List Text)
  | [] => .ok []
  | (k, v) :: l => do
    return ((← writeJsString k) ++ ':' :: (← writeJson sh v)) :: (← jsonMembers sh l)
end

/-- `to_json`, to_json.rs:95-99 -/
def toJson (sh : Nat → Text) (v : Val) : Res Text := writeJson sh v

/-! ## to_djs.rs -/

/-- the word of an `Any`: a constant, or a tag and the address of a block -/
inductive _root_.Nanvm.Word
  | null | bool (b : Bool) | num (bits : Nat) | str (id : Nat) | big (id : Nat) | arr (id : Nat)
  | obj (id : Nat)
deriving Repr, DecidableEq

/-- the word of a value, by which `Any`s are compared -/
def _root_.Nanvm.Val.word : Val → Word
  | .null => .null
  | .bool b => .bool b
  | .num b => .num b
  | .str i _ => .str i
  | .big i _ => .big i
  | .arr i _ => .arr i
  | .obj i _ => .obj i

/-- `HashMap<Any, T>` -/
abbrev HMap (α : Type) := List (Val × α)

/-- `HashMap::get` -/
def HMap.get {α : Type} (m : HMap α) (w : Word) : Option α :=
  match m with
  | [] => none
  | (k, a) :: m => if k.word = w then some a else HMap.get m w

/-- `HashMap::insert` -/
def HMap.insert {α : Type} (m : HMap α) (v : Val) (a : α) : HMap α :=
  match m with
  | [] => [(v, a)]
  | (k, b) :: m => if k.word = v.word then (k, a) :: m else (k, b) :: HMap.insert m v a

/-- `HashMap::remove` -/
def HMap.remove {α : Type} (m : HMap α) (w : Word) : HMap α := m.filter fun x => x.1.word ≠ w

/-- `Seen`, to_djs.rs:19-23 -/
inductive Seen | once | repeatedly
deriving Repr, DecidableEq

/-- `ConstTracker::is_visited`, to_djs.rs:40-49 -/
def isVisited (m : HMap Seen) (v : Val) : Bool × HMap Seen :=
  match m.get v.word with
  | some _ => (true, m.insert v .repeatedly)
  | none => (false, m.insert v .once)

mutual
/-- `ConstTracker::track_consts_for_any`, to_djs.rs:53-63 -/
def track (m : HMap Seen) : Val → HMap Seen
  | .arr i l =>
    match isVisited m (.arr i l) with
    | (true, m) => m
    | (false, m) => trackItems m l
  | .obj i l =>
    match isVisited m (.obj i l) with
    | (true, m) => m
    | (false, m) => trackMembers m l
  | _ => m

/-- `for_each` over an array, any.rs:107-112 -/
def trackItems (m : HMap Seen) : List Val → HMap Seen
  | [] => m
  | v :: vs => trackItems (track m v) vs

/-- `for_each` over an object, any.rs:101-106 -/
def trackMembers (m : HMap Seen) : List (JsStr × Val) → HMap Seen
  | [] => m
  | (_, v) :: l => trackMembers (track m v) l
end

/-- `usize::to_string` -/
def decimal (n : Nat) : Text := Nat.toDigits 10 n

/-- the name of a constant, to_djs.rs:76-77, 132-133, 149-150 -/
def constName (n : Nat) : Text := '_' :: decimal n

mutual
/-- `write_with_const_refs`, to_djs.rs:124-162 -/
def writeWithConstRefs (sh : Nat → Text) (refs : HMap Nat) : Val → Res Text
  | .obj i l =>
    match refs.get (.obj i) with
    | some n => .ok (constName n)
    | none => do return writeList '{' '}' (← refMembers sh refs l)
  | .arr i l =>
    match refs.get (.arr i) with
    | some n => .ok (constName n)
    | none => do return writeList '[' ']' (← refItems sh refs l)
  | v => writeJson sh v

/-- the items of an array, to_djs.rs:156 -/
def refItems (sh : Nat → Text) (refs : HMap Nat) : List Val → Res (List Text)
  | [] => .ok []
  | v :: vs => do return (← writeWithConstRefs sh refs v) :: (← refItems sh refs vs)

/-- the members of an object, to_djs.rs:139-143 -/
def refMembers (sh : Nat → Text) (refs : HMap Nat) : List (JsStr × Val) → Res (List Text)
  | [] => .ok []
  | (k, v) :: l => do
    return ((← writeJsString k) ++ ':' :: (← writeWithConstRefs sh refs v)) ::
      (← refMembers sh refs l)
end

/-- the text written so far, `to_be_consts` and `const_refs` -/
structure St where
  out : Text
  todo : HMap Seen
  refs : HMap Nat

/-- the second half of `write_compound_const`, to_djs.rs:74-84 -/
def defineConst (sh : Nat → Text) (v : Val) (st : St) : Res St :=
  match st.todo.get v.word with
  | some _ => do
    let id := st.refs.length
    let t ← writeWithConstRefs sh st.refs v
    return ⟨st.out ++ ("const _".toList ++ (decimal id ++ '=' :: (t ++ [';']))),
      st.todo.remove v.word, st.refs.insert v id⟩
  | none => .ok st

mutual
/-- `write_consts_and_any`, to_djs.rs:90-103, with `write_compound_const`, lines 67-85 -/
def writeConstsAndAny (sh : Nat → Text) : Val → St → Res St
  | .arr i l, st => do defineConst sh (.arr i l) (← constItems sh l st)
  | .obj i l, st => do defineConst sh (.obj i l) (← constMembers sh l st)
  | _, st => .ok st

/-- `for_each` over an array, to_djs.rs:73 -/
def constItems (sh : Nat → Text) : List Val → St → Res St
  | [], st => .ok st
  | v :: vs, st => do constItems sh vs (← writeConstsAndAny sh v st)

/-- `for_each` over an object, to_djs.rs:73 -/
def constMembers (sh : Nat → Text) : List (JsStr × Val) → St → Res St
  | [], st => .ok st
  | (_, v) :: l, st => do constMembers sh l (← writeConstsAndAny sh v st)
end

/-- `peek`, to_djs.rs:107-110: a hash map yields its entries in an unknown order, which may depend
on what was done before; `pick` chooses the place of the entry (counted modulo their number) from
the two maps of the state. -/
def peek (pick : HMap Seen → HMap Nat → Nat) (st : St) : Option Val :=
  (st.todo[pick st.todo st.refs % st.todo.length]?).map (·.1)

/-- `write_consts`, to_djs.rs:112-121; the loop has fuel -/
def writeConsts (sh : Nat → Text) (pick : HMap Seen → HMap Nat → Nat) : Nat → St → Res St
  | 0, _ => .error .fuel
  | fuel + 1, st =>
    match peek pick st with
    | none => .ok st
    | some v => do writeConsts sh pick fuel (← writeConstsAndAny sh v st)

/-- the words before the value, to_djs.rs:177-181 -/
def exportText (commonJs : Bool) : Text :=
  if commonJs then "module.exports=".toList else "export default ".toList

/-- `to_djs` and `write_djs`, to_djs.rs:167-192 -/
def toDjs (sh : Nat → Text) (pick : HMap Seen → HMap Nat → Nat) (fuel : Nat) (v : Val)
    (commonJs : Bool) : Res Text := do
  let visited := track [] v
  let todo := visited.filter fun x => x.2 = .repeatedly
  let st ← writeConsts sh pick fuel ⟨[], todo, []⟩
  let t ← writeWithConstRefs sh st.refs v
  return st.out ++ (exportText commonJs ++ t)

end Ser
end Nanvm
