import Verif.Model.Serializer
/-!
# The serializers with a limited number of stack frames

The functions of `Model/Serializer.lean` are recursive Rust functions, so every level of nesting
takes a frame of the native stack.  Here they get the number of frames that are left: a call with
none left is `Err.fuel` (in Rust: the stack overflows and the process is killed).  Only the
recursive functions count, one frame per call; what they call besides (`write_list`, `for_each`, the
writers of strings) is a constant number of frames per call and is left out.

`Graph.drop` (`Model/Graph.lean`) needs no second version: its fuel is the number of calls of
`OptionalRef::drop` and `MutRef::drop` that may be active at the same time.
-/
namespace Nanvm
namespace Ser

mutual
/-- `write_json`, to_json.rs:75-90, with `f` frames -/
def writeJsonD (sh : Nat → Text) : Val → Nat → Res Text
  | _, 0 => .error .fuel
  | .num b, _ + 1 => .ok (sh b)
  | .null, _ + 1 => .ok "null".toList
  | .bool b, _ + 1 => .ok (boolText b)
  | .str _ s, _ + 1 => writeJsString s
  | .obj _ l, f + 1 => do return writeList '{' '}' (← jsonMembersD sh l f)
  | .arr _ l, f + 1 => do return writeList '[' ']' (← jsonItemsD sh l f)
  | .big _ _, _ + 1 => .error (.panic .todo)

/-- the items of an array, to_json.rs:87 -/
def jsonItemsD (sh : Nat → Text) : List Val → Nat → Res (List Text)
  | [], _ => .ok []
  | v :: vs, f => do return (← writeJsonD sh v f) :: (← jsonItemsD sh vs f)

/-- the members of an object, to_json.rs:82-86 -/
def jsonMembersD (sh : Nat → Text) : List (JsStr × Val) → Nat → Res (List Text)
  | [], _ => .ok []
  | (k, v) :: l, f => do
    return ((← writeJsString k) ++ ':' :: (← writeJsonD sh v f)) :: (← jsonMembersD sh l f)
end

/-- `to_json`, to_json.rs:95-99, with `f` frames for `write_json` -/
def toJsonD (sh : Nat → Text) (f : Nat) (v : Val) : Res Text := writeJsonD sh v f

mutual
/-- `ConstTracker::track_consts_for_any`, to_djs.rs:53-63, with `f` frames -/
def trackD (m : HMap Seen) : Val → Nat → Res (HMap Seen)
  | _, 0 => .error .fuel
  | .arr i l, f + 1 =>
    match isVisited m (.arr i l) with
    | (true, m) => .ok m
    | (false, m) => trackItemsD m l f
  | .obj i l, f + 1 =>
    match isVisited m (.obj i l) with
    | (true, m) => .ok m
    | (false, m) => trackMembersD m l f
  | _, _ + 1 => .ok m

/-- `for_each` over an array, any.rs:107-112 -/
def trackItemsD (m : HMap Seen) : List Val → Nat → Res (HMap Seen)
  | [], _ => .ok m
  | v :: vs, f => do trackItemsD (← trackD m v f) vs f

/-- `for_each` over an object, any.rs:101-106 -/
def trackMembersD (m : HMap Seen) : List (JsStr × Val) → Nat → Res (HMap Seen)
  | [], _ => .ok m
  | (_, v) :: l, f => do trackMembersD (← trackD m v f) l f
end

mutual
/-- `write_with_const_refs`, to_djs.rs:124-162, with `f` frames -/
def writeD (sh : Nat → Text) (refs : HMap Nat) : Val → Nat → Res Text
  | _, 0 => .error .fuel
  | .obj i l, f + 1 =>
    match refs.get (.obj i) with
    | some n => .ok (constName n)
    | none => do return writeList '{' '}' (← refMembersD sh refs l f)
  | .arr i l, f + 1 =>
    match refs.get (.arr i) with
    | some n => .ok (constName n)
    | none => do return writeList '[' ']' (← refItemsD sh refs l f)
  | v, f + 1 => writeJsonD sh v f

/-- the items of an array, to_djs.rs:156 -/
def refItemsD (sh : Nat → Text) (refs : HMap Nat) : List Val → Nat → Res (List Text)
  | [], _ => .ok []
  | v :: vs, f => do return (← writeD sh refs v f) :: (← refItemsD sh refs vs f)

/-- the members of an object, to_djs.rs:139-143 -/
def refMembersD (sh : Nat → Text) (refs : HMap Nat) : List (JsStr × Val) → Nat → Res (List Text)
  | [], _ => .ok []
  | (k, v) :: l, f => do
    return ((← writeJsString k) ++ ':' :: (← writeD sh refs v f)) :: (← refMembersD sh refs l f)
end

/-- the second half of `write_compound_const`, to_djs.rs:74-84, with `f` frames -/
def defineConstD (sh : Nat → Text) (v : Val) (f : Nat) (st : St) : Res St :=
  match st.todo.get v.word with
  | some _ => do
    let id := st.refs.length
    let t ← writeD sh st.refs v f
    return ⟨st.out ++ ("const _".toList ++ (decimal id ++ '=' :: (t ++ [';']))),
      st.todo.remove v.word, st.refs.insert v id⟩
  | none => .ok st

mutual
/-- `write_consts_and_any`, to_djs.rs:90-103, with `write_compound_const`, lines 67-85, with `f`
frames -/
def constsAndAnyD (sh : Nat → Text) : Val → Nat → St → Res St
  | _, 0, _ => .error .fuel
  | .arr i l, f + 1, st => do defineConstD sh (.arr i l) f (← constItemsD sh l f st)
  | .obj i l, f + 1, st => do defineConstD sh (.obj i l) f (← constMembersD sh l f st)
  | _, _ + 1, st => .ok st

/-- `for_each` over an array, to_djs.rs:73 -/
def constItemsD (sh : Nat → Text) : List Val → Nat → St → Res St
  | [], _, st => .ok st
  | v :: vs, f, st => do constItemsD sh vs f (← constsAndAnyD sh v f st)

/-- `for_each` over an object, to_djs.rs:73 -/
def constMembersD (sh : Nat → Text) : List (JsStr × Val) → Nat → St → Res St
  | [], _, st => .ok st
  | (_, v) :: l, f, st => do constMembersD sh l f (← constsAndAnyD sh v f st)
end

/-- `write_consts`, to_djs.rs:112-121, a loop with fuel, with `f` frames for what it calls -/
def writeConstsD (sh : Nat → Text) (pick : HMap Seen → HMap Nat → Nat) (f : Nat) :
    Nat → St → Res St
  | 0, _ => .error .fuel
  | fuel + 1, st =>
    match peek pick st with
    | none => .ok st
    | some v => do writeConstsD sh pick f fuel (← constsAndAnyD sh v f st)

/-- `to_djs` and `write_djs`, to_djs.rs:167-192, with `f` frames for each of the recursive
functions -/
def toDjsD (sh : Nat → Text) (pick : HMap Seen → HMap Nat → Nat) (f fuel : Nat) (v : Val)
    (commonJs : Bool) : Res Text := do
  let visited ← trackD [] v f
  let todo := visited.filter fun x => x.2 = .repeatedly
  let st ← writeConstsD sh pick f fuel ⟨[], todo, []⟩
  let t ← writeD sh st.refs v f
  return st.out ++ (exportText commonJs ++ t)

end Ser
end Nanvm
