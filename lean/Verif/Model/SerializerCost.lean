import Verif.Model.Serializer
/-!
# `serializer/to_djs.rs` with a count of the calls

The functions of `Model/Serializer.lean` that walk over the graph, with the number of calls of
`track_consts_for_any`, `write_consts_and_any` and `write_with_const_refs`.  That the texts are
those of `Model/Serializer.lean` is proved (`C65_same_text`).
-/
namespace Nanvm
namespace Ser

mutual
/-- `ConstTracker::track_consts_for_any`, to_djs.rs:53-63, and its calls -/
def trackC (m : HMap Seen) : Val → HMap Seen × Nat
  | .arr i l =>
    match isVisited m (.arr i l) with
    | (true, m) => (m, 1)
    | (false, m) => let r := trackItemsC m l; (r.1, 1 + r.2)
  | .obj i l =>
    match isVisited m (.obj i l) with
    | (true, m) => (m, 1)
    | (false, m) => let r := trackMembersC m l; (r.1, 1 + r.2)
  | _ => (m, 1)

/-- `for_each` over an array, any.rs:107-112 -/
def trackItemsC (m : HMap Seen) : List Val → HMap Seen × Nat
  | [] => (m, 0)
  | v :: vs => let r := trackC m v; let q := trackItemsC r.1 vs; (q.1, r.2 + q.2)

/-- `for_each` over an object, any.rs:101-106 -/
def trackMembersC (m : HMap Seen) : List (JsStr × Val) → HMap Seen × Nat
  | [] => (m, 0)
  | (_, v) :: l => let r := trackC m v; let q := trackMembersC r.1 l; (q.1, r.2 + q.2)
end

mutual
/-- `write_with_const_refs`, to_djs.rs:124-162, and its calls -/
def writeC (sh : Nat → Text) (refs : HMap Nat) : Val → Res (Text × Nat)
  | .obj i l =>
    match refs.get (.obj i) with
    | some n => .ok (constName n, 1)
    | none => do
      let r ← refMembersC sh refs l
      return (writeList '{' '}' r.1, 1 + r.2)
  | .arr i l =>
    match refs.get (.arr i) with
    | some n => .ok (constName n, 1)
    | none => do
      let r ← refItemsC sh refs l
      return (writeList '[' ']' r.1, 1 + r.2)
  | v => do return (← writeJson sh v, 1)

/-- the items of an array, to_djs.rs:156 -/
def refItemsC (sh : Nat → Text) (refs : HMap Nat) : List Val → Res (List Text × Nat)
  | [] => .ok ([], 0)
  | v :: vs => do
    let r ← writeC sh refs v
    let q ← refItemsC sh refs vs
    return (r.1 :: q.1, r.2 + q.2)

/-- the members of an object, to_djs.rs:139-143 -/
def refMembersC (sh : Nat → Text) (refs : HMap Nat) :
    List (JsStr × Val) → Res (List Text × Nat)
  | [] => .ok ([], 0)
  | (k, v) :: l => do
    let t ← writeJsString k
    let r ← writeC sh refs v
    let q ← refMembersC sh refs l
    return ((t ++ ':' :: r.1) :: q.1, r.2 + q.2)
end

/-- the second half of `write_compound_const`, to_djs.rs:74-84, and the calls so far -/
def defineConstC (sh : Nat → Text) (v : Val) (s : St × Nat) : Res (St × Nat) :=
  match s.1.todo.get v.word with
  | some _ => do
    let id := s.1.refs.length
    let r ← writeC sh s.1.refs v
    return (⟨s.1.out ++ ("const _".toList ++ (decimal id ++ '=' :: (r.1 ++ [';']))),
      s.1.todo.remove v.word, s.1.refs.insert v id⟩, s.2 + r.2)
  | none => .ok s

mutual
/-- `write_consts_and_any`, to_djs.rs:90-103, with `write_compound_const`, lines 67-85, and the
calls so far -/
def constsAndAnyC (sh : Nat → Text) : Val → St × Nat → Res (St × Nat)
  | .arr i l, s => do defineConstC sh (.arr i l) (← constItemsC sh l (s.1, s.2 + 1))
  | .obj i l, s => do defineConstC sh (.obj i l) (← constMembersC sh l (s.1, s.2 + 1))
  | _, s => .ok (s.1, s.2 + 1)

/-- `for_each` over an array, to_djs.rs:73 -/
def constItemsC (sh : Nat → Text) : List Val → St × Nat → Res (St × Nat)
  | [], s => .ok s
  | v :: vs, s => do constItemsC sh vs (← constsAndAnyC sh v s)

/-- `for_each` over an object, to_djs.rs:73 -/
def constMembersC (sh : Nat → Text) : List (JsStr × Val) → St × Nat → Res (St × Nat)
  | [], s => .ok s
  | (_, v) :: l, s => do constMembersC sh l (← constsAndAnyC sh v s)
end

/-- `write_consts`, to_djs.rs:112-121, and the calls so far -/
def writeConstsC (sh : Nat → Text) (pick : HMap Seen → HMap Nat → Nat) : Nat → St × Nat → Res (St × Nat)
  | 0, _ => .error .fuel
  | fuel + 1, s =>
    match peek pick s.1 with
    | none => .ok s
    | some v => do writeConstsC sh pick fuel (← constsAndAnyC sh v s)

/-- `to_djs` and `write_djs`, to_djs.rs:167-192: the text and the number of calls of the three
recursive functions -/
def toDjsC (sh : Nat → Text) (pick : HMap Seen → HMap Nat → Nat) (fuel : Nat) (v : Val)
    (commonJs : Bool) : Res (Text × Nat) := do
  let visited := trackC [] v
  let todo := visited.1.filter fun x => x.2 = .repeatedly
  let s ← writeConstsC sh pick fuel (⟨[], todo, []⟩, visited.2)
  let r ← writeC sh s.1.refs v
  return (s.1.out ++ (exportText commonJs ++ r.1), s.2 + r.2)

end Ser
end Nanvm
