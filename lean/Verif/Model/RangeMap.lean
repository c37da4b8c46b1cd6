import Verif.Model.Err
/-!
# `range_map.rs`

Keys (`Num: PartialOrd`; the library uses `char`) are code points, i.e. `Nat`.
A `State<T>` is an `Option T`; `STATIC_REF_DEFAULT` of a state is `none`.
-/
namespace Nanvm
namespace RangeMap

/-- `Entry`, range_map.rs:8-14: key and value -/
abbrev Entry (V : Type) := Nat × V

/-- the loop of `get`, range_map.rs:66-79; `none` stands for `T::STATIC_REF_DEFAULT`;
`b`, `e` are `i32` (lengths below 2^31 assumed, so no overflow) -/
def getLoop {V : Type} (list : List (Entry V)) (key : Nat) : Nat → Int → Int → Res (Option V)
  | 0, _, _ => .error .fuel
  | fuel + 1, b, e =>
    if b ≥ list.length then .ok none
    else if e < b then
      match list[b.toNat]? with
      | none => .error (.panic .unwrap)
      | some x => .ok (some x.2)
    else
      let mid := b + (e - b) / 2
      match list[mid.toNat]? with
      | none => .error (.panic .unwrap)
      | some x => if key ≤ x.1 then getLoop list key fuel b (mid - 1)
        else getLoop list key fuel (mid + 1) e

/-- `get`, range_map.rs:62-80 -/
def get {V : Type} (list : List (Entry V)) (key : Nat) : Res (Option V) :=
  getLoop list key (list.length + 1) 0 (list.length - 1)

/-- `get` at `T = State<T>`: the default is the state `none`, range_map.rs:32-34 -/
def getState {T : Type} (list : List (Entry (Option T))) (key : Nat) : Res (Option T) := do
  return (← get list key).getD none

/-- `State::union`, range_map.rs:36-55 -/
def union {T : Type} [DecidableEq T] (a b : Option T) : Res (Option T) :=
  match a with
  | some x => match b with
    | some y => if x = y then .ok (some y) else .error (.panic .explicit)
    | none => .ok (some x)
  | none => .ok b

/-- the loop of `merge_iter`, range_map.rs:118-161; the loop state (`next_a`, rest of `a`)
is a list; when one side is exhausted the loop copies the other (lines 146-159) -/
def mergeLoop {T : Type} [DecidableEq T] : Nat →
    List (Entry (Option T)) → List (Entry (Option T)) → Res (List (Entry (Option T)))
  | _, [], bs => .ok bs
  | _, as, [] => .ok as
  | 0, _, _ => .error .fuel
  | fuel + 1, a :: as, b :: bs => do
    let v ← union a.2 b.2
    if a.1 > b.1 then return (b.1, v) :: (← mergeLoop fuel (a :: as) bs)
    else if a.1 < b.1 then return (a.1, v) :: (← mergeLoop fuel as (b :: bs))
    else return (a.1, v) :: (← mergeLoop fuel as bs)

/-- `merge`/`merge_iter`, range_map.rs:96-163 -/
def merge {T : Type} [DecidableEq T] (a b : List (Entry (Option T))) :
    Res (List (Entry (Option T))) := mergeLoop (a.length + b.length) a b

/-- `merge_list`, range_map.rs:83-94 -/
def mergeList {T : Type} [DecidableEq T] (list : List (List (Entry (Option T)))) :
    Res (List (Entry (Option T))) :=
  list.foldlM (fun result x => merge x result) []

/-- `char::from_u32` succeeds -/
def validChar (n : Nat) : Bool := n < 0xD800 || (0xE000 ≤ n && n < 0x110000)

/-- `from_range`, range_map.rs:165-179; `start as u32 - 1` overflows for `'\0'` -/
def fromRange {T : Type} (start stop : Nat) (value : T) : Res (List (Entry (Option T))) := do
  let p ← subU start 1
  let key := if validChar p then p else start
  return [(key, none), (stop, some value)]

/-- `from_one`, range_map.rs:181-202 -/
def fromOne {T : Type} (c : Nat) (value : T) : Res (List (Entry (Option T))) := do
  let p ← subU c 1
  if validChar p then return [(p, none), (c, some value)]
  else return [(c, some value)]

end RangeMap
end Nanvm
