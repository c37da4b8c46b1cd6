/-!
# `parser/path.rs`

A `&str` / `String` is the list of its characters.
-/
namespace Nanvm

/-- the text of a `str` -/
abbrev Text := List Char

namespace Path

/-- `path.split('/').collect()` -/
def splitSlash : Text → List Text
  | [] => [[]]
  | c :: cs =>
    if c = '/' then [] :: splitSlash cs
    else match splitSlash cs with
      | [] => [[c]]
      | s :: ss => (c :: s) :: ss

/-- `result_split.join("/")` -/
def joinSlash : List Text → Text
  | [] => []
  | [s] => s
  | s :: ss => s ++ '/' :: joinSlash ss

/-- the body of the loop of `normalize`, path.rs:6-22 -/
def normStep (result : List Text) (dir : Text) : List Text :=
  if dir = [] then result
  else if dir = ['.', '.'] then
    match result.getLast? with
    | some x => if x ≠ ['.', '.'] then result.dropLast else result ++ [dir]
    | none => result ++ [dir]
  else result ++ [dir]

/-- `normalize`, path.rs:3-25 -/
def normalize (path : Text) : Text := joinSlash ((splitSlash path).foldl normStep [])

/-- `concat`, path.rs:27-32 -/
def concat (a b : Text) : Text := normalize (a ++ '/' :: b)

/-- `str::rsplit_once('/')` -/
def rsplitOnce : Text → Option (Text × Text)
  | [] => none
  | c :: cs =>
    match rsplitOnce cs with
    | some (d, f) => some (c :: d, f)
    | none => if c = '/' then some ([], cs) else none

/-- `split`, path.rs:34-39 -/
def split (path : Text) : Text × Text :=
  match rsplitOnce path with
  | none => ([], path)
  | some t => t

end Path
end Nanvm
