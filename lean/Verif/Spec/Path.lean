/-!
# What a path names

A place is the list of directory names from the root, innermost first.
-/
namespace Nanvm.PathSpec

abbrev Place := List (List Char)

/-- follow one segment -/
def step (p : Place) (seg : List Char) : Place :=
  if seg = [] ∨ seg = ['.'] then p
  else if seg = ['.', '.'] then p.tail
  else seg :: p

/-- the place reached from `cur`, the last segment read so far being `seg` (reversed) -/
def walk (cur : Place) (seg : List Char) : List Char → Place
  | [] => step cur seg.reverse
  | '/' :: cs => walk (step cur seg.reverse) [] cs
  | c :: cs => walk cur (c :: seg) cs

/-- the place named by `path` when the current directory is `cwd` -/
def locate (cwd : Place) (path : List Char) : Place :=
  match path with
  | '/' :: cs => walk [] [] cs
  | cs => walk cwd [] cs

/-- `seg` occurs in `path` as a complete segment -/
def HasSegment (seg path : List Char) : Prop :=
  '/' ∉ seg ∧ ∃ a b, path = a ++ seg ++ b ∧ (a = [] ∨ a.getLast? = some '/') ∧
    (b = [] ∨ b.head? = some '/')

/-- `segs` are the segments of `path` -/
def Segments (path : List Char) (segs : List (List Char)) : Prop :=
  segs ≠ [] ∧ (∀ s ∈ segs, '/' ∉ s) ∧ path = ['/'].intercalate segs

/-- the number of `..` -/
def ups (segs : List (List Char)) : Nat := segs.countP (· = ['.', '.'])

/-- the number of other segments that are not empty; `.` is one of them -/
def names (segs : List (List Char)) : Nat := segs.countP fun s => s ≠ [] ∧ s ≠ ['.', '.']

/-- a `.` is followed by segments with more `..` than names: it is the target of a `..` if it is
taken for the name of a directory -/
def DotUndone (path : List Char) : Prop :=
  ∃ a b c, Segments path (a ++ [['.']] ++ b ++ c) ∧ names b < ups b

end Nanvm.PathSpec
