import Verif.Model.Threads
/-!
# Happens before and data races

As in the memory model of C++ and Rust.  Operations are named by their positions in a trace.  What a
thread does is ordered, and what it did before it gave a handle away is ordered before what the
receiver does later.  Atomic read-modify-write operations on one counter order other operations only if
they acquire and release: each then synchronises with the later ones (they continue the release
sequence).  Two operations race if they touch the same memory, one of them writes or frees it, they are
not both atomic, and they are not ordered.
-/
namespace Nanvm
namespace Threads

/-- `core::sync::atomic::Ordering`; the code has `Relaxed` (block_header.rs:26) -/
inductive MemOrder | relaxed | acqRel
deriving Repr, DecidableEq

/-- the operation at the position `i` happens before that at the position `j` -/
inductive HB (o : MemOrder) (tr : List (Nat × Op)) : Nat → Nat → Prop
  | thread (i j t x y) : i < j → tr[i]? = some (t, x) → tr[j]? = some (t, y) → HB o tr i j
  | give (i j t u y) : i < j → tr[i]? = some (t, .give u) → tr[j]? = some (u, y) → HB o tr i j
  | count (i j t u b) : o = .acqRel → i < j → tr[i]? = some (t, .count b) →
    tr[j]? = some (u, .count b) → HB o tr i j
  | trans (i j k) : HB o tr i j → HB o tr j k → HB o tr i k

/-- the memory an operation touches: the header of a block, or its object -/
inductive Place | header (b : Nat) | object (b : Nat)
deriving DecidableEq

/-- which places are written, or freed -/
def Op.writes : Op → List Place
  | .make b => [.header b, .object b]
  | .write b => [.object b]
  | .free b => [.header b, .object b]
  | _ => []

/-- which places are read, or changed atomically -/
def Op.reads : Op → List Place
  | .count b => [.header b]
  | .read b => [.object b]
  | _ => []

/-- two operations conflict if one writes what the other touches -/
def Conflict (x y : Op) : Prop :=
  ∃ p, p ∈ x.writes ∧ p ∈ y.writes ++ y.reads ∨ p ∈ y.writes ∧ p ∈ x.writes ++ x.reads

/-- a data race -/
def Race (o : MemOrder) (tr : List (Nat × Op)) : Prop :=
  ∃ i j t u x y, i < j ∧ tr[i]? = some (t, x) ∧ tr[j]? = some (u, y) ∧ Conflict x y ∧ ¬ HB o tr i j

end Threads
end Nanvm
