import Verif.Model.Graph
/-!
# Specification for C24 and C75: reachability of blocks, what an operation gives up, what is read
through a handle
-/
namespace Nanvm
open Graph

/-- Specification: block `b` can be reached from a handle of the program by following owned values. -/
inductive Reach (m : GMem) : Nat → Prop
  | root {o : Own} {b : Nat} : o ∈ m.roots → o.target = some b → Reach m b
  | kid {c b : Nat} {n : Node} {o : Own} :
      Reach m c → m.heap[c]? = some n → o ∈ n.kids → o.target = some b → Reach m b

/-- Specification: block `b` was created and its memory was not given back. -/
def Exists (m : GMem) (b : Nat) : Prop := ∃ n, m.heap[b]? = some n ∧ n.phase ≠ .freed

/-- Specification: operation `op` gives up the handle `o`; `m'` is the state without it, before
anything is destroyed. -/
inductive Discards (m : GMem) : GMem.Op → Own → GMem → Prop
  | drop {i o} : m.roots[i]? = some o → Discards m (.drop i) o { m with roots := m.roots.eraseIdx i }
  /-- a failed `try_move` gives up its argument -/
  | tryMove {t i o} : m.roots[i]? = some o → (o = .simple ∨ ∃ t' b, o = .any t' b ∧ t ≠ t') →
      Discards m (.tryMove t i) o { m with roots := m.roots.eraseIdx i }
  /-- a store gives up the item that was there -/
  | setItem {i j k t b v n old} : m.roots[i]? = some (.mutRef t b) → m.roots[k]? = some v →
      fits t j v = true → m.heap[b]? = some n → n.kids[j]? = some old →
      Discards m (.setItem i j k) old
        ⟨m.heap.set b { n with kids := n.kids.set j v }, m.roots.eraseIdx k⟩

/-- Specification: the block `b` is a bigint. -/
def IsBigint (m : GMem) (b : Nat) : Prop := ∃ n, m.heap[b]? = some n ∧ n.ty = .bigint

/-- Specification: what is read from block `b` by following the items with the given indices: the
type of the block at the end of the path, and its items.  Nothing is read from a block that does not
exist any more. -/
def seen (h : Heap) (b : Nat) : List Nat → Option (RefTy × List Own)
  | [] => (h[b]?).bind fun n => if n.phase = .live then some (n.ty, n.kids) else none
  | j :: js => (h[b]?).bind fun n =>
      if n.phase = .live then (n.kids[j]?).bind fun o => o.target.bind fun c => seen h c js else none

/-- Specification: the program holds an `Any` or a `Ref` of the block `b`. -/
def Frozen (m : GMem) (b : Nat) : Prop := ∃ t, .any t b ∈ m.roots ∨ .typed t b ∈ m.roots

/-- Specification: operations that lead from `m` to `m'`, while the program always holds an `Any` or
a `Ref` of `b` (not necessarily always the same one) -/
inductive WhileFrozen (b : Nat) : GMem → List GMem.Op → GMem → Prop
  | done {m} : Frozen m b → WhileFrozen b m [] m
  | step {m op m1 ops m2} : Frozen m b → m.step op = .ok m1 → WhileFrozen b m1 ops m2 →
      WhileFrozen b m (op :: ops) m2

end Nanvm
