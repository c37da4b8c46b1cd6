import Verif.Model.Handles
/-!
# Values that own other values: `js/any_internal.rs`, `js/any.rs`, `js/any_cast.rs`,
`js/js_array.rs`, `js/js_object.rs`, `js/js_string.rs`, `js/js_bigint.rs`, `mem/optional_ref.rs`,
`mem/mut_ref.rs`, `mem/ref_.rs`, `mem/flexible_array/mod.rs`

`Model/Handles.lean` treats a block as opaque.  Here a block has a payload that owns other
handles, so that destroying a block drops what it owns.  Only managers with a counting header
(`Global`, `Local`) are modelled.  The characters of a string and the limbs of a bigint are left
out: they own nothing.
-/
namespace Nanvm

/-- the two type bits of a reference word, bitset.rs -/
inductive RefTy | string | object | array | bigint
deriving Repr, DecidableEq

/-- an owned value: an `Any` without a block, an `Any` with one, `Ref<T>`, `MutRef<T>` -/
inductive Own
  | simple
  | any (t : RefTy) (b : Nat)
  | typed (t : RefTy) (b : Nat)
  | mutRef (t : RefTy) (b : Nat)
deriving Repr, DecidableEq

/-- the block an owned value refers to -/
def Own.target : Own → Option Nat
  | .simple => none
  | .any _ b => some b
  | .typed _ b => some b
  | .mutRef _ b => some b

/-- a block exists; its destructor is running; its memory was given back -/
inductive Phase | live | dying | freed
deriving Repr, DecidableEq

structure Node where
  /-- the type the block was created with -/
  ty : RefTy
  /-- block_header.rs:11-12 -/
  counter : Int
  /-- the owned values in the flexible array, in order; a property contributes its key and its value -/
  kids : List Own
  phase : Phase
deriving Repr, DecidableEq

abbrev Heap := List Node

inductive GErr
  /-- a Rust panic -/
  | panic
  /-- access to a block that is being destroyed, was freed, does not exist, or has another type -/
  | memory
  /-- the model ran out of fuel -/
  | fuel
  /-- the operation is not a Rust program (no such handle or a handle of the wrong type) -/
  | notRust
deriving Repr, DecidableEq

namespace Graph

/-- an access through a handle of type `t` to block `b` -/
def access (h : Heap) (t : RefTy) (b : Nat) : Except GErr Node :=
  match h[b]? with
  | some n => if n.phase = .live ∧ n.ty = t then .ok n else .error .memory
  | none => .error .memory

/-- `OptionalBlock::ref_counter_update`, optional_block.rs:13-18 with the header of
block_header.rs:24-37: the flag is `Some(header)`, that is, the counter was 0 -/
def refCounterUpdate (h : Heap) (t : RefTy) (b : Nat) (delta : Int) : Except GErr (Bool × Heap) := do
  let n ← access h t b
  let (old, new) := HeaderKind.counting.update n.counter delta
  return (old = 0, h.set b { n with counter := new })

/-- `Block::delete`, block.rs:18-23: `object_drop` drops the items in order
(flexible_array/mod.rs:53-56), then the memory is given back -/
def delete (dropOne : Heap → Own → Except GErr Heap) (h : Heap) (t : RefTy) (b : Nat) :
    Except GErr Heap := do
  let n ← access h t b
  let h ← n.kids.foldlM dropOne (h.set b { n with phase := .dying })
  match h[b]? with
  | some n => if n.phase = .dying then .ok (h.set b { n with phase := .freed }) else .error .memory
  | none => .error .memory

/-- dropping an owned value -/
def drop : Nat → Heap → Own → Except GErr Heap
  | 0, _, _ => .error .fuel
  -- `OptionalRef::drop`, optional_ref.rs:61-69; `is_ref` is false
  | _ + 1, h, .simple => .ok h
  -- `OptionalRef::drop`, optional_ref.rs:61-69 and `AnyInternal::delete`, any_internal.rs:67-75
  | f + 1, h, .any t b => do
    let (zero, h) ← refCounterUpdate h t b RELEASE
    if zero then
      match t with
      | .string => delete (drop f) h .string b
      | .object => delete (drop f) h .object b
      | .array => delete (drop f) h .array b
      | .bigint => .error .panic
    else .ok h
  -- `OptionalRef::drop`, optional_ref.rs:61-69 and `delete` for a typed block, optional_block.rs
  | f + 1, h, .typed t b => do
    let (zero, h) ← refCounterUpdate h t b RELEASE
    if zero then delete (drop f) h t b else .ok h
  -- `MutRef::drop`, mut_ref.rs:28-33
  | f + 1, h, .mutRef t b => delete (drop f) h t b

/-- what item `j` of a block of type `t` may be: js_array.rs:14 (`Any`), js_object.rs:16
(`(JsStringRef, Any)`), js_string.rs:14 and js_bigint.rs (`u16`, `u64`: nothing owned) -/
def fits (t : RefTy) (j : Nat) : Own → Bool
  | .simple => t = .array || (t = .object && j % 2 = 1)
  | .any _ _ => t = .array || (t = .object && j % 2 = 1)
  | .typed .string _ => t = .object && j % 2 = 0
  | _ => false

end Graph

structure GMem where
  heap : Heap
  /-- the handles a program holds (local variables, stacks, queues) -/
  roots : List Own
deriving Repr, DecidableEq

namespace GMem
open Graph

def empty : GMem := ⟨[], []⟩

/-- fuel that `C24_no_memory_error` shows to be sufficient -/
def fuel (m : GMem) : Nat := m.heap.length + 1

/-- take the handles at the given positions, one after the other -/
def takeRoots : List Own → List Nat → Option (List Own × List Own)
  | rs, [] => some ([], rs)
  | rs, i :: is =>
    match rs[i]? with
    | some o => (takeRoots (rs.eraseIdx i) is).map fun (os, rs) => (o :: os, rs)
    | none => none

/-- operations of a program; a handle is named by its position -/
inductive Op
  /-- a number, boolean or null as `Any` -/
  | value
  /-- `new_string`, `new_object`, `new_array`, `new_bigint`: a `MutRef` owning the given handles -/
  | new (t : RefTy) (is : List Nat)
  /-- `Clone` -/
  | clone (i : Nat)
  /-- `MutRef::to_ref` -/
  | toRef (i : Nat)
  /-- `Ref<T>::move_to_any` -/
  | toAny (t : RefTy) (i : Nat)
  /-- `Any::try_move::<Ref<T>>` -/
  | tryMove (t : RefTy) (i : Nat)
  /-- `Ref::try_to_mut_ref` -/
  | tryToMutRef (i : Nat)
  /-- `items().get(j).clone()` through an `Any` (`try_ref`), a `Ref` or a `MutRef` -/
  | getItem (i j : Nat)
  /-- `items_mut()[j] = v` through a `MutRef`; `v` is the handle at `k`; out of range: nothing -/
  | setItem (i j k : Nat)
  | drop (i : Nat)
deriving Repr, DecidableEq

/-- clone an owned value, `OptionalRef::clone`, optional_ref.rs:53-59 -/
def cloneOwn (h : Heap) : Own → Except GErr Heap
  | .simple => .ok h
  | .any t b => (·.2) <$> refCounterUpdate h t b ADD_REF
  | .typed t b => (·.2) <$> refCounterUpdate h t b ADD_REF
  | .mutRef _ _ => .error .notRust

/-- dereference a handle: `try_ref` of `Any` (any.rs:81-88), `Deref` (ref_.rs:24-30, mut_ref.rs:35-41) -/
def derefOwn (h : Heap) : Own → Except GErr Node
  | .simple => .error .notRust
  | .any t b => access h t b
  | .typed t b => access h t b
  | .mutRef t b => access h t b

def step (m : GMem) : Op → Except GErr GMem
  -- value_cast.rs, any_cast.rs:19-35
  | .value => .ok { m with roots := m.roots ++ [.simple] }
  -- js_array.rs:26-31, js_object.rs:31-36, js_string.rs:27-32, js_bigint.rs; manager.rs:28-41
  | .new t is =>
    match takeRoots m.roots is with
    | some (os, rs) =>
      if (os.zipIdx.all fun (o, j) => fits t j o) ∧ (t = .object → os.length % 2 = 0) then
        .ok ⟨m.heap ++ [⟨t, 0, os, .live⟩], rs ++ [.mutRef t m.heap.length]⟩
      else .error .notRust
    | none => .error .notRust
  | .clone i =>
    match m.roots[i]? with
    | some o => do
      let h ← cloneOwn m.heap o
      return ⟨h, m.roots ++ [o]⟩
    | none => .error .notRust
  -- mut_ref.rs:21-25
  | .toRef i =>
    match m.roots[i]? with
    | some (.mutRef t b) => .ok { m with roots := m.roots.set i (.typed t b) }
    | _ => .error .notRust
  -- any_cast.rs:42-45
  | .toAny t i =>
    match m.roots[i]? with
    | some (.typed t' b) =>
      if t = t' then .ok { m with roots := m.roots.set i (.any t b) } else .error .notRust
    | _ => .error .notRust
  -- any.rs:45-50: on failure the argument is dropped
  | .tryMove t i =>
    match m.roots[i]? with
    | some (.any t' b) =>
      if t = t' then .ok { m with roots := m.roots.set i (.typed t b) }
      else do
        let h ← Graph.drop m.fuel m.heap (.any t' b)
        return ⟨h, m.roots.eraseIdx i⟩
    | some .simple => do
      let h ← Graph.drop m.fuel m.heap .simple
      return ⟨h, m.roots.eraseIdx i⟩
    | _ => .error .notRust
  -- ref_.rs:12-21
  | .tryToMutRef i =>
    match m.roots[i]? with
    | some (.typed t b) => do
      let (zero, h) ← refCounterUpdate m.heap t b READ
      return ⟨h, if zero then m.roots.set i (.mutRef t b) else m.roots⟩
    | _ => .error .notRust
  -- flexible_array/mod.rs:24-31
  | .getItem i j =>
    match m.roots[i]? with
    | some o => do
      let n ← derefOwn m.heap o
      match n.kids[j]? with
      | some k =>
        let h ← cloneOwn m.heap k
        return ⟨h, m.roots ++ [k]⟩
      | none => return m
    | none => .error .notRust
  -- flexible_array/mod.rs:33-40
  | .setItem i j k =>
    match m.roots[i]?, m.roots[k]? with
    | some (.mutRef t b), some v =>
      if fits t j v then do
        let n ← access m.heap t b
        match n.kids[j]? with
        | some old =>
          let h := m.heap.set b { n with kids := n.kids.set j v }
          let h ← Graph.drop m.fuel h old
          return ⟨h, m.roots.eraseIdx k⟩
        | none => return m
      else .error .notRust
    | _, _ => .error .notRust
  | .drop i =>
    match m.roots[i]? with
    | some o => do
      let h ← Graph.drop m.fuel m.heap o
      return ⟨h, m.roots.eraseIdx i⟩
    | none => .error .notRust

/-- a history of operations -/
def run (m : GMem) : List Op → Except GErr GMem
  | [] => .ok m
  | op :: ops => do (← m.step op).run ops

end GMem
end Nanvm
