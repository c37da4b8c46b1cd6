import Verif.Model.Err
/-!
# Handles: `mem/ref_.rs`, `mem/optional_ref.rs`, `mem/optional_block.rs`, `mem/mut_ref.rs`,
`mem/block_header.rs`, `mem/manager.rs`

Blocks are numbered in the order of their creation.  The payload is not modelled here (see
`Model/Graph.lean` for values that own other values).
-/
namespace Nanvm

/-- the two kinds of block header: a counter (block_header.rs:24-37, used by `Global` and
`Local`) and none (arena.rs:30-37) -/
inductive HeaderKind | counting | none
deriving Repr, DecidableEq

/-- `ref_counter_update`, block_header.rs:24-37 and arena.rs:32-36: returned and stored value -/
def HeaderKind.update (k : HeaderKind) (counter delta : Int) : Int × Int :=
  match k with
  | .counting => (counter, counter + delta)
  | .none => (1, counter)

/-- `RefCounterUpdate`, ref_counter_update.rs:2-6 -/
def ADD_REF : Int := 1
def READ : Int := 0
def RELEASE : Int := -1

/-- a block: its header and how often `Block::delete` (block.rs:18-23) ran on it -/
structure Blk where
  counter : Int := 0
  deleted : Nat := 0
deriving Repr, DecidableEq

/-- `Ref` or `MutRef` to a block -/
inductive Handle
  | ref (b : Nat)
  | mutRef (b : Nat)
deriving Repr, DecidableEq

def Handle.block : Handle → Nat
  | .ref b => b
  | .mutRef b => b

structure HMem where
  blocks : List Blk
  handles : List Handle
  /-- accesses to blocks that were deleted before -/
  badAccess : Nat
deriving Repr, DecidableEq

namespace HMem

def empty : HMem := ⟨[], [], 0⟩

/-- the block, counting an access to it -/
def touch (m : HMem) (b : Nat) : HMem :=
  match m.blocks[b]? with
  | some x => if x.deleted = 0 then m else { m with badAccess := m.badAccess + 1 }
  | none => { m with badAccess := m.badAccess + 1 }

/-- `OptionalBlock::ref_counter_update`, optional_block.rs:13-18: the flag is `Some(header)`,
that is, the value returned by the header was 0 -/
def refCounterUpdate (k : HeaderKind) (m : HMem) (b : Nat) (delta : Int) : Bool × HMem :=
  let m := m.touch b
  match m.blocks[b]? with
  | some x =>
    let (old, new) := k.update x.counter delta
    (old = 0, { m with blocks := m.blocks.set b { x with counter := new } })
  | none => (false, m)

/-- `Block::delete`, block.rs:18-23 -/
def delete (m : HMem) (b : Nat) : HMem :=
  let m := m.touch b
  match m.blocks[b]? with
  | some x => { m with blocks := m.blocks.set b { x with deleted := x.deleted + 1 } }
  | none => m

/-- operations on handles; a handle is named by its position -/
inductive Op
  | new
  | clone (i : Nat)
  | toRef (i : Nat)
  | tryToMutRef (i : Nat)
  | deref (i : Nat)
  | drop (i : Nat)
deriving Repr, DecidableEq

/-- One operation.  `none`: not a Rust program (no such handle, or a handle of the wrong type). -/
def step (k : HeaderKind) (m : HMem) : Op → Option HMem
  -- `Manager::new`, manager.rs:28-41: default header (0), `MutRef::new`
  | .new => some { m with blocks := m.blocks ++ [{}], handles := m.handles ++ [.mutRef m.blocks.length] }
  -- `OptionalRef::clone`, optional_ref.rs:52-58
  | .clone i =>
    match m.handles[i]? with
    | some (.ref b) =>
      let m := (m.refCounterUpdate k b ADD_REF).2
      some { m with handles := m.handles ++ [.ref b] }
    | _ => none
  -- `MutRef::to_ref`, mut_ref.rs:21-25
  | .toRef i =>
    match m.handles[i]? with
    | some (.mutRef b) => some { m with handles := m.handles.set i (.ref b) }
    | _ => none
  -- `Ref::try_to_mut_ref`, ref_.rs:12-21
  | .tryToMutRef i =>
    match m.handles[i]? with
    | some (.ref b) =>
      let (zero, m) := m.refCounterUpdate k b READ
      some (if zero then { m with handles := m.handles.set i (.mutRef b) } else m)
    | _ => none
  -- `deref`, ref_.rs:24-30, mut_ref.rs:35-48
  | .deref i =>
    match m.handles[i]? with
    | some h => some (m.touch h.block)
    | none => none
  | .drop i =>
    match m.handles[i]? with
    -- `OptionalRef::drop`, optional_ref.rs:60-68
    | some (.ref b) =>
      let (zero, m) := m.refCounterUpdate k b RELEASE
      let m := if zero then m.delete b else m
      some { m with handles := m.handles.eraseIdx i }
    -- `MutRef::drop`, mut_ref.rs:28-33
    | some (.mutRef b) =>
      let m := m.delete b
      some { m with handles := m.handles.eraseIdx i }
    | none => none

/-- a history of operations -/
def run (k : HeaderKind) (m : HMem) : List Op → Option HMem
  | [] => some m
  | op :: ops => (m.step k op).bind (·.run k ops)

end HMem
end Nanvm
