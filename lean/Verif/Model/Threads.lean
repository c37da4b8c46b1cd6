/-!
# Handles of several threads: `mem/block_header.rs` (the atomic counter), `mem/optional_ref.rs`,
`mem/optional_block.rs`, `mem/ref_.rs`, `mem/mut_ref.rs`, `mem/block.rs`, `mem/manager.rs`

`Model/Handles.lean` has one thread.  Here handles belong to threads, and the atomic operations on the
counter, the accesses to the objects and the destruction of blocks are separate actions, so that a
list of actions is a schedule.  What the threads do with the memory is recorded in a trace; which
traces have data races is said in `Spec/HappensBefore.lean`.

Simplified: the counter is an `Int` (no overflow of `isize`), objects own nothing, and a handle is given
to another thread by an action `send`, which stands for a channel, a lock, `spawn` or `join`.  The
handles of the code are not `Send`: in safe programs there is no such action.
-/
namespace Nanvm
namespace Threads

/-- a block: its counter, and whether it is not yet deleted -/
structure Block where
  counter : Int
  alive : Bool
deriving Repr, DecidableEq

/-- `Ref`, `MutRef`, or the part of `drop` that remains to be done when the counter has been updated
and the block is to be deleted (optional_ref.rs:64, mut_ref.rs:31) -/
inductive Kind | ref | mutRef | deleting
deriving Repr, DecidableEq

structure Handle where
  thread : Nat
  block : Nat
  kind : Kind
deriving Repr, DecidableEq

/-- what a thread does with the memory -/
inductive Op
  /-- the header and the object of a block are written for the first time -/
  | make (b : Nat)
  /-- an atomic read-modify-write operation on the header -/
  | count (b : Nat)
  | read (b : Nat)
  | write (b : Nat)
  /-- the object is destroyed and the block freed -/
  | free (b : Nat)
  /-- a handle is given to the thread `u` -/
  | give (u : Nat)
deriving Repr, DecidableEq

structure State where
  blocks : List Block
  handles : List Handle
  /-- the blocks that were deleted, last first -/
  freed : List Nat
  /-- what was done by which thread, first first -/
  trace : List (Nat × Op)
deriving Repr, DecidableEq

def State.empty : State := ⟨[], [], [], []⟩

inductive Fault
  /-- an access to a block that is deleted -/
  | memory
  /-- not a program: no such handle, or a handle of the wrong type -/
  | notRust
deriving Repr, DecidableEq

/-- an access to the block `b`, with the operation for the trace -/
def access (s : State) (t b : Nat) (op : Op) : Except Fault (Block × State) :=
  match s.blocks[b]? with
  | some x => if x.alive then .ok (x, { s with trace := s.trace ++ [(t, op)] }) else .error .memory
  | none => .error .memory

def State.setBlock (s : State) (b : Nat) (x : Block) : State := { s with blocks := s.blocks.set b x }

/-- `<AtomicIsize as BlockHeader>::ref_counter_update`, block_header.rs:22-27, by the thread `t` -/
def fetchAdd (s : State) (t b : Nat) (delta : Int) : Except Fault (Int × State) := do
  let (x, s) ← access s t b (.count b)
  return (x.counter, s.setBlock b { x with counter := x.counter + delta })

/-- actions; a handle is named by its position -/
inductive Act
  | new (t : Nat)
  | clone (i : Nat)
  | drop (i : Nat)
  | delete (i : Nat)
  | toRef (i : Nat)
  | tryToMutRef (i : Nat)
  | read (i : Nat)
  | write (i : Nat)
  | send (i t : Nat)
deriving Repr, DecidableEq

/-- one action -/
def step (s : State) : Act → Except Fault State
  -- `Manager::new`, manager.rs:28-41: the default header is 0
  | .new t =>
    .ok { s with
      blocks := s.blocks ++ [⟨0, true⟩],
      handles := s.handles ++ [⟨t, s.blocks.length, .mutRef⟩],
      trace := s.trace ++ [(t, .make s.blocks.length)] }
  -- `OptionalRef::clone`, optional_ref.rs:52-58
  | .clone i =>
    match s.handles[i]? with
    | some ⟨t, b, .ref⟩ => do
      let (_, s) ← fetchAdd s t b 1
      return { s with handles := s.handles ++ [⟨t, b, .ref⟩] }
    | _ => .error .notRust
  | .drop i =>
    match s.handles[i]? with
    -- `OptionalRef::drop`, optional_ref.rs:60-68: the block is deleted later
    | some ⟨t, b, .ref⟩ => do
      let (old, s) ← fetchAdd s t b (-1)
      if old = 0 then return { s with handles := s.handles.set i ⟨t, b, .deleting⟩ }
      else return { s with handles := s.handles.eraseIdx i }
    -- `MutRef::drop`, mut_ref.rs:28-33
    | some ⟨t, b, .mutRef⟩ => .ok { s with handles := s.handles.set i ⟨t, b, .deleting⟩ }
    | _ => .error .notRust
  -- `Block::delete`, block.rs:18-23
  | .delete i =>
    match s.handles[i]? with
    | some ⟨t, b, .deleting⟩ => do
      let (x, s) ← access s t b (.free b)
      return { s.setBlock b { x with alive := false } with
        handles := s.handles.eraseIdx i, freed := b :: s.freed }
    | _ => .error .notRust
  -- `MutRef::to_ref`, mut_ref.rs:21-25
  | .toRef i =>
    match s.handles[i]? with
    | some ⟨t, b, .mutRef⟩ => .ok { s with handles := s.handles.set i ⟨t, b, .ref⟩ }
    | _ => .error .notRust
  -- `Ref::try_to_mut_ref`, ref_.rs:12-21
  | .tryToMutRef i =>
    match s.handles[i]? with
    | some ⟨t, b, .ref⟩ => do
      let (old, s) ← fetchAdd s t b 0
      if old = 0 then return { s with handles := s.handles.set i ⟨t, b, .mutRef⟩ } else return s
    | _ => .error .notRust
  -- `deref`, ref_.rs:24-30 and mut_ref.rs:35-41
  | .read i =>
    match s.handles[i]? with
    | some ⟨_, _, .deleting⟩ => .error .notRust
    | some ⟨t, b, _⟩ => do
      let (_, s) ← access s t b (.read b)
      return s
    | none => .error .notRust
  -- `deref_mut`, mut_ref.rs:43-48
  | .write i =>
    match s.handles[i]? with
    | some ⟨t, b, .mutRef⟩ => do
      let (_, s) ← access s t b (.write b)
      return s
    | _ => .error .notRust
  -- the handle is given to the thread `u`
  | .send i u =>
    match s.handles[i]? with
    | some ⟨_, _, .deleting⟩ => .error .notRust
    | some ⟨t, b, k⟩ =>
      .ok { s with handles := s.handles.set i ⟨u, b, k⟩, trace := s.trace ++ [(t, .give u)] }
    | none => .error .notRust

/-- a schedule -/
def run (s : State) : List Act → Except Fault State
  | [] => .ok s
  | a :: as => do run (← step s a) as

end Threads
end Nanvm
