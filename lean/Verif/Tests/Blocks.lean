import Verif.Model.Layout
import Verif.Model.Handles
/-!
# The unit tests of `mem`

Written by hand: `field_layout.rs`, `block.rs`, `block_header.rs`, `fixed.rs`, `global.rs`,
`ref_.rs`, `flexible_array/*.rs`, `arena.rs` and `local.rs`.  A size is that of a 64-bit machine.
-/
namespace Nanvm
namespace RepoTests

def u8 : TypeInfo := ⟨1, 1⟩
def u16 : TypeInfo := ⟨2, 2⟩
def u32 : TypeInfo := ⟨4, 4⟩
def u64 : TypeInfo := ⟨8, 8⟩
def unit : TypeInfo := ⟨0, 1⟩

/-- the constants of field_layout.rs:55-76, `test_invalid_align1`, `test_invalid_align2` -/
example :
    FieldLayout.alignTo u32 u8 1 = .ok ⟨4, 4⟩ ∧ FieldLayout.alignTo u32 u8 8 = .ok ⟨8, 8⟩ ∧
    FieldLayout.alignTo ⟨3, 1⟩ u8 4 = .ok ⟨4, 4⟩ ∧
    FieldLayout.alignTo u32 u8 3 = .error (.panic .assert) ∧
    FieldLayout.alignTo u32 u16 1 = .error (.panic .assert) := by decide +kernel

/-- `test_0`, block.rs:66-79 -/
example :
    BlockType.blockLayout ⟨unit, unit, 1⟩ 0 = .ok ⟨0, 1⟩ ∧
    BlockType.blockLayout ⟨unit, unit, 1⟩ 2 = .ok ⟨2, 1⟩ := by decide +kernel

/-- `test_atomic`, `test_cell`, block_header.rs:54-88 -/
example :
    (HeaderKind.update .counting 0 READ = (0, 0)) ∧ (HeaderKind.update .counting 0 ADD_REF = (0, 1)) ∧
    (HeaderKind.update .counting 1 RELEASE = (1, 0)) ∧ (HeaderKind.update .counting 0 READ = (0, 0)) ∧
    (HeaderKind.update .counting 0 RELEASE = (0, -1)) ∧ (HeaderKind.update .counting (-1) READ).1 = -1 := by
  decide +kernel

def after (ops : List HMem.Op) : Option (List Blk × Nat) :=
  (HMem.empty.run .counting ops).map fun m => (m.blocks, m.badAccess)

/-- `test_x`, global.rs:51-58: a value is destroyed once with its `MutRef` -/
example : after [.new, .drop 0] = some ([⟨0, 1⟩], 0) := by decide +kernel

/-- `test_1`, ref_.rs:83-98: the counter is 0, then 1 for the time of the copy, then 0, then -1 -/
example :
    after [.new, .toRef 0] = some ([⟨0, 0⟩], 0) ∧
    after [.new, .toRef 0, .clone 0] = some ([⟨1, 0⟩], 0) ∧
    after [.new, .toRef 0, .clone 0, .drop 1] = some ([⟨0, 0⟩], 0) ∧
    after [.new, .toRef 0, .clone 0, .drop 1, .drop 0] = some ([⟨-1, 1⟩], 0) := by decide +kernel

/-- `object_size` of `test_u8_5`, `test_u32_3`, `test1`, `drop_test`, `empty_header_test` and the
constants, flexible_array/mod.rs:98-275; of `gen_test`, constructor.rs:60-104 -/
example :
    flexibleSize u16 u8 5 = .ok 7 ∧ flexibleSize u16 u32 3 = .ok 16 ∧ flexibleSize u8 u8 1 = .ok 2 ∧
    flexibleSize u16 u32 6 = .ok 28 ∧ flexibleSize u16 u8 3 = .ok 5 ∧ flexibleSize u64 u64 3 = .ok 32 ∧
    flexHeaderLayout unit u64 = .ok ⟨8, 0⟩ ∧ flexibleSize unit u64 3 = .ok 24 ∧
    flexibleSize ⟨16, 8⟩ u8 5 = .ok (8 * 2 + 5) := by decide +kernel

/-- `drop_test`, flexible_array/mod.rs:183-215: three items and the header are destroyed -/
example : (FlexArray.objectDrop ⟨3, [some 0, some 1, some 2]⟩) =
    some [.item 0, .item 1, .item 2, .header] := by decide +kernel

def from42 (t i : Nat) : Option Nat := if i < min t 7 then some (42 + i) else none

/-- `test_5`, `test_10`, `test_2`, constructor.rs:108-123 -/
example :
    (do return (← construct 5 (from42 5)).read) = (.ok (some [42, 43, 44, 45, 46]) : Res _) ∧
    (do return (← construct 5 (from42 10)).read) = (.ok (some [42, 43, 44, 45, 46]) : Res _) ∧
    (do return (← construct 5 (from42 2)).read) = (.error (.panic .unwrap) : Res (Option (List Nat))) := by
  decide +kernel

/-- `test_len`, flexible_array/header.rs:65-85: nothing is destroyed before `object_drop` -/
example : (do return ((← construct 4 some).len, (← construct 4 some).objectDrop)) =
    (.ok (4, some [.item 0, .item 1, .item 2, .item 3, .header]) : Res (Nat × Option (List (DropEvent Nat)))) := by
  decide +kernel

/-- a block of `Arena` has no header -/
def arenaLayout (t : TypeInfo) : Res Layout := BlockType.blockLayout ⟨unit, t, t.align⟩ t.size

def left (a : Arena) : Nat := a.stop - a.start

/-- `test`, arena.rs:71-83; the buffer begins at a multiple of 4 -/
example :
    (do
      let a := Arena.new 4096 1024
      let (_, b) ← a.alloc (← arenaLayout u8)
      let (_, c) ← b.alloc (← arenaLayout u32)
      return (left a, left b, left c)) = (.ok (1024, 1023, 1016) : Res (Nat × Nat × Nat)) ∧
    (HMem.empty.run .none [.new, .toRef 0, .tryToMutRef 0]).map HMem.handles = some [.ref 0] := by
  decide +kernel

/-- `test_1` and `test_out_of_memory`, arena.rs:87-103 -/
example :
    (do return left (← (Arena.new 4096 1).alloc (← arenaLayout u8)).2) = (.ok 0 : Res Nat) ∧
    (do
      let (_, b) ← (Arena.new 4096 1).alloc (← arenaLayout u8)
      return left (← b.alloc (← arenaLayout u8)).2) = (.error (.panic .explicit) : Res Nat) := by
  decide +kernel

/-- a block of `Local` begins with a counter -/
def localBlock (t : TypeInfo) : Res Layout := BlockType.blockLayout ⟨u64, t, t.align⟩ t.size
/-- the block of `flexible_array_new([1, 2, 3])` -/
def localArray : Res Layout := do
  (← flexBlockType u64 u64 u32).blockLayout (← flexibleSize u64 u32 3)

def noLocal : LocalMem := ⟨fun _ => 0, fun _ => 0, fun _ => none, []⟩

def seen (m : LocalMem) : Int × Nat := (m.counter 0, m.size 0)

def dealloc (m : LocalMem) (p : Nat) (l : Layout) : Res LocalMem :=
  match m.dealloc p l with
  | some r => r
  | none => .error (.panic .explicit)

/-- the counters of `test`, local.rs:83-140: two integers, an array of three, then the first integer
goes, then the others -/
example :
    (do
      let (p, m1) ← noLocal.alloc 0 4096 (← localBlock u32)
      let (q, m2) ← m1.alloc 0 8192 (← localBlock u32)
      let (r, m3) ← m2.alloc 0 16384 (← localArray)
      let m4 ← dealloc m3 p (← localBlock u32)
      let m5 ← dealloc m4 q (← localBlock u32)
      let m6 ← dealloc m5 r (← localArray)
      return [seen m1, seen m2, seen m3, seen m4, seen m6]) =
    (.ok [(1, 20), (2, 40), (3, 40 + 8 + 8 + 8 + 12), (2, 20 + 8 + 8 + 8 + 12), (0, 0)] :
      Res (List (Int × Nat))) := by decide +kernel

/-- the handles of `test`, local.rs:83-140: the sole `Ref` becomes a `MutRef`, one of two does not;
the block goes with the last handle -/
example :
    (HMem.empty.run .counting [.new, .toRef 0, .tryToMutRef 0]).map HMem.handles = some [.mutRef 0] ∧
    (HMem.empty.run .counting [.new, .toRef 0, .tryToMutRef 0, .toRef 0, .clone 0, .tryToMutRef 1]).map
      HMem.handles = some [.ref 0, .ref 0] ∧
    after [.new, .toRef 0, .tryToMutRef 0, .toRef 0, .clone 0, .tryToMutRef 1, .drop 1] =
      some ([⟨0, 0⟩], 0) ∧
    after [.new, .toRef 0, .tryToMutRef 0, .toRef 0, .clone 0, .tryToMutRef 1, .drop 1, .drop 0] =
      some ([⟨-1, 1⟩], 0) := by decide +kernel

end RepoTests
end Nanvm
