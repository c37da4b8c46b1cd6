import Verif.Model.Err
/-!
# Layouts and managers: `mem/field_layout.rs`, `mem/block.rs`, `mem/arena.rs`, `mem/local.rs`,
`mem/flexible_array`

Addresses, sizes and alignments are `Nat`; `usize` is 64 bits.  Types appear only through
their `size_of` and `align_of`.
-/
namespace Nanvm

/-- `usize` addition with overflow check -/
def addU (a b : Nat) : Res Nat :=
  if a + b < 2 ^ 64 then .ok (a + b) else .error (.panic .overflow)

/-- `usize` multiplication with overflow check -/
def mulU (a b : Nat) : Res Nat :=
  if a * b < 2 ^ 64 then .ok (a * b) else .error (.panic .overflow)

/-- `size_of::<T>()`, `align_of::<T>()` of a Rust type -/
structure TypeInfo where
  size : Nat
  align : Nat
deriving Repr, DecidableEq

/-- `core::alloc::Layout` -/
structure Layout where
  size : Nat
  align : Nat
deriving Repr, DecidableEq

/-- `align_to`, field_layout.rs:15-18 -/
def alignTo (i align : Nat) : Res Nat := do
  let mask ← subU align 1
  let s ← addU i mask
  return s &&& (2 ^ 64 - 1 - mask)

/-- `usize::is_power_of_two` -/
def isPow2 (n : Nat) : Bool := n != 0 && (n &&& (n - 1)) == 0

/-- `FieldLayout<T, A>`, field_layout.rs:9-13 -/
structure FieldLayout where
  align : Nat
  size : Nat
deriving Repr, DecidableEq

namespace FieldLayout

/-- `FieldLayout::align_to`, field_layout.rs:21-29 -/
def alignTo (t a : TypeInfo) (adjacentAlign : Nat) : Res FieldLayout := do
  if !isPow2 adjacentAlign then throw (.panic .assert)
  if !(adjacentAlign ≥ a.align) then throw (.panic .assert)
  return { align := if t.align > adjacentAlign then t.align else adjacentAlign
           size := ← Nanvm.alignTo t.size adjacentAlign }

/-- `to_adjacent` / `into_adjacent_mut`, field_layout.rs:30-37: address arithmetic -/
def toAdjacent (f : FieldLayout) (r : Nat) : Nat := r + f.size

/-- `from_adjacent_mut`, field_layout.rs:40-42; the difference is not checked in the code -/
def fromAdjacent (f : FieldLayout) (r : Nat) : Nat := r - f.size

/-- `layout`, field_layout.rs:44-46 -/
def layout (f : FieldLayout) (aSize : Nat) : Res Layout := do
  return { size := ← addU f.size aSize, align := f.align }

end FieldLayout

/-- What `Block<T, D>` uses: the header type, the object type seen by `FieldLayout`, and
`T::OBJECT_ALIGN` (object.rs:8, flexible_array/mod.rs:49). -/
structure BlockType where
  header : TypeInfo
  object : TypeInfo
  objectAlign : Nat
deriving Repr, DecidableEq

/-- `Block::BLOCK_HEADER_LAYOUT`, block.rs:12-13 -/
def BlockType.headerLayout (b : BlockType) : Res FieldLayout :=
  FieldLayout.alignTo b.header b.object b.objectAlign

/-- `Block::block_layout`, block.rs:15-17 -/
def BlockType.blockLayout (b : BlockType) (objectSize : Nat) : Res Layout := do
  (← b.headerLayout).layout objectSize

/-! ### Flexible arrays -/

/-- `FLEXIBLE_HEADER_LAYOUT`, flexible_array/mod.rs:21: header type `t`, item type `i` -/
def flexHeaderLayout (t i : TypeInfo) : Res FieldLayout := FieldLayout.alignTo t i i.align

/-- `flexible_size`, flexible_array/mod.rs:40-42 -/
def flexibleSize (t i : TypeInfo) (len : Nat) : Res Nat := do
  addU (← flexHeaderLayout t i).size (← mulU len i.size)

/-- the block type of a flexible array, mod.rs:14-18 (`repr(transparent)` over the header),
45-46 (`OBJECT_ALIGN`) -/
def flexBlockType (header t i : TypeInfo) : Res BlockType := do
  return { header, object := t, objectAlign := (← flexHeaderLayout t i).align }

/-- A flexible array in memory: the header's `len()` and the item slots that follow it.
The slots of a fresh block are uninitialised (`none`). -/
structure FlexArray (α : Type) where
  len : Nat
  items : List (Option α)
deriving Repr

/-- the loop of `construct`, constructor.rs:28-30.  `src i` is the result of the `i`-th call of
`next()`; the loop has made `k` calls and has `n` slots to go. -/
def constructLoop {α : Type} (src : Nat → Option α) : Nat → Nat → Res (List α)
  | 0, _ => .ok []
  | n + 1, k =>
    match src k with
    | none => .error (.panic .unwrap)
    | some a => do return a :: (← constructLoop src n (k + 1))

/-- `FlexibleArrayConstructor::construct`, constructor.rs:24-31; `len` is `header.len()` -/
def construct {α : Type} (len : Nat) (src : Nat → Option α) : Res (FlexArray α) := do
  return { len, items := (← constructLoop src len 0).map some }

/-- `items` / `items_mut`, mod.rs:22-39: `from_raw_parts(adjacent, header.len())`.
Reading an uninitialised or missing slot is undefined behaviour, here `none`. -/
def FlexArray.read {α : Type} (f : FlexArray α) : Option (List α) :=
  (f.items.take f.len).mapM id

/-- events of `object_drop` -/
inductive DropEvent (α : Type)
  | item (a : α)
  | header
deriving Repr, DecidableEq

/-- `object_drop`, mod.rs:51-54: the items in order, then the header -/
def FlexArray.objectDrop {α : Type} (f : FlexArray α) : Option (List (DropEvent α)) := do
  return (← f.read).map .item ++ [.header]

/-! ### `Arena` -/

/-- `Arena`, arena.rs:9-15 -/
structure Arena where
  start : Nat
  stop : Nat
deriving Repr, DecidableEq

/-- `byte_add` on a pointer: addresses wrap around -/
def byteAdd (p n : Nat) : Nat := (p + n) % 2 ^ 64

/-- `<*mut u8>::align_offset` -/
def alignOffset (p align : Nat) : Nat := (align - p % align) % align

/-- `Arena::new`, arena.rs:17-25 -/
def Arena.new (base len : Nat) : Arena := ⟨base, base + len⟩

/-- `alloc`, arena.rs:45-58 -/
def Arena.alloc (a : Arena) (l : Layout) : Res (Nat × Arena) :=
  let result := byteAdd a.start (alignOffset a.start l.align)
  let start := byteAdd result l.size
  if start > a.stop then .error (.panic .explicit)
  else .ok (result, { a with start })

/-- A history of requests; a request that panics leaves the arena as it is.
Returns the blocks handed out, with their layouts. -/
def Arena.run (a : Arena) : List Layout → List (Nat × Layout) × Arena
  | [] => ([], a)
  | l :: ls =>
    match a.alloc l with
    | .ok (p, a') => let (r, a'') := a'.run ls; ((p, l) :: r, a'')
    | .error _ => a.run ls

/-! ### `Local` -/

/-- `*const Local`, local.rs:28 -/
def ptrType : TypeInfo := ⟨8, 8⟩
/-- `u8` -/
def byteType : TypeInfo := ⟨1, 1⟩

/-- `Local::layout`, local.rs:33-37 -/
def localLayout (b : Layout) : Res (FieldLayout × Layout) := do
  let h ← FieldLayout.alignTo ptrType byteType b.align
  return (h, ← h.layout b.size)

/-- The memory seen by `Local` managers: the managers (`counter`, `size`, by index), the word
stored at each address by `*p = self`, and the calls made to the global allocator. -/
structure LocalMem where
  counter : Nat → Int
  size : Nat → Nat
  word : Nat → Option Nat
  /-- blocks obtained from and not yet returned to the global allocator -/
  live : List (Nat × Layout)

/-- `alloc`, local.rs:61-68, of manager `self`; `p` is what `GLOBAL.alloc` returns -/
def LocalMem.alloc (m : LocalMem) (self : Nat) (p : Nat) (b : Layout) : Res (Nat × LocalMem) := do
  let (h, l) ← localLayout b
  let size ← addU (m.size self) l.size
  return (h.toAdjacent p,
    { counter := fun i => if i = self then m.counter i + 1 else m.counter i
      size := fun i => if i = self then size else m.size i
      word := fun a => if a = p then some self else m.word a
      live := (p, l) :: m.live })

/-- `dealloc`, local.rs:46-55.  The global allocator must be given a block it handed out, with
the same layout; otherwise the behaviour is undefined, here `none`. -/
def LocalMem.dealloc (m : LocalMem) (block : Nat) (b : Layout) : Option (Res LocalMem) :=
  match localLayout b with
  | .error e => some (.error e)
  | .ok (h, l) =>
    let p := h.fromAdjacent block
    match m.word p with
    | none => none
    | some self =>
      match subU (m.size self) l.size with
      | .error e => some (.error e)
      | .ok size =>
        if (p, l) ∈ m.live then
          some (.ok
            { counter := fun i => if i = self then m.counter i - 1 else m.counter i
              size := fun i => if i = self then size else m.size i
              word := m.word
              live := m.live.erase (p, l) })
        else none

end Nanvm
