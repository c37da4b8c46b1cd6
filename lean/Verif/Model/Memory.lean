import Verif.Model.Graph
import Verif.Model.AnyWord
import Verif.Model.Layout
/-!
# Values in memory: `mem/manager.rs`, `mem/block.rs`, `mem/block_header.rs`, `mem/optional_ref.rs`,
`mem/optional_block.rs`, `mem/mut_ref.rs`, `mem/ref_.rs`, `mem/flexible_array`, `js/any_internal.rs`,
`js/any.rs`, `js/any_cast.rs`, `js/js_*.rs`

`Model/Graph.lean` numbers the blocks in the order of their creation and keeps what they own in
lists.  Here a block is a piece of memory at an address: a counter, a header with the length, and
the items.  Values are 64-bit words, the addresses of blocks come from an allocator and are used
again after a block was given back.

Memory maps the address of a field to its value.  Reads and writes outside of the blocks that are
allocated, or at an address that is not aligned, are errors.  Two fields of different sizes never
overlap, because the fields of a block are at fixed places; the model does not split fields into
bytes.  Managers with a counting header (`Global`, `Local`) are modelled.
-/
namespace Nanvm

/-- the memory: the fields by address, and the blocks handed out by the allocator -/
structure Ram where
  cell : Nat → W
  live : List (Nat × Layout)

namespace Ram

/-- the `n` bytes at `a` belong to a block -/
def inside (r : Ram) (a n : Nat) : Bool :=
  r.live.any fun (b : Nat × Layout) => decide (b.1 ≤ a ∧ a + n ≤ b.1 + b.2.size)

/-- read a field of `n` bytes -/
def read (r : Ram) (a n : Nat) : Except GErr W :=
  if a % n = 0 ∧ r.inside a n then .ok (r.cell a) else .error .memory

/-- write a field of `n` bytes -/
def write (r : Ram) (a n : Nat) (v : W) : Except GErr Ram :=
  if a % n = 0 ∧ r.inside a n then .ok { r with cell := fun x => if x = a then v else r.cell x }
  else .error .memory

/-- what an allocator may answer: an aligned block that overlaps no other, below `2^48` (the
addresses for which bitset.rs:30-33 has room) -/
def Fresh (r : Ram) (p : Nat) (l : Layout) : Prop :=
  0 < p ∧ p % l.align = 0 ∧ p + l.size ≤ 2 ^ 48 ∧
    ∀ b ∈ r.live, p + l.size ≤ b.1 ∨ b.1 + b.2.size ≤ p

instance (r : Ram) (p : Nat) (l : Layout) : Decidable (r.Fresh p l) := by
  unfold Fresh; infer_instance

/-- `Dealloc::dealloc`: the block must have been handed out with the same layout -/
def dealloc (r : Ram) (p : Nat) (l : Layout) : Except GErr Ram :=
  if (p, l) ∈ r.live then .ok { r with live := r.live.erase (p, l) } else .error .memory

end Ram

/-- a panic in the computation of a layout -/
def orPanic {α : Type} : Res α → Except GErr α
  | .ok a => .ok a
  | .error _ => .error .panic

/-- `Cell<isize>` (block_header.rs:31), `usize` (header.rs:15) and `JsBigintHeader`
(js_bigint.rs:24-27) -/
def wordType : TypeInfo := ⟨8, 8⟩

/-- the types of the items: js_string.rs:14, js_object.rs:15-17, js_array.rs:14, js_bigint.rs:39 -/
def itemType : RefTy → TypeInfo
  | .string => ⟨2, 2⟩
  | .object => ⟨16, 8⟩
  | .array => ⟨8, 8⟩
  | .bigint => ⟨8, 8⟩

/-- `Block::object`, block.rs:25-32: the address of the object of the block at `p` -/
def objectOf (t : RefTy) (p : Nat) : Except GErr Nat := do
  let b ← orPanic (flexBlockType wordType wordType (itemType t))
  return (← orPanic b.headerLayout).toAdjacent p

/-- `FlexibleArray::items`, flexible_array/mod.rs:22-39: the address of the first item -/
def itemsOf (t : RefTy) (p : Nat) : Except GErr Nat := do
  return (← orPanic (flexHeaderLayout wordType (itemType t))).toAdjacent (← objectOf t p)

/-- `Block::block_layout`, block.rs:15-17, for an object with `len` items -/
def layoutOf (t : RefTy) (len : Nat) : Except GErr Layout := do
  let b ← orPanic (flexBlockType wordType wordType (itemType t))
  orPanic (b.blockLayout (← orPanic (flexibleSize wordType (itemType t) len)))

/-- `FlexibleArrayHeader::len`, header.rs:15-20 and js_bigint.rs:45-49 -/
def headerLen : RefTy → W → Nat
  | .bigint, w => w.toInt.natAbs
  | _, w => w.toNat

/-- the number of fields that own something -/
def ownedFields : RefTy → Nat → Nat
  | .string, _ => 0
  | .bigint, _ => 0
  | .array, n => n
  | .object, n => 2 * n

/-- the size of a field: a property has two of them -/
def fieldSize : RefTy → Nat
  | .string => 2
  | _ => 8

/-- the type of a word, `bitset.rs:35-46` -/
def RefTy.js : RefTy → JsType
  | .string => .string
  | .object => .object
  | .array => .array
  | .bigint => .bigint

/-- a typed reference as a value -/
def RefTy.val : RefTy → W → TVal
  | .string, p => .string p
  | .object, p => .object p
  | .array, p => .array p
  | .bigint, p => .bigint p

/-- the address in a typed value -/
def TVal.addr : TVal → W
  | .string p => p
  | .object p => p
  | .array p => p
  | .bigint p => p
  | _ => 0

/-- the type of a block for a type of a value -/
def JsType.ref : JsType → Option RefTy
  | .string => some .string
  | .object => some .object
  | .array => some .array
  | .bigint => some .bigint
  | _ => none

/-- an owned value: the word of an `Any`, the address in a `Ref<T>`, the address in a `MutRef<T>` -/
inductive Hnd
  | any (w : W)
  | ref (t : RefTy) (p : Nat)
  | mutRef (t : RefTy) (p : Nat)
deriving Repr, DecidableEq

/-- values without a block -/
inductive Simple
  | null
  | bool (b : Bool)
  /-- a double, by its bits -/
  | number (bits : W)
deriving Repr, DecidableEq

/-- `Any::move_from` -/
def Simple.word : Simple → W
  | .null => moveFrom .null
  | .bool b => moveFrom (.bool b)
  | .number bits => moveFrom (.number bits)

/-- `Ref<T>::move_to_any`, any_cast.rs:42-45 -/
def anyWord (t : RefTy) (p : Nat) : W := moveFrom (t.val (BitVec.ofNat 64 p))

namespace Ram

/-- `ref_counter_update`, optional_block.rs:13-18 and block_header.rs:31-38: whether the counter was 0.
`result + val as isize` may overflow. -/
def counterUpdate (r : Ram) (p : Nat) (delta : Int) : Except GErr (Bool × Ram) := do
  let w ← r.read p wordType.size
  let (old, new) := HeaderKind.counting.update w.toInt delta
  if new < -2 ^ 63 ∨ 2 ^ 63 ≤ new then .error .panic
  else return (old = 0, ← r.write p wordType.size (BitVec.ofInt 64 new))

/-- the header of the object of a block -/
def header (r : Ram) (t : RefTy) (p : Nat) : Except GErr W := do
  r.read (← objectOf t p) wordType.size

/-- read field `k` of the items -/
def field (r : Ram) (t : RefTy) (p k : Nat) : Except GErr W := do
  r.read ((← itemsOf t p) + k * fieldSize t) (fieldSize t)

/-- a field that owns something: `Any`, or the key of a property -/
def owned (r : Ram) (t : RefTy) (p k : Nat) : Except GErr Hnd := do
  let w ← r.field t p k
  return if t = .object ∧ k % 2 = 0 then .ref .string w.toNat else .any w

/-- the loop of `drop_in_place(self.items_mut())`, flexible_array/mod.rs:54: `n` fields from `k` on -/
def dropFields (dropOne : Ram → Hnd → Except GErr Ram) (t : RefTy) (p : Nat) :
    Nat → Nat → Ram → Except GErr Ram
  | 0, _, r => .ok r
  | n + 1, k, r => do
    let h ← r.owned t p k
    dropFields dropOne t p n (k + 1) (← dropOne r h)

/-- `Block::delete`, block.rs:18-23 -/
def delete (dropOne : Ram → Hnd → Except GErr Ram) (r : Ram) (t : RefTy) (p : Nat) :
    Except GErr Ram := do
  let len := headerLen t (← r.header t p)
  let layout ← layoutOf t len
  let r ← dropFields dropOne t p (ownedFields t len) 0 r
  r.dealloc p layout

/-- dropping an owned value -/
def drop : Nat → Ram → Hnd → Except GErr Ram
  | 0, _, _ => .error .fuel
  -- optional_ref.rs:61-69 and any_internal.rs:60-76
  | f + 1, r, .any w =>
    match blockAddr w with
    | none => .ok r
    | some a => do
      let (zero, r) ← r.counterUpdate a.toNat RELEASE
      if zero then
        match deleteType w with
        | .ok .string => delete (drop f) r .string a.toNat
        | .ok .object => delete (drop f) r .object a.toNat
        | .ok .array => delete (drop f) r .array a.toNat
        | _ => .error .panic
      else return r
  -- optional_ref.rs:61-69 and optional_block.rs:32-34
  | f + 1, r, .ref t p => do
    let (zero, r) ← r.counterUpdate p RELEASE
    if zero then delete (drop f) r t p else return r
  -- mut_ref.rs:28-33
  | f + 1, r, .mutRef t p => delete (drop f) r t p

/-- `OptionalRef::clone`, optional_ref.rs:53-59 -/
def clone (r : Ram) : Hnd → Except GErr Ram
  | .any w =>
    match blockAddr w with
    | none => .ok r
    | some a => (·.2) <$> r.counterUpdate a.toNat ADD_REF
  | .ref _ p => (·.2) <$> r.counterUpdate p ADD_REF
  | .mutRef _ _ => .error .notRust

/-- the loop of `construct`, constructor.rs:28-30 -/
def writeFields (r : Ram) (size : Nat) (a : Nat) : List W → Except GErr Ram
  | [] => .ok r
  | w :: ws => do writeFields (← r.write a size w) size (a + size) ws

/-- `Manager::new`, manager.rs:28-46, when the allocator answers `p`: an object with the given
header and fields.  An answer that the allocator may not give is no execution. -/
def new (r : Ram) (t : RefTy) (header : W) (fields : List W) (p : Nat) : Except GErr Ram := do
  let l ← layoutOf t (headerLen t header)
  if r.Fresh p l then
    let r := { r with live := (p, l) :: r.live }
    let r ← r.write p wordType.size 0
    let r ← r.write (← objectOf t p) wordType.size header
    r.writeFields (fieldSize t) (← itemsOf t p) fields
  else .error .notRust

end Ram

/-- the word of an owned value in a field -/
def Hnd.word : Hnd → W
  | .any w => w
  | .ref _ p => BitVec.ofNat 64 p
  | .mutRef _ p => BitVec.ofNat 64 p

/-- what field `k` of a block of type `t` may be -/
def Hnd.fits (t : RefTy) (k : Nat) : Hnd → Bool
  | .any _ => t = .array || (t = .object && k % 2 = 1)
  | .ref .string _ => t = .object && k % 2 = 0
  | _ => false

/-- take the elements at the given positions, one after the other -/
def takeAt {α : Type} : List α → List Nat → Option (List α × List α)
  | rs, [] => some ([], rs)
  | rs, i :: is =>
    match rs[i]? with
    | some o => (takeAt (rs.eraseIdx i) is).map fun (os, rs) => (o :: os, rs)
    | none => none

/-- the memory and the handles a program holds -/
structure MMem where
  ram : Ram
  roots : List Hnd
  /-- the number of blocks made so far; it only bounds the recursion of `drop` -/
  made : Nat

namespace MMem

/-- operations of a program; a handle is named by its position, `p` is the answer of the allocator -/
inductive Op
  | value (v : Simple)
  /-- `new_string` -/
  | string (units : List (BitVec 16)) (p : Nat)
  /-- `new_bigint` -/
  | bigint (negative : Bool) (limbs : List W) (p : Nat)
  /-- `new_array`, `new_object`; an object has its keys and values in turn -/
  | array (is : List Nat) (p : Nat)
  | object (is : List Nat) (p : Nat)
  | clone (i : Nat)
  /-- `MutRef::to_ref` -/
  | toRef (i : Nat)
  /-- `Ref<T>::move_to_any` -/
  | toAny (i : Nat)
  /-- `Any::try_move::<Ref<T>>` -/
  | tryMove (t : RefTy) (i : Nat)
  /-- `Ref::try_to_mut_ref` -/
  | tryToMutRef (i : Nat)
  /-- `items().get(j).clone()` through an `Any` (`try_ref`), a `Ref` or a `MutRef` -/
  | getItem (i j : Nat)
  /-- `items_mut()[j] = v` through a `MutRef`; `v` is the handle at `k`; out of range: nothing.  The
  new value is written before the old one is dropped. -/
  | setItem (i j k : Nat)
  /-- `items_mut()[j] = u` for a string -/
  | setUnit (i j : Nat) (u : BitVec 16)
  /-- `items_mut()[j] = w` for a bigint -/
  | setLimb (i j : Nat) (w : W)
  | drop (i : Nat)
deriving Repr, DecidableEq

/-- the block behind a handle, `try_ref` of `Any` (any.rs:81-88), `Deref` (ref_.rs:24-30,
mut_ref.rs:35-41) -/
def target : Hnd → Option (RefTy × Nat)
  | .any w =>
    match getType w, blockAddr w with
    | .ok t, some a => t.ref.map fun t => (t, a.toNat)
    | _, _ => none
  | .ref t p => some (t, p)
  | .mutRef t p => some (t, p)

/-- the word of the length of a bigint, js_bigint.rs:67-70 -/
def bigintHeader (negative : Bool) (n : Nat) : W :=
  BitVec.ofInt 64 (n * if negative then -1 else 1)

/-- a new block, owned by a `MutRef`; no iterator yields `2^63` fields -/
def create (m : MMem) (rs : List Hnd) (t : RefTy) (header : W) (fields : List W) (p : Nat) :
    Except GErr MMem :=
  if fields.length < 2 ^ 63 then do
    return ⟨← m.ram.new t header fields p, rs ++ [.mutRef t p], m.made + 1⟩
  else .error .notRust

/-- a new array or object from the handles at the given positions -/
def createFrom (m : MMem) (t : RefTy) (is : List Nat) (p : Nat) : Except GErr MMem :=
  match takeAt m.roots is with
  | some (hs, rs) =>
    if (hs.zipIdx.all fun (h, k) => h.fits t k) ∧ (t = .object → hs.length % 2 = 0) then
      let n := if t = .object then hs.length / 2 else hs.length
      m.create rs t (BitVec.ofNat 64 n) (hs.map Hnd.word) p
    else .error .notRust
  | none => .error .notRust

def fuel (m : MMem) : Nat := m.made + 1

/-- one operation -/
def step (m : MMem) : Op → Except GErr MMem
  | .value v => .ok { m with roots := m.roots ++ [.any v.word] }
  | .string units p =>
    m.create m.roots .string (BitVec.ofNat 64 units.length) (units.map (·.setWidth 64)) p
  | .bigint negative limbs p =>
    m.create m.roots .bigint (bigintHeader negative limbs.length) limbs p
  | .array is p => m.createFrom .array is p
  | .object is p => m.createFrom .object is p
  | .clone i =>
    match m.roots[i]? with
    | some h => do return { m with ram := ← m.ram.clone h, roots := m.roots ++ [h] }
    | none => .error .notRust
  -- mut_ref.rs:21-25
  | .toRef i =>
    match m.roots[i]? with
    | some (.mutRef t p) => .ok { m with roots := m.roots.set i (.ref t p) }
    | _ => .error .notRust
  -- any_cast.rs:42-45
  | .toAny i =>
    match m.roots[i]? with
    | some (.ref t p) => .ok { m with roots := m.roots.set i (.any (anyWord t p)) }
    | _ => .error .notRust
  -- any.rs:45-50: on failure the argument is dropped
  | .tryMove t i =>
    match m.roots[i]? with
    | some (.any w) =>
      match Nanvm.tryMove t.js w with
      | some v => .ok { m with roots := m.roots.set i (.ref t v.addr.toNat) }
      | none => do
        return { m with ram := ← m.ram.drop m.fuel (.any w), roots := m.roots.eraseIdx i }
    | _ => .error .notRust
  -- ref_.rs:12-21
  | .tryToMutRef i =>
    match m.roots[i]? with
    | some (.ref t p) => do
      let (zero, r) ← m.ram.counterUpdate p READ
      return { m with ram := r, roots := if zero then m.roots.set i (.mutRef t p) else m.roots }
    | _ => .error .notRust
  -- flexible_array/mod.rs:24-31
  | .getItem i j =>
    match (m.roots[i]?).bind target with
    | some (t, p) => do
      let len := headerLen t (← m.ram.header t p)
      if j < ownedFields t len then
        let h ← m.ram.owned t p j
        return { m with ram := ← m.ram.clone h, roots := m.roots ++ [h] }
      else return m
    | none => .error .notRust
  -- flexible_array/mod.rs:33-40
  | .setItem i j k =>
    match m.roots[i]?, m.roots[k]? with
    | some (.mutRef t p), some v =>
      if v.fits t j then do
        let len := headerLen t (← m.ram.header t p)
        if j < ownedFields t len then
          let old ← m.ram.owned t p j
          let r ← m.ram.write ((← itemsOf t p) + j * fieldSize t) (fieldSize t) v.word
          return { m with ram := ← r.drop m.fuel old, roots := m.roots.eraseIdx k }
        else return m
      else .error .notRust
    | _, _ => .error .notRust
  | .setUnit i j u =>
    match m.roots[i]? with
    | some (.mutRef .string p) => do
      let len := headerLen .string (← m.ram.header .string p)
      if j < len then
        return { m with ram := ← m.ram.write ((← itemsOf .string p) + j * 2) 2 (u.setWidth 64) }
      else return m
    | _ => .error .notRust
  | .setLimb i j w =>
    match m.roots[i]? with
    | some (.mutRef .bigint p) => do
      let len := headerLen .bigint (← m.ram.header .bigint p)
      if j < len then
        return { m with ram := ← m.ram.write ((← itemsOf .bigint p) + j * 8) 8 w }
      else return m
    | _ => .error .notRust
  | .drop i =>
    match m.roots[i]? with
    | some h => do
      return { m with ram := ← m.ram.drop m.fuel h, roots := m.roots.eraseIdx i }
    | none => .error .notRust

/-- a history of operations -/
def run (m : MMem) : List Op → Except GErr MMem
  | [] => .ok m
  | op :: ops => do (← m.step op).run ops

/-- nothing is allocated; memory holds anything -/
def start (cell : Nat → W) : MMem := ⟨⟨cell, []⟩, [], 0⟩

end MMem
end Nanvm
