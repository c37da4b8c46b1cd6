import Verif.Lemmas.MemRun
/-!
# C80: values in reference-counted memory behave like plain values

A program makes strings, bigints, arrays and objects in memory, clones, shares, converts, reads,
changes and drops them.  Blocks are at the addresses an allocator answers, counters are cells of
memory, and memory is used again.  The theorems say that the program sees exactly the values that it
would see without memory, with every history of operations, every allocator and every initial
content of memory.

The two exceptions are known from C20 and C24: a double whose bits lie in the range of the other
values, and a bigint in an `Any`.
-/
namespace Nanvm
open Graph

/-- a history used in the examples: an array of a shared string and `true`; the string is read from
the array, the array is dropped, its memory is used for another string, which is then changed -/
def memoryExample : List MMem.Op :=
  [.string [104, 105] 64, .toRef 0, .toAny 0, .clone 0, .value (.bool true), .array [0, 1] 96, .toRef 1,
    .getItem 1 0, .drop 1, .string [1] 96, .setUnit 2 0 5]

theorem memoryExample_clean : ∀ op ∈ memoryExample, CleanOp op := by
  intro op h
  simp only [memoryExample, List.mem_cons, List.not_mem_nil, or_false] at h
  rcases h with rfl | rfl | rfl | rfl | rfl | rfl | rfl | rfl | rfl | rfl | rfl <;> trivial

/-- **C80** After every history, every handle reads as the value that it would be if there were no
memory, no counters and no sharing.  The full statement has no hypothesis on the numbers; without it
the statement is false, see `C80_number_violated`. -/
theorem C80_values_partial (cell : Nat → W) (ops : List MMem.Op) (clean : ∀ op ∈ ops, CleanOp op) (m : MMem)
    (e : (MMem.start cell).run ops = .ok m) : ∃ ts, VRun [] ops ts ∧ Holding m ts := by
  obtain ⟨-, -, ts, -, V, H, -⟩ := sim_run clean e
  exact ⟨ts, V, H⟩

/-- the hypotheses of `C80_values_partial` are met; the handles of the example are an `Any` of the
string at 64, twice, and a `MutRef` of the string at 96, where the array has been -/
example : ∃ m, (MMem.start fun _ => 77).run memoryExample = .ok m ∧
    m.roots = [.any (anyWord .string 64), .any (anyWord .string 64), .mutRef .string 96] ∧
    VRun [] memoryExample [(.any, .string [104, 105]), (.any, .string [104, 105]), (.mutRef .string, .string [5])] :=
  ⟨_, rfl, rfl,
    .cons .string (.cons (.toRef rfl) (.cons (.toAny rfl) (.cons (.clone rfl (by simp)) (.cons .value
      (.cons (.array (.cons [] _ _ (.cons [_] _ _ .nil)) (by simp)) (.cons (.toRef rfl)
      (.cons (.getItem rfl rfl rfl rfl) (.cons (.drop (by simp)) (.cons .string (.cons (.setUnit rfl) .nil))))))))))⟩

/-- **C80** A handle reads as one value only, so `Holding` determines what the program sees. -/
theorem C80_unique (r : Ram) (h : Hnd) (v v' : Tree) (d : Decodes r h v) (d' : Decodes r h v') : v = v' :=
  decodes_unique d v' d'

example : Decodes (MMem.start fun _ => 0).ram (.any (Simple.word (.bool true))) (.simple (.bool true)) := .bool rfl

/-- **C80** No operation of a history accesses memory that is not allocated or not aligned, gives
back memory twice or with another layout, or recurses forever: a history succeeds, or it is refused
because it is no program, or it panics. -/
theorem C80_memory_safe_partial (cell : Nat → W) (ops : List MMem.Op) (clean : ∀ op ∈ ops, CleanOp op) :
    (∃ m, (MMem.start cell).run ops = .ok m) ∨ (MMem.start cell).run ops = .error .notRust ∨
      (MMem.start cell).run ops = .error .panic := by
  rcases mem_run ops _ _ _ _ (sim_start cell) (holding_start cell) clean with ⟨-, -, m, -, q, -⟩ | q | ⟨q, -⟩
  · exact .inl ⟨m, q⟩
  · exact .inr (.inl q)
  · exact .inr (.inr q)

/-- **C80** A program that holds no handle has given back all memory. -/
theorem C80_no_leak_partial (cell : Nat → W) (ops : List MMem.Op) (clean : ∀ op ∈ ops, CleanOp op) (m : MMem)
    (e : (MMem.start cell).run ops = .ok m) (none : m.roots = []) : m.ram.live = [] := by
  obtain ⟨_, _, _, S, -⟩ := sim_run clean e
  exact sim_no_leak S none

example : ∃ m, (MMem.start fun _ => 77).run (memoryExample ++ [.drop 2, .drop 0, .drop 0]) = .ok m ∧ m.roots = [] :=
  ⟨_, rfl, rfl⟩

/-- **C80** A history with fewer than `2^59` operations, strings and bigints of fewer than `2^59`
units, and no bigint in an `Any` does not panic. -/
theorem C80_no_panic_partial (cell : Nat → W) (ops : List MMem.Op) (clean : ∀ op ∈ ops, CleanOp op)
    (short : ops.length < 2 ^ 59) (small : ∀ op ∈ ops, ShortOp op) (typed : TypedBigints (MMem.start cell) ops) :
    (MMem.start cell).run ops ≠ .error .panic := by
  intro e
  rcases mem_run ops _ _ _ _ (sim_start cell) (holding_start cell) clean with ⟨-, -, m, -, q, -⟩ | q | ⟨-, c⟩
  · rw [q] at e; cases e
  · rw [q] at e; cases e
  · rcases c with c | ⟨op, ho, c⟩ | c | c
    · simp [all, GMem.empty, edges] at c; omega
    · exact c (small op ho)
    · exact not_big_empty c
    · exact c typed

example : TypedBigints (MMem.start fun _ => 0) [.bigint true [7] 16, .toRef 0, .tryToMutRef 0, .setLimb 0 0 8] := by
  refine ⟨by simp, fun m _ => ⟨by simp, fun m _ => ⟨by simp, fun m _ => ⟨by simp, fun m _ => trivial⟩⟩⟩⟩

/-- **C80** An operation that makes sense for the values a program holds is not refused, if the
allocator answers with a block that is free.  So the histories of the other theorems are those of
programs over values. -/
theorem C80_defined_partial (cell : Nat → W) (ops : List MMem.Op) (clean : ∀ op ∈ ops, CleanOp op) (m : MMem)
    (e : (MMem.start cell).run ops = .ok m) (ts ts' : Vals) (H : Holding m ts) (op : MMem.Op) (V : VStep ts op ts')
    (room : Room m op) : m.step op ≠ .error .notRust := by
  obtain ⟨_, _, _, S, -⟩ := sim_run clean e
  exact step_nr S H V room

/-- in the empty memory there is room at 8 -/
example : VStep [] (.string [65] 8) ([] ++ [(.mutRef .string, .string [65])]) ∧
    Room (MMem.start fun _ => 0) (.string [65] 8) :=
  ⟨.string, by decide, by decide, by decide, by decide, by simp [MMem.start]⟩

/-- **C80** The answers of the allocator and the initial content of memory cannot be observed: the
same operations give the same values in handles of the same kinds; in particular `try_to_mut_ref`
succeeds in both or in none. -/
theorem C80_addresses_partial (cell cell' : Nat → W) (ops ops' : List MMem.Op) (same : SameOps ops ops')
    (clean : ∀ op ∈ ops, CleanOp op) (m m' : MMem) (e : (MMem.start cell).run ops = .ok m)
    (e' : (MMem.start cell').run ops' = .ok m') : ∃ ts, Holding m ts ∧ Holding m' ts :=
  same_run ops ops' _ _ _ _ _ m m' [] same (sim_start cell) (sim_start cell') (holding_start cell)
    (holding_start cell') clean e e'

/-- the second string is put where the first one has been, or elsewhere -/
example : SameOps [.string [1] 8, .drop 0, .string [2] 8] [.string [1] 64, .drop 0, .string [2] 128] ∧
    (∃ m, (MMem.start fun _ => 0).run [.string [1] 8, .drop 0, .string [2] 8] = .ok m) ∧
    ∃ m, (MMem.start fun _ => 9).run [.string [1] 64, .drop 0, .string [2] 128] = .ok m :=
  ⟨.cons (.string ..) (.cons (.refl _) (.cons (.string ..) .nil)), ⟨_, rfl⟩, ⟨_, rfl⟩⟩

/-- **C80** violated for numbers: a double whose bits lie in the range of references is taken for the
address of a block; dropping it accesses memory that is not allocated. -/
theorem C80_number_violated : (MMem.start fun _ => 0).run [.value (.number 0xfffe000000000008#64), .drop 0] =
    .error .memory := rfl

/-- **C80** violated for bigints: dropping the last `Any` of a bigint panics (C24). -/
theorem C80_bigint_violated : (MMem.start fun _ => 0).run [.bigint false [1#64] 8, .toRef 0, .toAny 0, .drop 0] =
    .error .panic := rfl

end Nanvm
