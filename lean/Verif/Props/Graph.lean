import Verif.Lemmas.GraphReach
/-!
# C24: nested values are reclaimed completely

Histories of operations on values that own other values (`Model/Graph.lean`).
-/
namespace Nanvm
open Graph

/-- **C24** After any history of operations, a block exists exactly while it can be reached from a
handle: nothing in use is destroyed and nothing out of use remains. -/
theorem C24_live_iff_reachable (ops : List GMem.Op) (m : GMem) (e : GMem.empty.run ops = .ok m)
    (b : Nat) : Exists m b ↔ Reach m b := by
  have s := run_st e
  constructor
  · rintro ⟨n, en, p⟩
    refine s.live_reach en ?_
    have := s.nd b n en
    cases h : n.phase <;> simp_all
  · intro r
    obtain ⟨n, en, l⟩ := s.reach r
    exact ⟨n, en, by simp [l]⟩

/-- **C24** When all handles are gone no block remains. -/
theorem C24_all_released (ops : List GMem.Op) (m : GMem) (e : GMem.empty.run ops = .ok m)
    (nr : m.roots = []) (b : Nat) : ¬ Exists m b := by
  rw [C24_live_iff_reachable ops m e b]
  intro r
  induction r with
  | root ho _ => rw [nr] at ho; cases ho
  | kid _ _ _ _ ih => exact ih

/-- **C24** No history touches a block that was destroyed, destroys a block twice, or uses a block
as another type; and destroying a value always terminates. -/
theorem C24_no_memory_error (ops : List GMem.Op) :
    GMem.empty.run ops ≠ .error .memory ∧ GMem.empty.run ops ≠ .error .fuel := by
  rcases run_good ops _ st_empty with ⟨m', e', _⟩ | ⟨e', _⟩ | e' <;> rw [e'] <;> simp

/-- **C24** The full claim is false: dropping the last `Any` of a bigint panics. -/
theorem C24_no_panic_violated :
    ¬ ∀ ops, GMem.empty.run ops ≠ .error .panic := by
  intro h
  exact h [.new .bigint [], .toRef 0, .toAny .bigint 0, .drop 0] (by decide)

/-- the bigint may also be deep inside another value -/
example : GMem.empty.run [.new .bigint [], .toRef 0, .toAny .bigint 0, .new .array [0], .toRef 0,
    .toAny .array 0, .drop 0] = .error .panic := by decide

/-- **C24** Histories that put no bigint into an `Any` never panic.
Missing from the full claim: bigints held through `Any`. -/
theorem C24_no_panic_partial (ops : List GMem.Op) (nb : ∀ i, GMem.Op.toAny .bigint i ∉ ops) :
    GMem.empty.run ops ≠ .error .panic := by
  rcases run_good ops _ st_empty with ⟨m', e', _⟩ | ⟨_, b | ⟨i, hi⟩⟩ | e'
  · rw [e']; simp
  · exact absurd b not_big_empty
  · exact absurd hi (nb i)
  · rw [e']; simp

/-- **C24** In every state reached by such a history each handle can be dropped.
Missing from the full claim: bigints held through `Any`. -/
theorem C24_drop_partial (ops : List GMem.Op) (nb : ∀ i, GMem.Op.toAny .bigint i ∉ ops)
    (m : GMem) (e : GMem.empty.run ops = .ok m) (i : Nat) (hi : i < m.roots.length) :
    ∃ m', m.step (.drop i) = .ok m' ∧ m'.roots = m.roots.eraseIdx i := by
  rcases run_good ops _ st_empty with ⟨m', e', s, b⟩ | ⟨e', _⟩ | e' <;> rw [e'] at e <;> cases e
  have nbig : ¬ HasBig (all m) := by
    intro h
    rcases b h with h | ⟨i, h⟩
    · exact not_big_empty h
    · exact nb i h
  have hr : m.roots[i]? = some m.roots[i] := by simp
  dsimp only [GMem.step]
  rw [hr]
  rcases dropRoot_good s hr (.drop i) with ⟨h', e2, _⟩ | ⟨_, h⟩
  · simp only
    rw [e2]
    exact ⟨_, rfl, rfl⟩
  · exact absurd h nbig

/-- A shared string is an item of two arrays and the key of an object; one array is nested in the
other.  After the arrays are gone the string is still there, held by the object. -/
def sharedHistory : List GMem.Op :=
  [.new .string [], .toRef 0, .clone 0, .clone 0, .toAny .string 1, .toAny .string 2,
   .new .array [1], .toRef 2, .toAny .array 2, .new .array [1, 1], .toRef 1,
   .value, .new .object [0, 1], .toRef 1]

example : ∃ m, GMem.empty.run sharedHistory = .ok m ∧ m.roots = [.typed .array 2, .typed .object 3] ∧
    m.heap.map (·.counter) = [2, 0, 0, 0] := ⟨_, rfl, by decide, by decide⟩

example : (∃ m, GMem.empty.run (sharedHistory ++ [.drop 0]) = .ok m ∧
    m.heap.map (·.phase) = [.live, .freed, .freed, .live]) := ⟨_, rfl, by decide⟩

example : (∃ m, GMem.empty.run (sharedHistory ++ [.drop 0, .drop 0]) = .ok m ∧ m.roots = [] ∧
    m.heap.map (·.phase) = [.freed, .freed, .freed, .freed]) := ⟨_, rfl, by decide, by decide⟩

/-- replacing the nested array through a mutable reference destroys it -/
example : (∃ m, GMem.empty.run (sharedHistory ++ [.tryToMutRef 0, .value, .setItem 0 1 2]) = .ok m ∧
    m.heap.map (·.phase) = [.live, .freed, .live, .live]) := ⟨_, rfl, by decide⟩

example : ∀ i, GMem.Op.toAny .bigint i ∉ sharedHistory := by simp [sharedHistory]

end Nanvm
