import Verif.Lemmas.GraphFrozen
import Verif.Props.Graph
/-!
# Property theorem C75: values do not change while they are shared
-/
namespace Nanvm
open Graph

theorem WhileFrozen.frozen {b : Nat} {m m' : GMem} {ops : List GMem.Op} (w : WhileFrozen b m ops m') :
    Frozen m b := by cases w <;> assumption

theorem WhileFrozen.seen {b : Nat} {m m' : GMem} {ops : List GMem.Op} (w : WhileFrozen b m ops m')
    (s : St m) : ∀ path, seen m'.heap b path = Nanvm.seen m.heap b path := by
  induction w with
  | done f => intro path; rfl
  | step f e w ih =>
    intro path
    have s1 := step_st s e
    rw [ih s1 path]
    exact (step_seen s s1 e path b f.lent w.frozen.lent).1

/-- **C75**: from a block of which a program always holds an `Any` or a `Ref`, the same items are
read along every path, before and after any operations, whatever else the program does with this
block, with the blocks in it and with other ones. -/
theorem C75_frozen (before ops : List GMem.Op) (m m' : GMem) (b : Nat)
    (e : GMem.empty.run before = .ok m) (w : WhileFrozen b m ops m') (path : List Nat) :
    seen m'.heap b path = seen m.heap b path := w.seen (run_st e) path

/-- **C75**: the block itself exists, before and after. -/
theorem C75_exists (before ops : List GMem.Op) (m m' : GMem) (b : Nat)
    (e : GMem.empty.run before = .ok m) (w : WhileFrozen b m ops m') :
    ∃ r, seen m.heap b [] = some r ∧ seen m'.heap b [] = some r := by
  rw [C75_frozen before ops m m' b e w []]
  obtain ⟨n, hn, hl⟩ := w.frozen.lent.live (run_st e)
  exact ⟨(n.ty, n.kids), by simp [seen, hn, hl], by simp [seen, hn, hl]⟩

/-- **C75**: an operation changes the items of a block only if it is a store through a `MutRef` of
this block, and then this is the only handle of the block. -/
theorem C75_changed (before : List GMem.Op) (m m' : GMem) (op : GMem.Op) (b : Nat) (n n' : Node)
    (e : GMem.empty.run before = .ok m) (h : m.step op = .ok m') (hn : m.heap[b]? = some n)
    (hn' : m'.heap[b]? = some n') (hne : n'.kids ≠ n.kids) :
    (∃ i j k t, op = .setItem i j k ∧ m.roots[i]? = some (.mutRef t b)) ∧
    (∀ o ∈ m.roots, o.target = some b → ∃ t, o = .mutRef t b) ∧
    (∀ (c : Nat) (x : Node), m.heap[c]? = some x → x.phase = .live → ∀ o ∈ x.kids, o.target ≠ some b) := by
  have s := run_st e
  have key : ∃ i j k t, op = .setItem i j k ∧ m.roots[i]? = some (.mutRef t b) := by
    by_contra hc
    push Not at hc
    obtain ⟨n2, h1, -, h2⟩ := step_same h (fun i j k t h1 h2 => hc i j k t h1 h2) hn
    rw [hn'] at h1; cases h1
    exact hne h2
  refine ⟨key, ?_, ?_⟩
  all_goals obtain ⟨i, j, k, t, -, hr⟩ := key
  · intro o ho ht
    by_cases hm : Own.isMut o = true
    · cases o <;> first | (cases hm; done) | (cases ht; exact ⟨_, rfl⟩)
    · exact absurd (List.mem_of_getElem? hr)
        (Lent.no_mut s ⟨o, List.mem_append.2 (.inl ho), ht, by simpa using hm⟩ t)
  · intro c x hx hl o ho ht
    have he : o ∈ edges m.heap := (mem_edges _ _).2 ⟨c, x, hx, hl, ho⟩
    exact absurd (List.mem_of_getElem? hr)
      (Lent.no_mut s ⟨o, List.mem_append.2 (.inr he), ht, s.inv.nomut o he⟩ t)

/-- A string is kept in an array that is held twice.  The program gives one of the handles up, takes
the string out of the array, and tries to get mutable access to both, in vain; then it makes another
array. -/
example : ∃ m m', GMem.empty.run [.new .string [], .toRef 0, .toAny .string 0, .new .array [0],
      .toRef 0, .clone 0] = .ok m ∧
    WhileFrozen 1 m [.tryToMutRef 0, .getItem 1 0, .tryMove .string 2, .tryToMutRef 2, .drop 0,
      .new .array []] m' ∧
    seen m'.heap 1 [] = some (.array, [.any .string 0]) ∧ seen m'.heap 1 [0] = some (.string, []) := by
  refine ⟨⟨[⟨.string, 0, [], .live⟩, ⟨.array, 1, [.any .string 0], .live⟩],
      [.typed .array 1, .typed .array 1]⟩,
    ⟨[⟨.string, 1, [], .live⟩, ⟨.array, 0, [.any .string 0], .live⟩, ⟨.array, 0, [], .live⟩],
      [.typed .array 1, .typed .string 0, .mutRef .array 2]⟩, by rfl, ?_, by decide⟩
  · refine .step ⟨.array, by decide⟩ rfl (.step ⟨.array, by decide⟩ rfl (.step ⟨.array, by decide⟩ rfl
      (.step ⟨.array, by decide⟩ rfl (.step ⟨.array, by decide⟩ rfl (.step ⟨.array, by decide⟩ rfl
      (.done ⟨.array, by decide⟩))))))

/-- without a second handle the array can be changed -/
example : ∃ m m', GMem.empty.run [.value, .new .array [0], .toRef 0] = .ok m ∧
    m.run [.tryToMutRef 0, .new .string [], .toRef 1, .toAny .string 1, .setItem 0 0 1, .toRef 0] = .ok m' ∧
    seen m.heap 0 [] = some (.array, [.simple]) ∧
    seen m'.heap 0 [] = some (.array, [.any .string 1]) ∧ Frozen m 0 ∧ Frozen m' 0 :=
  ⟨_, _, rfl, rfl, by decide, by decide, ⟨.array, by decide⟩, ⟨.array, by decide⟩⟩

end Nanvm
