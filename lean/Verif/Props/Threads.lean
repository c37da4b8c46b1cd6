import Verif.Lemmas.Threads
import Verif.Lemmas.Sequential
import Verif.Props.Handles
/-!
# C87: handles of several threads

A list of actions is a schedule: any interleaving of what any number of threads do.
-/
namespace Nanvm
namespace Threads

/-- **C87** (what holds): under no schedule is a deleted block accessed. -/
theorem C87_no_use_after_free_partial (as : List Act) : run .empty as ≠ .error .memory :=
  run_memory empty_inv as

/-- **C87** (what holds): under every schedule no block is deleted twice, and a block is deleted exactly
if no thread has a handle of it (a `drop` that is about to delete the block counts as one). -/
theorem C87_once_partial (as : List Act) (s : State) (h : run .empty as = .ok s) :
    s.freed.Nodup ∧ ∀ b < s.blocks.length, b ∈ s.freed ↔ ∀ k ∈ s.handles, k.block ≠ b := by
  have hi := run_inv empty_inv h
  refine ⟨hi.nodup, fun b hb => ?_⟩
  have hx := List.getElem?_eq_getElem hb
  generalize s.blocks[b] = x at hx
  have hb := hi.blocks b x hx
  rw [hi.freed]
  constructor
  · rintro ⟨y, hy, hd⟩ k hk rfl
    rw [hx] at hy
    obtain rfl := Option.some.inj hy
    have h1 : k ∈ of k.block s.handles := mem_of.2 ⟨hk, rfl⟩
    rw [hb.dead hd] at h1
    cases h1
  · intro hn
    refine ⟨x, hx, ?_⟩
    cases ha : x.alive with
    | false => rfl
    | true =>
      refine absurd ?_ (hb.held ha)
      exact List.filter_eq_nil_iff.2 fun k hk => by simpa using hn k hk

/-- **C87** (what holds): every state that threads reach is one that a single thread reaches by the same
operations in the same order.  The handles and the counters are the same, and a block is deleted if no
handle is left but those of a `drop` that is about to delete it. -/
theorem C87_sequential_partial (as : List Act) (s : State) (h : run .empty as = .ok s) :
    ∃ ops m, InOrder as ops ∧ HMem.empty.run .counting ops = some m ∧
      m.handles = s.handles.filterMap asOne ∧
      m.blocks.map Blk.counter = s.blocks.map Block.counter ∧ m.badAccess = 0 ∧
      ∀ b x, m.blocks[b]? = some x →
        x.deleted = if ∀ k ∈ s.handles, k.block = b → k.kind = .deleting then 1 else 0 := by
  obtain ⟨ops, m, ho, hr, w⟩ := alike_run (m := HMem.empty) empty_inv ⟨rfl, rfl⟩ h
  obtain ⟨h1, h2⟩ := C22_destroyed_once ops m hr
  refine ⟨ops, m, ho, hr, w.handles, w.counters, h1, fun b x hx => (h2 b x hx).trans ?_⟩
  have : handlesTo m b = 0 ↔ ∀ k ∈ s.handles, k.block = b → k.kind = .deleting := by
    unfold handlesTo
    rw [w.handles, List.length_eq_zero_iff, List.filter_eq_nil_iff]
    constructor
    · rintro hn ⟨t, c, k⟩ hk rfl
      cases k with
      | ref => exact absurd (hn _ (List.mem_filterMap.2 ⟨_, hk, rfl⟩)) (by simp [_root_.Nanvm.Handle.block])
      | mutRef => exact absurd (hn _ (List.mem_filterMap.2 ⟨_, hk, rfl⟩)) (by simp [_root_.Nanvm.Handle.block])
      | deleting => rfl
    · intro hn k hk
      obtain ⟨⟨t, c, q⟩, hq, he⟩ := List.mem_filterMap.1 hk
      cases q with
      | ref =>
        cases he
        simp only [decide_eq_true_eq]
        exact fun e => absurd (hn _ hq e) (by simp)
      | mutRef =>
        cases he
        simp only [decide_eq_true_eq]
        exact fun e => absurd (hn _ hq e) (by simp)
      | deleting => cases he
  simp only [this]

/-- **C87**: conversely, whatever a single thread does is a schedule of one thread (any), with the same
handles and counters, in which the same blocks are deleted.  So the two models agree. -/
theorem C87_one_thread (t : Nat) (ops : List HMem.Op) (m : HMem)
    (h : HMem.empty.run .counting ops = some m) :
    ∃ as s, InOrder as ops ∧ (∀ a ∈ as, (∀ u, a = .new u → u = t) ∧ ∀ i u, a ≠ .send i u) ∧
      run .empty as = .ok s ∧ s.handles = m.handles.map (ofOne t) ∧
      s.blocks.map Block.counter = m.blocks.map Blk.counter ∧
      ∀ (b : Nat) (x : Blk) (y : Block), m.blocks[b]? = some x → s.blocks[b]? = some y →
        (y.alive = true ↔ x.deleted = 0) := by
  obtain ⟨as, s, ho, hs, hr, w⟩ := lone_run (t := t) (s := .empty) empty_inv ⟨rfl, rfl⟩ h
  refine ⟨as, s, ho, hs, hr, w.handles, w.counters.symm, fun b x y hx hy => ?_⟩
  have hd := (C22_destroyed_once ops m h).2 b x hx
  have hb := (run_inv empty_inv hr).blocks b y hy
  have he : handlesTo m b = (of b s.handles).length := by
    unfold handlesTo of
    rw [w.handles, List.filter_map, List.length_map]
    congr 1
    refine List.filter_congr fun k _ => ?_
    cases k <;> rfl
  rw [hd, he]
  constructor
  · intro ha
    rw [if_neg fun h0 => hb.held ha (List.length_eq_zero_iff.1 h0)]
  · intro h0
    cases ha : y.alive with
    | true => rfl
    | false =>
      rw [hb.dead ha] at h0
      simp at h0

/-- the hypothesis: a thread that clones and drops handles -/
example : (HMem.empty.run .counting [.new, .toRef 0, .clone 0, .drop 1, .drop 0]).map
    (fun m => m.blocks.map Blk.deleted) = some [1] := by decide

/-- **C87** (what holds): under every schedule the thread with a `MutRef` of a block, or which deletes it,
has the only handle of it. -/
theorem C87_exclusive_partial (as : List Act) (s : State)
    (h : run .empty as = .ok s) (i j : Nat) (k k' : Handle) (hi : s.handles[i]? = some k)
    (hj : s.handles[j]? = some k') (hne : i ≠ j) (hk : k.kind ≠ .ref) : k'.block ≠ k.block := by
  intro hb
  have hinv := run_inv empty_inv h
  obtain ⟨x, hx, ha⟩ := hinv.alive (List.mem_of_getElem? hi)
  have hok := (hinv.blocks _ x hx).perm (of_perm (taken hi))
  rw [of_cons rfl] at hok
  have hR := hok.only hk ha
  have hm : k' ∈ s.handles.eraseIdx i := by
    refine List.mem_of_getElem? (i := if j < i then j else j - 1) ?_
    rw [List.getElem?_eraseIdx]
    by_cases hlt : j < i
    · rw [if_pos hlt, if_pos hlt]; exact hj
    · rw [if_neg hlt, if_neg (by omega), show j - 1 + 1 = j by omega]; exact hj
  have : k' ∈ of k.block (s.handles.eraseIdx i) := mem_of.2 ⟨hm, hb⟩
  rw [hR] at this
  cases this

/-- **C87** (what holds): there are no data races as long as no handle is given to another thread, which
safe programs cannot do as handles are not `Send`. -/
theorem C87_kept_partial (o : MemOrder) (as : List Act) (h : ∀ a ∈ as, ∀ i t, a ≠ .send i t) (s : State)
    (hr : run .empty as = .ok s) : ¬ Race o s.trace :=
  run_own empty_inv empty_traceOk empty_own empty_together empty_noRace h hr

/-- **C87**: with the ordering of the code there is a data race once a handle is given to another
thread.  The other thread releases its handle; then this thread releases the last one and deletes the
block.  Nothing orders the first before the last. -/
theorem C87_violated : ∃ as s, run .empty as = .ok s ∧ Race .relaxed s.trace := by
  refine ⟨[.new 0, .toRef 0, .clone 0, .send 1 1, .drop 1, .drop 0, .delete 0],
    ⟨[⟨-1, false⟩], [], [0], [(0, .make 0), (0, .count 0), (0, .give 1), (1, .count 0), (0, .count 0),
      (0, .free 0)]⟩, rfl, 3, 5, 1, 0, .count 0, .free 0, by decide, rfl, rfl, ⟨.header 0, by decide⟩,
    silent (v := 1) (by simp) rfl rfl rfl (by decide)⟩

/-- **C87**: nor are the reads of another thread ordered before a write through a `MutRef`. -/
theorem C87_write_violated : ∃ as s i j, run .empty as = .ok s ∧ i < j ∧
    s.trace[i]? = some (1, .read 0) ∧ s.trace[j]? = some (0, .write 0) ∧ ¬ HB .relaxed s.trace i j := by
  refine ⟨[.new 0, .toRef 0, .clone 0, .send 1 1, .read 1, .drop 1, .tryToMutRef 0, .write 0],
    ⟨[⟨0, true⟩], [⟨0, 0, .mutRef⟩], [], [(0, .make 0), (0, .count 0), (0, .give 1), (1, .read 0),
      (1, .count 0), (0, .count 0), (0, .write 0)]⟩, 3, 6, rfl, by decide, rfl, rfl,
    silent (v := 1) (by simp) rfl rfl rfl (by decide)⟩

/-- **C87**: the ordering is all that is missing.  With `AcqRel` in its place no schedule has a race. -/
theorem C87_acq_rel_partial (as : List Act) (s : State) (hr : run .empty as = .ok s) :
    ¬ Race .acqRel s.trace :=
  run_seen empty_inv empty_traceOk empty_seen empty_noRace hr

/-- the two schedules above are among those -/
example : (run .empty
    [.new 0, .toRef 0, .clone 0, .send 1 1, .drop 1, .drop 0, .delete 0]).map (·.freed) = .ok [0] := rfl

example : (run .empty
    [.new 0, .toRef 0, .clone 0, .send 1 1, .read 1, .drop 1, .tryToMutRef 0, .write 0]).map
      (fun s => (s.handles, s.freed)) = .ok ([⟨0, 0, .mutRef⟩], []) := rfl

/-- two threads with a block each: the hypotheses of `C87_kept_partial` -/
example : (run .empty
    [.new 0, .new 1, .toRef 0, .write 1, .clone 0, .toRef 1, .read 2, .drop 0, .drop 0, .read 1,
      .delete 0]).map (fun s => (s.handles, s.freed)) =
    .ok ([⟨0, 0, .ref⟩], [1]) := rfl

/-- a schedule of two threads and the history of one thread for it -/
example :
    (run .empty [.new 0, .toRef 0, .clone 0, .send 1 1, .drop 0, .drop 0, .new 2, .delete 0]).map
      (fun s => (s.handles.filterMap asOne, s.blocks.map Block.counter)) = .ok ([.mutRef 1], [-1, 0]) ∧
    (HMem.empty.run .counting [.new, .toRef 0, .clone 0, .drop 0, .drop 0, .new]).map
      (fun m => (m.handles, m.blocks)) = some ([.mutRef 1], [⟨-1, 1⟩, ⟨0, 0⟩]) := ⟨rfl, rfl⟩

/-- two `drop`s at the same time: only the second deletes the block, whichever it is -/
example : (run .empty [.new 0, .toRef 0, .clone 0, .send 1 1, .drop 0, .drop 0]).map
    (·.handles) = .ok [⟨1, 0, .deleting⟩] ∧
    (run .empty [.new 0, .toRef 0, .clone 0, .send 1 1, .drop 1, .drop 0]).map
    (·.handles) = .ok [⟨0, 0, .deleting⟩] := ⟨rfl, rfl⟩

/-- there are races to be found: two threads that write one block without handles -/
example : Race .acqRel [(0, .write 0), (1, .write 0)] := by
  refine ⟨0, 1, 0, 1, .write 0, .write 0, by decide, rfl, rfl, ⟨.object 0, by decide⟩, ?_⟩
  intro h
  have : ∀ i j, HB .acqRel [(0, .write 0), (1, .write 0)] i j → i < j → False := by
    intro i j h
    induction h with
    | thread i j t x y hij hi hj =>
      rcases i with _ | _ | i <;> rcases j with _ | _ | j <;> simp at hi hj hij <;> omega
    | give i j t u y hij hi hj => rcases i with _ | _ | i <;> simp at hi
    | count i j t u b ho hij hi hj => rcases i with _ | _ | i <;> simp at hi
    | trans i j k h1 h2 ih1 ih2 =>
      intro hik
      by_cases hij : i < j
      · exact ih1 hij
      · exact ih2 (by omega)
  exact this 0 1 h (by decide)

end Threads
end Nanvm
