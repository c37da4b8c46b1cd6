import Verif.Spec.Sequential
import Verif.Lemmas.Threads
/-!
# Lemmas: schedules and histories of one thread
-/
namespace Nanvm
namespace Threads

/-- the counters of the blocks -/
def counters (m : HMem) : List Int := m.blocks.map Blk.counter

theorem touch_same (m : HMem) (b : Nat) :
    (m.touch b).blocks = m.blocks ∧ (m.touch b).handles = m.handles := by
  unfold HMem.touch
  split
  · split <;> exact ⟨rfl, rfl⟩
  · exact ⟨rfl, rfl⟩

theorem delete_same (m : HMem) (b : Nat) :
    counters (m.delete b) = counters m ∧ (m.delete b).handles = m.handles := by
  unfold HMem.delete
  obtain ⟨h1, h2⟩ := touch_same m b
  simp only
  split
  · rename_i x hx
    refine ⟨?_, h2⟩
    unfold counters
    simp only [List.map_set]
    rw [h1] at hx ⊢
    exact set_same (by rw [List.getElem?_map, hx]; rfl)
  · exact ⟨by unfold counters; rw [h1], h2⟩

theorem update_same (m : HMem) (b : Nat) (c d : Int) (h : (counters m)[b]? = some c) :
    (m.refCounterUpdate .counting b d).1 = decide (c = 0) ∧
    counters (m.refCounterUpdate .counting b d).2 = (counters m).set b (c + d) ∧
    (m.refCounterUpdate .counting b d).2.handles = m.handles := by
  obtain ⟨h1, h2⟩ := touch_same m b
  unfold counters at h
  rw [List.getElem?_map] at h
  cases hx : m.blocks[b]? with
  | none => rw [hx] at h; cases h
  | some x =>
    rw [hx] at h
    obtain rfl := Option.some.inj h
    unfold HMem.refCounterUpdate
    simp only [h1, hx, HeaderKind.update]
    exact ⟨rfl, by simp [counters, List.map_set], h2⟩

/-- the states agree on the handles and the counters -/
structure Alike (s : State) (m : HMem) : Prop where
  handles : m.handles = s.handles.filterMap asOne
  counters : counters m = s.blocks.map Block.counter

/-- the place of a handle in a list -/
theorem split_at {α : Type} {H : List α} {i : Nat} {h : α} (e : H[i]? = some h) :
    ∃ A C, H = A ++ h :: C ∧ A.length = i := by
  obtain ⟨hi, rfl⟩ := List.getElem?_eq_some_iff.1 e
  exact ⟨H.take i, H.drop (i + 1), by simp, by simp; omega⟩

/-- the handle at its place in the list of one thread -/
theorem alike_get {A C : List Handle} {h : Handle} {k : _root_.Nanvm.Handle} (e : asOne h = some k) :
    ((A ++ h :: C).filterMap asOne)[(A.filterMap asOne).length]? = some k := by
  simp [List.filterMap_append, e]

theorem alike_set {A C : List Handle} {h h' : Handle} {k k' : _root_.Nanvm.Handle}
    (e : asOne h = some k) (e' : asOne h' = some k') :
    ((A ++ h :: C).set A.length h').filterMap asOne =
      ((A ++ h :: C).filterMap asOne).set (A.filterMap asOne).length k' := by
  simp [List.filterMap_append, e, e']

theorem alike_set_none {A C : List Handle} {h h' : Handle} {k : _root_.Nanvm.Handle}
    (e : asOne h = some k) (e' : asOne h' = none) :
    ((A ++ h :: C).set A.length h').filterMap asOne =
      ((A ++ h :: C).filterMap asOne).eraseIdx (A.filterMap asOne).length := by
  simp [List.filterMap_append, e, e', List.eraseIdx_append_of_length_le]

theorem alike_erase {A C : List Handle} {h : Handle} {k : _root_.Nanvm.Handle}
    (e : asOne h = some k) :
    ((A ++ h :: C).eraseIdx A.length).filterMap asOne =
      ((A ++ h :: C).filterMap asOne).eraseIdx (A.filterMap asOne).length := by
  simp [List.filterMap_append, e, List.eraseIdx_append_of_length_le]

theorem alike_erase_none {A C : List Handle} {h : Handle} (e : asOne h = none) :
    ((A ++ h :: C).eraseIdx A.length).filterMap asOne = (A ++ h :: C).filterMap asOne := by
  simp [List.filterMap_append, e, List.eraseIdx_append_of_length_le]

theorem counter_at {s : State} {m : HMem} (w : Alike s m) {b : Nat} {x : Block}
    (hx : s.blocks[b]? = some x) : (counters m)[b]? = some x.counter := by
  rw [w.counters, List.getElem?_map, hx]; rfl

/-- every action is an operation of one thread, or nothing -/
theorem alike_step {s s' : State} {m : HMem} {a : Act} (hi : Inv s) (w : Alike s m)
    (e : step s a = .ok s') :
    ((∃ op m', Does a op ∧ m.step .counting op = some m' ∧ Alike s' m') ∨
      (((∃ i t, a = .send i t) ∨ ∃ i, a = .delete i) ∧ Alike s' m)) := by
  have hlen : m.blocks.length = s.blocks.length := by
    have := congrArg List.length w.counters
    simpa [counters] using this
  cases a with
  | new t =>
    left
    cases e
    refine ⟨_, _, .new t, rfl, ?_, ?_⟩
    · simp [w.handles, List.filterMap_append, asOne, hlen]
    · have := w.counters
      simp only [counters] at this ⊢
      simp [this]
  | clone i =>
    left
    simp only [step] at e
    split at e
    · rename_i t b hh
      obtain ⟨x, hx, -, hf⟩ := fetchAdd_held hi hh 1
      rw [hf] at e
      cases e
      obtain ⟨A, C, hH, rfl⟩ := split_at hh
      obtain ⟨-, u2, u3⟩ := update_same m b _ 1 (counter_at w hx)
      have hg : m.handles[(A.filterMap asOne).length]? = some (.ref b) := by
        rw [w.handles, hH]; exact alike_get rfl
      refine ⟨_, _, .clone _ (A.filterMap asOne).length, by simp only [HMem.step, hg]; rfl, ?_, ?_⟩
      · simp only [ADD_REF, u3, w.handles]
        simp [List.filterMap_append, asOne]
      · rw [w.counters] at u2
        refine Eq.trans u2 ?_
        simp only [List.map_set]
    · cases e
  | drop i =>
    left
    simp only [step] at e
    split at e
    · rename_i t b hh
      obtain ⟨x, hx, -, hf⟩ := fetchAdd_held hi hh (-1)
      rw [hf] at e
      obtain ⟨A, C, hH, rfl⟩ := split_at hh
      obtain ⟨u1, u2, u3⟩ := update_same m b _ (-1) (counter_at w hx)
      have hg : m.handles[(A.filterMap asOne).length]? = some (.ref b) := by
        rw [w.handles, hH]; exact alike_get rfl
      have hc : counters (m.refCounterUpdate .counting b (-1)).2 =
          (s.blocks.set b { x with counter := x.counter + -1 }).map Block.counter := by
        rw [u2, w.counters, List.map_set]
      by_cases h0 : x.counter = 0
      · simp only [bind, Except.bind, h0, if_true] at e
        cases e
        obtain ⟨d1, d2⟩ := delete_same (m.refCounterUpdate .counting b (-1)).2 b
        refine ⟨_, _, .drop _ (A.filterMap asOne).length, by
          simp only [HMem.step, hg, RELEASE, u1, h0, decide_true, if_true]; rfl, ?_, ?_⟩
        · simp only [d2, u3, w.handles, hH]
          exact (alike_set_none (k := .ref b) rfl rfl).symm
        · simp only [h0] at hc
          exact d1.trans hc
      · simp only [bind, Except.bind, h0, if_false] at e
        cases e
        refine ⟨_, _, .drop _ (A.filterMap asOne).length, by
          simp only [HMem.step, hg, RELEASE, u1, h0, decide_false, Bool.false_eq_true, if_false]; rfl, ?_, ?_⟩
        · simp only [u3, w.handles, hH]
          exact (alike_erase (k := .ref b) rfl).symm
        · exact hc
    · rename_i t b hh
      cases e
      obtain ⟨A, C, hH, rfl⟩ := split_at hh
      have hg : m.handles[(A.filterMap asOne).length]? = some (.mutRef b) := by
        rw [w.handles, hH]; exact alike_get rfl
      obtain ⟨d1, d2⟩ := delete_same m b
      refine ⟨_, _, .drop _ (A.filterMap asOne).length, by simp only [HMem.step, hg]; rfl, ?_, ?_⟩
      · simp only [d2, w.handles, hH]
        exact (alike_set_none (k := .mutRef b) rfl rfl).symm
      · exact d1.trans w.counters
    · cases e
  | delete i =>
    right
    refine ⟨.inr ⟨i, rfl⟩, ?_⟩
    simp only [step] at e
    split at e
    · rename_i t b hh
      obtain ⟨x, hx, -, hf⟩ := access_held hi hh (.free b)
      rw [hf] at e
      cases e
      obtain ⟨A, C, hH, rfl⟩ := split_at hh
      refine ⟨?_, ?_⟩
      · simp only [State.setBlock, w.handles, hH]
        exact (alike_erase_none rfl).symm
      · simp only [State.setBlock, w.counters, List.map_set]
        exact (set_same (by rw [List.getElem?_map, hx]; rfl)).symm
    · cases e
  | toRef i =>
    left
    simp only [step] at e
    split at e
    · rename_i t b hh
      cases e
      obtain ⟨A, C, hH, rfl⟩ := split_at hh
      have hg : m.handles[(A.filterMap asOne).length]? = some (.mutRef b) := by
        rw [w.handles, hH]; exact alike_get rfl
      refine ⟨_, _, .toRef _ (A.filterMap asOne).length, by simp only [HMem.step, hg]; rfl, ?_, ?_⟩
      · simp only [w.handles, hH]
        exact (alike_set (k := .mutRef b) rfl rfl).symm
      · exact w.counters
    · cases e
  | tryToMutRef i =>
    left
    simp only [step] at e
    split at e
    · rename_i t b hh
      obtain ⟨x, hx, -, hf⟩ := fetchAdd_held hi hh 0
      rw [hf] at e
      obtain ⟨A, C, hH, rfl⟩ := split_at hh
      obtain ⟨u1, u2, u3⟩ := update_same m b _ 0 (counter_at w hx)
      have hg : m.handles[(A.filterMap asOne).length]? = some (.ref b) := by
        rw [w.handles, hH]; exact alike_get rfl
      have hc : counters (m.refCounterUpdate .counting b 0).2 =
          (s.blocks.set b { x with counter := x.counter + 0 }).map Block.counter := by
        rw [u2, w.counters, List.map_set]
      by_cases h0 : x.counter = 0
      · simp only [bind, Except.bind, h0, if_true] at e
        cases e
        refine ⟨_, _, .tryToMutRef _ (A.filterMap asOne).length, by
          simp only [HMem.step, hg, READ, u1, h0, decide_true, if_true]; rfl, ?_, ?_⟩
        · simp only [u3, w.handles, hH]
          exact (alike_set (k := .ref b) rfl rfl).symm
        · simp only [h0] at hc
          exact hc
      · simp only [bind, Except.bind, h0, if_false] at e
        cases e
        refine ⟨_, _, .tryToMutRef _ (A.filterMap asOne).length, by
          simp only [HMem.step, hg, READ, u1, h0, decide_false, Bool.false_eq_true, if_false]; rfl, ?_, ?_⟩
        · simp only [u3, w.handles]
        · exact hc
    · cases e
  | read i =>
    left
    simp only [step] at e
    split at e
    · cases e
    · rename_i t b k hk hh
      obtain ⟨x, hx, -, hf⟩ := access_held hi hh (.read b)
      rw [hf] at e
      cases e
      obtain ⟨A, C, hH, rfl⟩ := split_at hh
      have hg : ∃ h, m.handles[(A.filterMap asOne).length]? = some h ∧ h.block = b := by
        rw [w.handles, hH]
        cases k with
        | ref => exact ⟨_, alike_get rfl, rfl⟩
        | mutRef => exact ⟨_, alike_get rfl, rfl⟩
        | deleting => exact (hk rfl).elim
      obtain ⟨h, hg, -⟩ := hg
      obtain ⟨t1, t2⟩ := touch_same m h.block
      refine ⟨_, _, .read _ (A.filterMap asOne).length, by simp only [HMem.step, hg]; rfl, ?_, ?_⟩
      · simp only [t2, w.handles]
      · simp only [counters, t1]; exact w.counters
    · cases e
  | write i =>
    left
    simp only [step] at e
    split at e
    · rename_i t b hh
      obtain ⟨x, hx, -, hf⟩ := access_held hi hh (.write b)
      rw [hf] at e
      cases e
      obtain ⟨A, C, hH, rfl⟩ := split_at hh
      have hg : m.handles[(A.filterMap asOne).length]? = some (.mutRef b) := by
        rw [w.handles, hH]; exact alike_get rfl
      obtain ⟨t1, t2⟩ := touch_same m b
      refine ⟨_, _, .write _ (A.filterMap asOne).length, by simp only [HMem.step, hg]; rfl, ?_, ?_⟩
      · simp only [_root_.Nanvm.Handle.block, t2, w.handles]
      · simp only [_root_.Nanvm.Handle.block, counters, t1]; exact w.counters
    · cases e
  | send i t =>
    right
    refine ⟨.inl ⟨i, t, rfl⟩, ?_⟩
    simp only [step] at e
    split at e
    · cases e
    · rename_i u b k hk hh
      cases e
      obtain ⟨A, C, hH, rfl⟩ := split_at hh
      refine ⟨?_, w.counters⟩
      simp only [w.handles, hH]
      cases k with
      | ref => simp [List.filterMap_append, asOne]
      | mutRef => simp [List.filterMap_append, asOne]
      | deleting => exact (hk rfl).elim
    · cases e

theorem alike_run {s s' : State} {m : HMem} (hi : Inv s) (w : Alike s m) {as : List Act}
    (e : run s as = .ok s') :
    ∃ ops m', InOrder as ops ∧ m.run .counting ops = some m' ∧ Alike s' m' := by
  induction as generalizing s m with
  | nil =>
    cases e
    exact ⟨[], m, .nil, rfl, w⟩
  | cons a as ih =>
    obtain ⟨s1, e1, e2⟩ := run_cons e
    rcases alike_step hi w e1 with ⟨op, m1, hd, h1, w1⟩ | ⟨hd, w1⟩
    · obtain ⟨ops, m', ho, h2, w2⟩ := ih (step_inv hi e1) w1 e2
      exact ⟨op :: ops, m', .does hd ho, by simp only [HMem.run, h1, Option.bind]; exact h2, w2⟩
    · obtain ⟨ops, m', ho, h2, w2⟩ := ih (step_inv hi e1) w1 e2
      rcases hd with ⟨i, t, rfl⟩ | ⟨i, rfl⟩
      · exact ⟨ops, m', .send ho, h2, w2⟩
      · exact ⟨ops, m', .delete ho, h2, w2⟩

/-! ### histories of one thread are schedules -/

/-- the handles of the state are those of one thread, which is `t` -/
structure Lone (t : Nat) (s : State) (m : HMem) : Prop where
  handles : s.handles = m.handles.map (ofOne t)
  counters : counters m = s.blocks.map Block.counter

/-- actions of the thread `t` alone -/
def Solo (t : Nat) (as : List Act) : Prop :=
  ∀ a ∈ as, (∀ u, a = .new u → u = t) ∧ ∀ i u, a ≠ .send i u

theorem Solo.one {t : Nat} {a : Act} (h : ∀ u, a = .new u → u = t) (h' : ∀ i u, a ≠ .send i u) :
    Solo t [a] := fun b hb => by
  obtain rfl := List.mem_singleton.1 hb
  exact ⟨h, h'⟩

theorem run_one (s : State) (a : Act) : run s [a] = step s a := by
  simp only [run, bind, Except.bind]
  cases step s a <;> rfl

theorem run_two {s s1 : State} {a b : Act} (h : step s a = .ok s1) : run s [a, b] = step s1 b := by
  have := run_one s1 b
  simp only [run, bind, Except.bind, h] at this ⊢
  exact this

/-- what a `drop` does before the block is deleted -/
theorem delete_step {s : State} (hi : Inv s) {i t b : Nat} (hh : s.handles[i]? = some ⟨t, b, .deleting⟩) :
    ∃ s', step s (.delete i) = .ok s' ∧ s'.handles = s.handles.eraseIdx i ∧
      s'.blocks.map Block.counter = s.blocks.map Block.counter := by
  obtain ⟨x, hx, -, hf⟩ := access_held hi hh (.free b)
  refine ⟨_, by simp only [step, hh, hf]; rfl, rfl, ?_⟩
  simp only [State.setBlock, List.map_set]
  exact set_same (by rw [List.getElem?_map, hx]; rfl)

/-- every operation of one thread is one or two actions -/
theorem lone_step {t : Nat} {s : State} {m m' : HMem} {op : HMem.Op} (hi : Inv s) (w : Lone t s m)
    (e : m.step .counting op = some m') :
    ∃ as s', run s as = .ok s' ∧ Solo t as ∧ Lone t s' m' ∧
      ∀ as' ops, InOrder as' ops → InOrder (as ++ as') (op :: ops) := by
  have hlen : m.blocks.length = s.blocks.length := by
    have := congrArg List.length w.counters
    simpa [counters] using this
  have get : ∀ {i : Nat} {h : _root_.Nanvm.Handle}, m.handles[i]? = some h → s.handles[i]? = some (ofOne t h) := by
    intro i h hh
    rw [w.handles, List.getElem?_map, hh]; rfl
  cases op with
  | new =>
    cases e
    refine ⟨[.new t], _, run_one _ _, .one (fun u h => by cases h; rfl) nofun, ⟨?_, ?_⟩,
      fun _ _ h => .does (.new t) h⟩
    · simp [w.handles, ofOne, hlen]
    · have := w.counters
      simp only [counters] at this ⊢
      simp [this]
  | clone i =>
    simp only [HMem.step] at e
    split at e
    · rename_i b hh
      cases e
      have hg : s.handles[i]? = some ⟨t, b, .ref⟩ := get hh
      obtain ⟨x, hx, -, hf⟩ := fetchAdd_held hi hg 1
      obtain ⟨-, u2, u3⟩ := update_same m b x.counter 1 (by
        rw [w.counters, List.getElem?_map, hx]; rfl)
      refine ⟨[.clone i], _, (run_one _ _).trans (by simp only [step, hg, hf]; rfl), .one nofun nofun,
        ⟨?_, ?_⟩, fun _ _ h => .does (.clone i i) h⟩
      · simp only [ADD_REF, u3, w.handles]
        simp [ofOne]
      · rw [w.counters] at u2
        refine Eq.trans u2 ?_
        simp only [List.map_set]
    · cases e
  | toRef i =>
    simp only [HMem.step] at e
    split at e
    · rename_i b hh
      cases e
      have hg : s.handles[i]? = some ⟨t, b, .mutRef⟩ := get hh
      refine ⟨[.toRef i], _, (run_one _ _).trans (by simp only [step, hg]; rfl), .one nofun nofun,
        ⟨?_, ?_⟩, fun _ _ h => .does (.toRef i i) h⟩
      · simp only [w.handles, List.map_set, ofOne]
      · exact w.counters
    · cases e
  | tryToMutRef i =>
    simp only [HMem.step] at e
    split at e
    · rename_i b hh
      have hg : s.handles[i]? = some ⟨t, b, .ref⟩ := get hh
      obtain ⟨x, hx, -, hf⟩ := fetchAdd_held hi hg 0
      obtain ⟨u1, u2, u3⟩ := update_same m b x.counter 0 (by
        rw [w.counters, List.getElem?_map, hx]; rfl)
      have hc : counters (m.refCounterUpdate .counting b 0).2 =
          (s.blocks.set b { x with counter := x.counter + 0 }).map Block.counter := by
        rw [u2, w.counters, List.map_set]
      by_cases h0 : x.counter = 0
      · simp only [READ, u1, h0, decide_true, if_true] at e
        cases e
        refine ⟨[.tryToMutRef i], _, (run_one _ _).trans (by
          simp only [step, hg, hf, bind, Except.bind, h0, if_true]; rfl), .one nofun nofun, ⟨?_, ?_⟩,
          fun _ _ h => .does (.tryToMutRef i i) h⟩
        · simp only [u3, w.handles, List.map_set, ofOne]
        · simp only [h0] at hc
          exact hc
      · simp only [READ, u1, h0, decide_false, Bool.false_eq_true, if_false] at e
        cases e
        refine ⟨[.tryToMutRef i], _, (run_one _ _).trans (by
          simp only [step, hg, hf, bind, Except.bind, h0, if_false]; rfl), .one nofun nofun, ⟨?_, hc⟩,
          fun _ _ h => .does (.tryToMutRef i i) h⟩
        simp only [u3, w.handles]
    · cases e
  | deref i =>
    simp only [HMem.step] at e
    split at e
    · rename_i h hh
      cases e
      have hg := get hh
      obtain ⟨t1, t2⟩ := touch_same m h.block
      have hs : ∃ s', step s (.read i) = .ok s' ∧ s'.handles = s.handles ∧ s'.blocks = s.blocks := by
        cases h with
        | ref b =>
          obtain ⟨x, hx, -, hf⟩ := access_held (k := .ref) hi hg (.read b)
          simp only [ofOne] at hg
          exact ⟨{ s with trace := s.trace ++ [(t, .read b)] }, by simp only [step, hg, hf]; rfl, rfl, rfl⟩
        | mutRef b =>
          obtain ⟨x, hx, -, hf⟩ := access_held (k := .mutRef) hi hg (.read b)
          simp only [ofOne] at hg
          exact ⟨{ s with trace := s.trace ++ [(t, .read b)] }, by simp only [step, hg, hf]; rfl, rfl, rfl⟩
      obtain ⟨s', e1, e2, e3⟩ := hs
      refine ⟨[.read i], s', (run_one _ _).trans e1, .one nofun nofun, ⟨?_, ?_⟩,
        fun _ _ h => .does (.read i i) h⟩
      · rw [e2, t2]; exact w.handles
      · simp only [counters, t1, e3]; exact w.counters
    · cases e
  | drop i =>
    simp only [HMem.step] at e
    split at e
    · rename_i b hh
      have hg : s.handles[i]? = some ⟨t, b, .ref⟩ := get hh
      obtain ⟨x, hx, -, hf⟩ := fetchAdd_held hi hg (-1)
      obtain ⟨u1, u2, u3⟩ := update_same m b x.counter (-1) (by
        rw [w.counters, List.getElem?_map, hx]; rfl)
      have hc : counters (m.refCounterUpdate .counting b (-1)).2 =
          (s.blocks.set b { x with counter := x.counter + -1 }).map Block.counter := by
        rw [u2, w.counters, List.map_set]
      by_cases h0 : x.counter = 0
      · simp only [RELEASE, u1, h0, decide_true, if_true] at e
        cases e
        obtain ⟨d1, d2⟩ := delete_same (m.refCounterUpdate .counting b (-1)).2 b
        have e1 : ∃ s1, step s (.drop i) = .ok s1 ∧ s1.handles = s.handles.set i ⟨t, b, .deleting⟩ ∧
            s1.blocks = s.blocks.set b { x with counter := x.counter + -1 } := by
          refine ⟨_, by simp only [step, hg, hf, bind, Except.bind, h0, if_true]; rfl, rfl, ?_⟩
          simp only [h0]
        obtain ⟨s1, e1, e2, e3⟩ := e1
        obtain ⟨hlt, -⟩ := List.getElem?_eq_some_iff.1 hg
        obtain ⟨s2, f1, f2, f3⟩ := delete_step (i := i) (t := t) (b := b) (step_inv hi e1) (by
          rw [e2, List.getElem?_set_self hlt])
        refine ⟨[.drop i, .delete i], s2, (run_two e1).trans f1, ?_, ⟨?_, ?_⟩,
          fun _ _ h => .does (.drop i i) (.delete h)⟩
        · exact fun a ha => by
            rcases List.mem_cons.1 ha with rfl | ha
            · exact ⟨nofun, nofun⟩
            · obtain rfl := List.mem_singleton.1 ha
              exact ⟨nofun, nofun⟩
        · rw [f2, e2, List.eraseIdx_set_eq, w.handles]
          simp only [d2, u3, List.eraseIdx_map]
        · rw [f3, e3]
          exact d1.trans hc
      · simp only [RELEASE, u1, h0, decide_false, Bool.false_eq_true, if_false] at e
        cases e
        refine ⟨[.drop i], _, (run_one _ _).trans (by
          simp only [step, hg, hf, bind, Except.bind, h0, if_false]; rfl), .one nofun nofun, ⟨?_, ?_⟩,
          fun _ _ h => .does (.drop i i) h⟩
        · simp only [u3, w.handles, List.eraseIdx_map]
        · exact hc
    · rename_i b hh
      cases e
      have hg : s.handles[i]? = some ⟨t, b, .mutRef⟩ := get hh
      obtain ⟨d1, d2⟩ := delete_same m b
      have e1 : ∃ s1, step s (.drop i) = .ok s1 ∧ s1.handles = s.handles.set i ⟨t, b, .deleting⟩ ∧
          s1.blocks = s.blocks :=
        ⟨{ s with handles := s.handles.set i ⟨t, b, .deleting⟩ }, by simp only [step, hg], rfl, rfl⟩
      obtain ⟨s1, e1, e2, e3⟩ := e1
      obtain ⟨hlt, -⟩ := List.getElem?_eq_some_iff.1 hg
      obtain ⟨s2, f1, f2, f3⟩ := delete_step (i := i) (t := t) (b := b) (step_inv hi e1) (by
        rw [e2, List.getElem?_set_self hlt])
      refine ⟨[.drop i, .delete i], s2, (run_two e1).trans f1, ?_, ⟨?_, ?_⟩,
        fun _ _ h => .does (.drop i i) (.delete h)⟩
      · exact fun a ha => by
          rcases List.mem_cons.1 ha with rfl | ha
          · exact ⟨nofun, nofun⟩
          · obtain rfl := List.mem_singleton.1 ha
            exact ⟨nofun, nofun⟩
      · rw [f2, e2, List.eraseIdx_set_eq, w.handles]
        simp only [d2, List.eraseIdx_map]
      · rw [f3, e3]
        exact d1.trans w.counters
    · cases e

theorem run_append {s s1 : State} {as : List Act} (h : run s as = .ok s1) (bs : List Act) :
    run s (as ++ bs) = run s1 bs := by
  induction as generalizing s with
  | nil => cases h; rfl
  | cons a as ih =>
    obtain ⟨s2, e1, e2⟩ := run_cons h
    simp only [List.cons_append, run, bind, Except.bind, e1]
    exact ih e2

theorem lone_run {t : Nat} {s : State} {m m' : HMem} {ops : List HMem.Op} (hi : Inv s) (w : Lone t s m)
    (e : m.run .counting ops = some m') :
    ∃ as s', InOrder as ops ∧ Solo t as ∧ run s as = .ok s' ∧ Lone t s' m' := by
  induction ops generalizing s m with
  | nil =>
    cases e
    exact ⟨[], s, .nil, nofun, rfl, w⟩
  | cons op ops ih =>
    simp only [HMem.run] at e
    cases e1 : m.step .counting op with
    | none => rw [e1] at e; cases e
    | some m1 =>
      rw [e1] at e
      obtain ⟨as, s1, r1, o1, w1, hin⟩ := lone_step hi w e1
      obtain ⟨as', s', ho, o2, r2, w2⟩ := ih (run_inv hi r1) w1 e
      refine ⟨as ++ as', s', hin _ _ ho, fun a ha => ?_, (run_append r1 _).trans r2, w2⟩
      rcases List.mem_append.1 ha with h | h
      · exact o1 a h
      · exact o2 a h

end Threads
end Nanvm
