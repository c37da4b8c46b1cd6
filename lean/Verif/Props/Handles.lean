import Verif.Model.Handles
import Mathlib.Tactic.Common
/-! # C22, C23: reference counting -/
namespace Nanvm
open HMem

/-- the number of handles to block `b` -/
def handlesTo (m : HMem) (b : Nat) : Nat := (m.handles.filter fun h => h.block = b).length

/-- a mutable handle to `b` exists -/
def HasMut (m : HMem) (b : Nat) : Prop := .mutRef b ∈ m.handles

/-! ### the invariant for counting headers -/

/-- `n` handles to the block, `hasMut`: one of them is mutable -/
structure BlkOk (x : Blk) (n : Nat) (hasMut : Prop) : Prop where
  dead : x.deleted = if n = 0 then 1 else 0
  counter : n ≠ 0 → x.counter = (n : Int) - 1
  sole : hasMut → n = 1

structure HInv (m : HMem) : Prop where
  good : m.badAccess = 0
  blocks : ∀ b x, m.blocks[b]? = some x → BlkOk x (handlesTo m b) (HasMut m b)
  inRange : ∀ h ∈ m.handles, h.block < m.blocks.length

theorem handlesTo_append (m : HMem) (l : List Blk) (n : Nat) (h : Handle) (b : Nat) :
    handlesTo ⟨l, m.handles ++ [h], n⟩ b = handlesTo m b + if h.block = b then 1 else 0 := by
  unfold handlesTo
  simp only [List.filter_append, List.length_append]
  by_cases e : h.block = b <;> simp [e]

theorem filter_set (l : List Handle) (i : Nat) (h h' : Handle) (e : l[i]? = some h)
    (hb : h'.block = h.block) (b : Nat) :
    ((l.set i h').filter fun x => x.block = b).length = (l.filter fun x => x.block = b).length := by
  induction l generalizing i with
  | nil => simp at e
  | cons a l ih =>
    cases i with
    | zero =>
      simp only [List.getElem?_cons_zero, Option.some.injEq] at e
      subst e
      simp only [List.set_cons_zero, List.filter_cons, hb]
      split <;> simp
    | succ i =>
      rw [List.getElem?_cons_succ] at e
      simp only [List.set_cons_succ, List.filter_cons]
      have := ih i e
      split <;> simp [this]

theorem filter_erase (l : List Handle) (i : Nat) (h : Handle) (e : l[i]? = some h) (b : Nat) :
    (l.filter fun x => x.block = b).length =
      ((l.eraseIdx i).filter fun x => x.block = b).length + if h.block = b then 1 else 0 := by
  induction l generalizing i with
  | nil => simp at e
  | cons a l ih =>
    cases i with
    | zero =>
      simp only [List.getElem?_cons_zero, Option.some.injEq] at e
      subst e
      simp only [List.eraseIdx_cons_zero, List.filter_cons]
      by_cases hb : a.block = b <;> simp [hb]
    | succ i =>
      rw [List.getElem?_cons_succ] at e
      simp only [List.eraseIdx_cons_succ, List.filter_cons]
      have := ih i e
      by_cases hb : a.block = b <;> simp [hb, this] <;> omega

theorem handlesTo_pos {m : HMem} {h : Handle} (hm : h ∈ m.handles) : 0 < handlesTo m h.block :=
  List.length_pos_of_mem (a := h) (by simp [hm])

/-- a handle to a block with just one handle is the only one -/
theorem sole_handle {m : HMem} {h h' : Handle} {i : Nat} (e : m.handles[i]? = some h)
    (h1 : handlesTo m h.block = 1) (hm : h' ∈ m.handles.eraseIdx i) : h'.block ≠ h.block := by
  intro hb
  have := filter_erase m.handles i h e h.block
  unfold handlesTo at h1
  rw [h1, if_pos rfl] at this
  have hp : 0 < ((m.handles.eraseIdx i).filter fun x => x.block = h.block).length :=
    List.length_pos_of_mem (a := h') (by simp [hm, hb])
  omega

theorem mem_set {l : List Handle} {i : Nat} {h h' : Handle} (hm : h ∈ l.set i h') :
    h = h' ∨ h ∈ l.eraseIdx i := by
  induction l generalizing i with
  | nil => simp at hm
  | cons a l ih =>
    cases i with
    | zero => simpa using hm
    | succ i =>
      simp only [List.set_cons_succ, List.mem_cons, List.eraseIdx_cons_succ] at *
      rcases hm with hm | hm
      · exact Or.inr (Or.inl hm)
      · rcases ih hm with h | h
        · exact Or.inl h
        · exact Or.inr (Or.inr h)

/-- the state of the block of a handle -/
theorem HInv.block {m : HMem} (hi : HInv m) {h : Handle} (hm : h ∈ m.handles) :
    ∃ x, m.blocks[h.block]? = some x ∧ x.deleted = 0 ∧ x.counter = (handlesTo m h.block : Int) - 1 ∧
      (HasMut m h.block → handlesTo m h.block = 1) := by
  have hr := hi.inRange h hm
  have hx : m.blocks[h.block]? = some m.blocks[h.block] := List.getElem?_eq_getElem hr
  have hk := hi.blocks _ _ hx
  have hp := handlesTo_pos hm
  refine ⟨_, hx, ?_, hk.counter (by omega), hk.sole⟩
  rw [hk.dead, if_neg (by omega)]

theorem touch_ok {m : HMem} {b : Nat} {x : Blk} (e : m.blocks[b]? = some x) (h : x.deleted = 0) :
    m.touch b = m := by
  unfold touch; rw [e]; simp [h]

theorem hinv_step {m m' : HMem} {op : Op} (hi : HInv m) (e : m.step .counting op = some m') :
    HInv m' := by
  cases op with
  | new =>
    cases e
    refine ⟨hi.good, ?_, ?_⟩
    · intro b x hx
      rw [handlesTo_append]
      have hnew : handlesTo m m.blocks.length = 0 := by
        unfold handlesTo
        rw [List.length_eq_zero_iff, List.filter_eq_nil_iff]
        intro h hm
        have := hi.inRange h hm
        simp only [decide_eq_true_eq]; omega
      rcases Nat.lt_trichotomy b m.blocks.length with hb | hb | hb
      · rw [List.getElem?_append_left hb] at hx
        have hk := hi.blocks b x hx
        have hne : (Handle.mutRef m.blocks.length).block ≠ b := by
          show m.blocks.length ≠ b; omega
        rw [if_neg hne, Nat.add_zero]
        refine ⟨hk.dead, hk.counter, fun hmut => hk.sole ?_⟩
        unfold HasMut at *
        simp only [List.mem_append, List.mem_singleton, Handle.mutRef.injEq] at hmut
        rcases hmut with h | h
        · exact h
        · omega
      · subst hb
        simp only [List.getElem?_concat_length, Option.some.injEq] at hx
        subst hx
        have : (Handle.mutRef m.blocks.length).block = m.blocks.length := rfl
        rw [hnew, if_pos this]
        exact ⟨rfl, fun _ => rfl, fun _ => rfl⟩
      · rw [List.getElem?_eq_none (by simp; omega)] at hx; cases hx
    · intro h hm
      simp only [List.mem_append, List.mem_singleton, List.length_append, List.length_singleton] at *
      rcases hm with hm | rfl
      · have := hi.inRange h hm; omega
      · show m.blocks.length < _; omega
  | clone i =>
    dsimp only [step] at e
    split at e
    case h_2 => cases e
    rename_i b hg
    cases e
    have hm : Handle.ref b ∈ m.handles := List.mem_of_getElem? hg
    obtain ⟨x, hx, hd, hc, hs⟩ := hi.block hm
    change m.blocks[b]? = some x at hx
    change x.counter = (handlesTo m b : Int) - 1 at hc
    have hlt : b < m.blocks.length := hi.inRange _ hm
    unfold refCounterUpdate
    rw [touch_ok hx hd]
    simp only [hx, HeaderKind.update]
    refine ⟨hi.good, ?_, ?_⟩
    · intro c y hy
      rw [handlesTo_append]
      have hmut : HasMut m c → handlesTo m c = 1 ∧ c ≠ b := by
        intro hmc
        obtain ⟨_, _, _, _, hs'⟩ := hi.block hmc
        have h1 : handlesTo m c = 1 := hs' hmc
        refine ⟨h1, ?_⟩
        rintro rfl
        obtain ⟨j, hj⟩ := List.mem_iff_getElem?.1 hmc
        have hne : i ≠ j := by rintro rfl; rw [hg] at hj; cases hj
        have : Handle.mutRef c ∈ m.handles.eraseIdx i := by
          rw [List.mem_eraseIdx_iff_getElem?]; exact ⟨j, Ne.symm hne, hj⟩
        exact sole_handle hg h1 this rfl
      by_cases hcb : c = b
      · subst hcb
        rw [List.getElem?_set_self hlt] at hy
        cases hy
        have : (Handle.ref c).block = c := rfl
        rw [if_pos this]
        refine ⟨by simp [hd], fun _ => by simp only [ADD_REF]; push_cast; omega, fun h => ?_⟩
        unfold HasMut at h
        simp only [List.mem_append, List.mem_singleton, reduceCtorEq, or_false] at h
        exact absurd rfl (hmut h).2
      · rw [List.getElem?_set_ne (Ne.symm hcb)] at hy
        have hk := hi.blocks c y hy
        have hne : (Handle.ref b).block ≠ c := fun h => hcb h.symm
        rw [if_neg hne, Nat.add_zero]
        refine ⟨hk.dead, hk.counter, fun h => hk.sole ?_⟩
        unfold HasMut at *
        simpa using h
    · intro h hh
      simp only [List.length_set]
      rcases List.mem_append.1 hh with hh | hh
      · exact hi.inRange h hh
      · rw [List.mem_singleton.1 hh]; exact hlt
  | toRef i =>
    dsimp only [step] at e
    split at e
    case h_2 => cases e
    rename_i b hg
    cases e
    have hm : Handle.mutRef b ∈ m.handles := List.mem_of_getElem? hg
    refine ⟨hi.good, ?_, ?_⟩
    · intro c y hy
      have hk := hi.blocks c y hy
      have hn : handlesTo { m with handles := m.handles.set i (.ref b) } c = handlesTo m c :=
        filter_set m.handles i _ (.ref b) hg rfl c
      rw [hn]
      refine ⟨hk.dead, hk.counter, fun h => hk.sole ?_⟩
      unfold HasMut at *
      rcases mem_set h with h | h
      · cases h
      · exact List.mem_of_mem_eraseIdx h
    · intro h hh
      rcases mem_set hh with rfl | h'
      · exact hi.inRange (.mutRef b) hm
      · exact hi.inRange h (List.mem_of_mem_eraseIdx h')
  | tryToMutRef i =>
    dsimp only [step] at e
    split at e
    case h_2 => cases e
    rename_i b hg
    have hm : Handle.ref b ∈ m.handles := List.mem_of_getElem? hg
    obtain ⟨x, hx, hd, hc, hs⟩ := hi.block hm
    change m.blocks[b]? = some x at hx
    change x.counter = (handlesTo m b : Int) - 1 at hc
    have hlt : b < m.blocks.length := hi.inRange _ hm
    unfold refCounterUpdate at e
    rw [touch_ok hx hd] at e
    simp only [hx, HeaderKind.update, READ, Int.add_zero] at e
    have hset : m.blocks.set b x = m.blocks := by
      apply List.ext_getElem?
      intro j
      by_cases hj : b = j
      · subst hj; rw [List.getElem?_set_self hlt, hx]
      · rw [List.getElem?_set_ne hj]
    have hset' : m.blocks.set b ⟨x.counter, x.deleted⟩ = m.blocks := hset
    rw [hset'] at e
    by_cases hz : x.counter = 0
    · simp only [hz, decide_true, if_true, Option.some.injEq] at e
      subst e
      have h1 : handlesTo m b = 1 := by omega
      refine ⟨hi.good, ?_, ?_⟩
      · intro c y hy
        have hk := hi.blocks c y hy
        have hn : handlesTo { m with handles := m.handles.set i (.mutRef b) } c = handlesTo m c :=
          filter_set m.handles i _ (.mutRef b) hg rfl c
        rw [hn]
        refine ⟨hk.dead, hk.counter, fun h => ?_⟩
        unfold HasMut at h
        rcases mem_set h with h | h
        · cases h; exact h1
        · exact hk.sole (List.mem_of_mem_eraseIdx h)
      · intro h hh
        rcases mem_set hh with rfl | h'
        · exact hlt
        · exact hi.inRange h (List.mem_of_mem_eraseIdx h')
    · simp only [hz, decide_false, Bool.false_eq_true, if_false, Option.some.injEq] at e
      subst e
      exact hi
  | deref i =>
    dsimp only [step] at e
    split at e
    case h_2 => cases e
    rename_i h hg
    obtain ⟨x, hx, hd, -⟩ := hi.block (List.mem_of_getElem? hg)
    cases e
    rw [touch_ok hx hd]; exact hi
  | drop i =>
    have fin : ∀ (h : Handle) (x y : Blk), m.handles[i]? = some h → m.blocks[h.block]? = some x →
        BlkOk y (handlesTo m h.block - 1) (HasMut m h.block ∧ handlesTo m h.block ≠ 1) →
        HInv { m with blocks := m.blocks.set h.block y, handles := m.handles.eraseIdx i } := by
      intro h x y hg hx hy
      have hm := List.mem_of_getElem? hg
      have hlt := hi.inRange h hm
      refine ⟨hi.good, ?_, ?_⟩
      · intro c z hz
        have hcount := filter_erase m.handles i h hg c
        have hcount' : handlesTo m c = handlesTo { m with blocks := m.blocks.set h.block y, handles := m.handles.eraseIdx i } c + if h.block = c then 1 else 0 := hcount
        by_cases hcb : h.block = c
        · subst hcb
          rw [List.getElem?_set_self hlt] at hz
          cases hz
          rw [if_pos rfl] at hcount'
          have : handlesTo { m with blocks := m.blocks.set h.block y, handles := m.handles.eraseIdx i } h.block = handlesTo m h.block - 1 := by omega
          rw [this]
          refine ⟨hy.dead, hy.counter, fun hmut => hy.sole ?_⟩
          unfold HasMut at *
          refine ⟨List.mem_of_mem_eraseIdx hmut, ?_⟩
          intro h1
          exact sole_handle hg h1 hmut rfl
        · rw [List.getElem?_set_ne hcb] at hz
          have hk := hi.blocks c z hz
          rw [if_neg hcb, Nat.add_zero] at hcount'
          rw [← hcount']
          exact ⟨hk.dead, hk.counter, fun hmut => hk.sole (List.mem_of_mem_eraseIdx hmut)⟩
      · intro h' hh
        simp only [List.length_set]
        exact hi.inRange h' (List.mem_of_mem_eraseIdx hh)
    dsimp only [step] at e
    split at e
    · rename_i b hg
      have hm := List.mem_of_getElem? hg
      obtain ⟨x, hx, hd, hc, hs⟩ := hi.block hm
      have hp := handlesTo_pos hm
      have hlt : b < m.blocks.length := hi.inRange _ hm
      have hx' : m.blocks[b]? = some x := hx
      have hc' : x.counter = (handlesTo m b : Int) - 1 := hc
      have hp' : 0 < handlesTo m b := hp
      unfold refCounterUpdate at e
      rw [touch_ok hx' hd] at e
      simp only [hx', HeaderKind.update, RELEASE] at e
      by_cases hz : x.counter = 0
      · simp only [hz, decide_true, if_true] at e
        unfold delete at e
        rw [touch_ok (x := ⟨0 + -1, x.deleted⟩) (by simp [List.getElem?_set_self hlt]) hd] at e
        simp only [List.getElem?_set_self hlt, List.set_set, Option.some.injEq] at e
        subst e
        refine fin (.ref b) x _ hg hx ?_
        show BlkOk _ (handlesTo m b - 1) _
        have h1 : handlesTo m b = 1 := by omega
        rw [h1]
        exact ⟨by simp [hd], fun h => absurd rfl h, fun ⟨_, h⟩ => absurd h1 h⟩
      · simp only [hz, decide_false, Bool.false_eq_true, if_false, Option.some.injEq] at e
        subst e
        refine fin (.ref b) x _ hg hx ?_
        show BlkOk _ (handlesTo m b - 1) _
        refine ⟨?_, fun h => ?_, fun ⟨h, h2⟩ => absurd (hs h) h2⟩
        · rw [if_neg (by omega)]; exact hd
        · dsimp only; omega
    · rename_i b hg
      have hm := List.mem_of_getElem? hg
      obtain ⟨x, hx, hd, hc, hs⟩ := hi.block hm
      have hx' : m.blocks[b]? = some x := hx
      have h1 : handlesTo m b = 1 := hs hm
      unfold delete at e
      rw [touch_ok hx' hd] at e
      simp only [hx', Option.some.injEq] at e
      subst e
      refine fin (.mutRef b) x _ hg hx ?_
      show BlkOk _ (handlesTo m b - 1) _
      rw [h1]
      exact ⟨by simp [hd], fun h => absurd rfl h, fun ⟨_, h⟩ => absurd h1 h⟩
    · cases e

theorem hinv_run {m m' : HMem} {ops : List Op} (hi : HInv m) (e : m.run .counting ops = some m') :
    HInv m' := by
  induction ops generalizing m with
  | nil => cases e; exact hi
  | cons op ops ih =>
    unfold run at e
    cases h : m.step .counting op with
    | none => rw [h] at e; cases e
    | some m1 => rw [h] at e; exact ih (hinv_step hi h) e

theorem hinv_empty : HInv HMem.empty := ⟨rfl, by simp [HMem.empty], by simp [HMem.empty]⟩

/-! ## C22 -/

/-- After any history: a block has been destroyed exactly once if no handle to it is left, and not
at all while a handle is left; no destroyed block was ever accessed. -/
theorem C22_destroyed_once (ops : List Op) (m : HMem) (e : HMem.empty.run .counting ops = some m) :
    m.badAccess = 0 ∧ ∀ b x, m.blocks[b]? = some x →
      x.deleted = if handlesTo m b = 0 then 1 else 0 := by
  have h := hinv_run hinv_empty e
  exact ⟨h.good, fun b x hx => (h.blocks b x hx).dead⟩

/-- Every handle refers to an existing block that is not destroyed. -/
theorem C22_handles_live (ops : List Op) (m : HMem) (e : HMem.empty.run .counting ops = some m)
    (h : Handle) (hm : h ∈ m.handles) : ∃ x, m.blocks[h.block]? = some x ∧ x.deleted = 0 := by
  obtain ⟨x, hx, hd, -⟩ := (hinv_run hinv_empty e).block hm
  exact ⟨x, hx, hd⟩

/-- A block is destroyed by no other operation than the drop of its last handle, and by that one. -/
theorem C22_at_last_drop (ops : List Op) (m m' : HMem) (op : Op)
    (e : HMem.empty.run .counting ops = some m) (e' : m.step .counting op = some m')
    (b : Nat) (x x' : Blk) (hx : m.blocks[b]? = some x) (hx' : m'.blocks[b]? = some x') :
    x'.deleted ≠ x.deleted ↔
      ∃ i h, op = .drop i ∧ m.handles[i]? = some h ∧ h.block = b ∧ handlesTo m b = 1 := by
  have hi := hinv_run hinv_empty e
  have hi' := hinv_step hi e'
  have hd := (hi.blocks b x hx).dead
  have hd' := (hi'.blocks b x' hx').dead
  have hlen : b < m.blocks.length := by
    rcases Nat.lt_or_ge b m.blocks.length with h | h
    · exact h
    · rw [List.getElem?_eq_none h] at hx; cases hx
  rw [hd, hd']
  cases op with
  | new =>
    cases e'
    rw [handlesTo_append]
    have hne : (Handle.mutRef m.blocks.length).block ≠ b := by show m.blocks.length ≠ b; omega
    rw [if_neg hne]
    simp
  | clone i =>
    simp only [reduceCtorEq, false_and, exists_false, iff_false, not_not]
    dsimp only [step] at e'
    split at e'
    case h_2 => cases e'
    rename_i c hg
    cases e'
    have hp := handlesTo_pos (List.mem_of_getElem? hg)
    change 0 < handlesTo m c at hp
    have hh : (refCounterUpdate .counting m c ADD_REF).2.handles = m.handles := by
      unfold refCounterUpdate touch
      obtain ⟨y, hy, hyd, -⟩ := hi.block (List.mem_of_getElem? hg)
      change m.blocks[c]? = some y at hy
      rw [hy]; simp [hyd, hy]
    unfold handlesTo
    simp only [hh, List.filter_append, List.length_append]
    by_cases hcb : c = b
    · subst hcb
      unfold handlesTo at hp
      rw [if_neg (by omega), if_neg (by omega)]
    · have : (Handle.ref c).block ≠ b := hcb
      simp [this]
  | toRef i =>
    simp only [reduceCtorEq, false_and, exists_false, iff_false, not_not]
    dsimp only [step] at e'
    split at e'
    case h_2 => cases e'
    rename_i c hg
    cases e'
    have hn : handlesTo { m with handles := m.handles.set i (.ref c) } b = handlesTo m b :=
      filter_set m.handles i _ (.ref c) hg rfl b
    rw [hn]
  | tryToMutRef i =>
    simp only [reduceCtorEq, false_and, exists_false, iff_false, not_not]
    dsimp only [step] at e'
    split at e'
    case h_2 => cases e'
    rename_i c hg
    obtain ⟨y, hy, hyd, -⟩ := hi.block (List.mem_of_getElem? hg)
    change m.blocks[c]? = some y at hy
    unfold refCounterUpdate at e'
    rw [touch_ok hy hyd] at e'
    simp only [hy] at e'
    cases e'
    split
    · have hn := filter_set m.handles i _ (.mutRef c) hg rfl b
      unfold handlesTo
      dsimp only
      rw [hn]
    · rfl
  | deref i =>
    simp only [reduceCtorEq, false_and, exists_false, iff_false, not_not]
    dsimp only [step] at e'
    split at e'
    case h_2 => cases e'
    rename_i h hg
    obtain ⟨y, hy, hyd, -⟩ := hi.block (List.mem_of_getElem? hg)
    cases e'
    rw [touch_ok hy hyd]
  | drop i =>
    obtain ⟨h, hg, hh⟩ : ∃ h, m.handles[i]? = some h ∧ m'.handles = m.handles.eraseIdx i := by
      cases hg : m.handles[i]? with
      | none => dsimp only [step] at e'; rw [hg] at e'; cases e'
      | some h =>
        refine ⟨h, rfl, ?_⟩
        obtain ⟨y, hy, hyd, -⟩ := hi.block (List.mem_of_getElem? hg)
        dsimp only [step] at e'
        rw [hg] at e'
        cases h with
        | ref c =>
          change m.blocks[c]? = some y at hy
          have hc : c < m.blocks.length := hi.inRange _ (List.mem_of_getElem? hg)
          simp only [refCounterUpdate, touch_ok hy hyd, hy] at e'
          cases e'
          split
          · unfold delete
            rw [touch_ok (x := ⟨y.counter + RELEASE, y.deleted⟩)
              (by simp [List.getElem?_set_self hc, HeaderKind.update]) hyd]
            simp only [List.getElem?_set_self hc]
          · rfl
        | mutRef c =>
          change m.blocks[c]? = some y at hy
          simp only [delete, touch_ok hy hyd, hy] at e'
          cases e'; rfl
    have hcount := filter_erase m.handles i h hg b
    have hcount' : handlesTo m b = handlesTo m' b + if h.block = b then 1 else 0 := by
      unfold handlesTo; rw [hh]; exact hcount
    constructor
    · intro hne
      refine ⟨i, h, rfl, hg, ?_, ?_⟩
      · by_contra hb
        rw [if_neg hb] at hcount'
        rw [hcount'] at hne; exact hne rfl
      · by_contra h1
        have hb : h.block = b := by
          by_contra hb
          rw [if_neg hb] at hcount'
          rw [hcount'] at hne; exact hne rfl
        rw [if_pos hb] at hcount'
        rw [if_neg (show ¬ handlesTo m' b = 0 by omega), if_neg (show ¬ handlesTo m b = 0 by omega)] at hne
        exact hne rfl
    · rintro ⟨j, h', hj, hg', hb, h1⟩
      cases hj
      rw [hg] at hg'
      cases hg'
      rw [if_pos hb] at hcount'
      rw [if_pos (show handlesTo m' b = 0 by omega), if_neg (show ¬ handlesTo m b = 0 by omega)]
      decide

/-- the invariant for blocks without a counter -/
structure AInv (m : HMem) : Prop where
  good : m.badAccess = 0
  blocks : ∀ b x, m.blocks[b]? = some x → x.deleted ≤ 1 ∧ (handlesTo m b ≠ 0 → x.deleted = 0) ∧
    (HasMut m b → handlesTo m b = 1)
  inRange : ∀ h ∈ m.handles, h.block < m.blocks.length

theorem AInv.block {m : HMem} (hi : AInv m) {h : Handle} (hm : h ∈ m.handles) :
    ∃ x, m.blocks[h.block]? = some x ∧ x.deleted = 0 ∧
      (HasMut m h.block → handlesTo m h.block = 1) := by
  have hr := hi.inRange h hm
  have hx : m.blocks[h.block]? = some m.blocks[h.block] := List.getElem?_eq_getElem hr
  have hk := hi.blocks _ _ hx
  have hp := handlesTo_pos hm
  exact ⟨_, hx, hk.2.1 (by omega), hk.2.2⟩

theorem update_none {m : HMem} {b : Nat} {x : Blk} (e : m.blocks[b]? = some x) (h : x.deleted = 0)
    (d : Int) : m.refCounterUpdate .none b d = (false, m) := by
  have hlt : b < m.blocks.length := by
    rcases Nat.lt_or_ge b m.blocks.length with h | h
    · exact h
    · rw [List.getElem?_eq_none h] at e; cases e
  have hset : m.blocks.set b ⟨x.counter, x.deleted⟩ = m.blocks := by
    apply List.ext_getElem?
    intro j
    by_cases hj : b = j
    · subst hj; rw [List.getElem?_set_self hlt, e]
    · rw [List.getElem?_set_ne hj]
  unfold refCounterUpdate
  rw [touch_ok e h]
  simp only [e, HeaderKind.update]
  rw [hset]
  rfl

theorem ainv_step {m m' : HMem} {op : Op} (hi : AInv m) (e : m.step .none op = some m') :
    AInv m' := by
  cases op with
  | new =>
    cases e
    refine ⟨hi.good, ?_, ?_⟩
    · intro b x hx
      rw [handlesTo_append]
      have hnew : handlesTo m m.blocks.length = 0 := by
        unfold handlesTo
        rw [List.length_eq_zero_iff, List.filter_eq_nil_iff]
        intro h hm
        have := hi.inRange h hm
        simp only [decide_eq_true_eq]; omega
      rcases Nat.lt_trichotomy b m.blocks.length with hb | hb | hb
      · rw [List.getElem?_append_left hb] at hx
        have hk := hi.blocks b x hx
        have hne : (Handle.mutRef m.blocks.length).block ≠ b := by
          show m.blocks.length ≠ b; omega
        rw [if_neg hne, Nat.add_zero]
        refine ⟨hk.1, hk.2.1, fun hmut => hk.2.2 ?_⟩
        unfold HasMut at *
        simp only [List.mem_append, List.mem_singleton, Handle.mutRef.injEq] at hmut
        rcases hmut with h | h
        · exact h
        · omega
      · subst hb
        simp only [List.getElem?_concat_length, Option.some.injEq] at hx
        subst hx
        have : (Handle.mutRef m.blocks.length).block = m.blocks.length := rfl
        rw [hnew, if_pos this]
        exact ⟨Nat.zero_le _, fun _ => rfl, fun _ => rfl⟩
      · rw [List.getElem?_eq_none (by simp; omega)] at hx; cases hx
    · intro h hm
      simp only [List.mem_append, List.mem_singleton, List.length_append, List.length_singleton] at *
      rcases hm with hm | rfl
      · have := hi.inRange h hm; omega
      · show m.blocks.length < _; omega
  | clone i =>
    dsimp only [step] at e
    split at e
    case h_2 => cases e
    rename_i b hg
    have hm : Handle.ref b ∈ m.handles := List.mem_of_getElem? hg
    obtain ⟨x, hx, hd, hs⟩ := hi.block hm
    change m.blocks[b]? = some x at hx
    rw [update_none hx hd] at e
    cases e
    have hlt : b < m.blocks.length := hi.inRange _ hm
    have hpb : 0 < handlesTo m b := handlesTo_pos hm
    refine ⟨hi.good, ?_, ?_⟩
    · intro c y hy
      have hk := hi.blocks c y hy
      rw [handlesTo_append]
      refine ⟨hk.1, fun hc => ?_, fun hmut => ?_⟩
      · by_cases hbc : b = c
        · subst hbc; exact hk.2.1 (by omega)
        · have hbc' : (Handle.ref b).block ≠ c := hbc
          rw [if_neg hbc'] at hc
          exact hk.2.1 hc
      · unfold HasMut at hmut
        simp only [List.mem_append, List.mem_singleton, reduceCtorEq, or_false] at hmut
        have h1 := hk.2.2 hmut
        have hne : b ≠ c := by
          rintro rfl
          obtain ⟨j, hj⟩ := List.mem_iff_getElem?.1 hmut
          have hne : i ≠ j := by rintro rfl; rw [hg] at hj; cases hj
          have : Handle.mutRef b ∈ m.handles.eraseIdx i := by
            rw [List.mem_eraseIdx_iff_getElem?]; exact ⟨j, Ne.symm hne, hj⟩
          exact sole_handle hg h1 this rfl
        have hne' : (Handle.ref b).block ≠ c := hne
        rw [if_neg hne', h1]
    · intro h hh
      rcases List.mem_append.1 hh with hh | hh
      · exact hi.inRange h hh
      · rw [List.mem_singleton.1 hh]; exact hlt
  | toRef i =>
    dsimp only [step] at e
    split at e
    case h_2 => cases e
    rename_i b hg
    cases e
    have hm : Handle.mutRef b ∈ m.handles := List.mem_of_getElem? hg
    refine ⟨hi.good, ?_, ?_⟩
    · intro c y hy
      have hk := hi.blocks c y hy
      have hn : handlesTo { m with handles := m.handles.set i (.ref b) } c = handlesTo m c :=
        filter_set m.handles i _ (.ref b) hg rfl c
      rw [hn]
      refine ⟨hk.1, hk.2.1, fun h => hk.2.2 ?_⟩
      unfold HasMut at *
      rcases mem_set h with h | h
      · cases h
      · exact List.mem_of_mem_eraseIdx h
    · intro h hh
      rcases mem_set hh with rfl | h'
      · exact hi.inRange (.mutRef b) hm
      · exact hi.inRange h (List.mem_of_mem_eraseIdx h')
  | tryToMutRef i =>
    dsimp only [step] at e
    split at e
    case h_2 => cases e
    rename_i b hg
    have hm : Handle.ref b ∈ m.handles := List.mem_of_getElem? hg
    obtain ⟨x, hx, hd, hs⟩ := hi.block hm
    change m.blocks[b]? = some x at hx
    rw [update_none hx hd] at e
    cases e
    exact hi
  | deref i =>
    dsimp only [step] at e
    split at e
    case h_2 => cases e
    rename_i h hg
    obtain ⟨x, hx, hd, -⟩ := hi.block (List.mem_of_getElem? hg)
    cases e
    rw [touch_ok hx hd]; exact hi
  | drop i =>
    have cnt : ∀ (h : Handle) (c : Nat) (l : List Blk), m.handles[i]? = some h →
        handlesTo m c = handlesTo { m with blocks := l, handles := m.handles.eraseIdx i } c +
          if h.block = c then 1 else 0 := fun h c l hg => filter_erase m.handles i h hg c
    dsimp only [step] at e
    split at e
    · rename_i b hg
      have hm := List.mem_of_getElem? hg
      obtain ⟨x, hx, hd, hs⟩ := hi.block hm
      change m.blocks[b]? = some x at hx
      rw [update_none hx hd] at e
      cases e
      refine ⟨hi.good, ?_, fun h hh => hi.inRange h (List.mem_of_mem_eraseIdx hh)⟩
      intro c y hy
      have hk := hi.blocks c y hy
      have hc := cnt _ c m.blocks hg
      refine ⟨hk.1, fun h => hk.2.1 (by simp at h; omega), fun hmut => ?_⟩
      have h1 := hk.2.2 (List.mem_of_mem_eraseIdx hmut)
      have hp : 0 < handlesTo { m with handles := m.handles.eraseIdx i } c :=
        handlesTo_pos (h := .mutRef c) hmut
      have hp' : handlesTo { m with handles := m.handles.eraseIdx i } c ≤ handlesTo m c := by
        rw [hc]; exact Nat.le_add_right _ _
      simp only [Bool.false_eq_true, if_false]
      omega
    · rename_i b hg
      have hm := List.mem_of_getElem? hg
      obtain ⟨x, hx, hd, hs⟩ := hi.block hm
      have hx' : m.blocks[b]? = some x := hx
      have h1 : handlesTo m b = 1 := hs hm
      have hlt : b < m.blocks.length := hi.inRange _ hm
      unfold delete at e
      rw [touch_ok hx' hd] at e
      simp only [hx', Option.some.injEq] at e
      subst e
      refine ⟨hi.good, ?_, fun h hh => by
        simp only [List.length_set]; exact hi.inRange h (List.mem_of_mem_eraseIdx hh)⟩
      intro c y hy
      have hc := cnt _ c (m.blocks.set b { x with deleted := x.deleted + 1 }) hg
      dsimp only at hy
      by_cases hcb : b = c
      · subst hcb
        rw [List.getElem?_set_self hlt] at hy
        cases hy
        have : (Handle.mutRef b).block = b := rfl
        rw [if_pos this, h1] at hc
        refine ⟨by simp [hd], fun h => absurd (by omega) h, fun hmut => ?_⟩
        exact absurd rfl (sole_handle hg h1 hmut)
      · rw [List.getElem?_set_ne hcb] at hy
        have hk := hi.blocks c y hy
        have : (Handle.mutRef b).block ≠ c := hcb
        rw [if_neg this, Nat.add_zero] at hc
        rw [← hc]
        exact ⟨hk.1, hk.2.1, fun hmut => hk.2.2 (List.mem_of_mem_eraseIdx hmut)⟩
    · cases e

/-- Blocks without a counter (arena): nothing is ever destroyed twice or accessed after its
destruction, and nothing is destroyed through a `Ref`. -/
theorem C22_arena (ops : List Op) (m : HMem) (e : HMem.empty.run .none ops = some m) :
    m.badAccess = 0 ∧ ∀ b x, m.blocks[b]? = some x → x.deleted ≤ 1 ∧
      (x.deleted = 1 → handlesTo m b = 0) := by
  have key : ∀ (ops : List Op) (m0 : HMem), AInv m0 → m0.run .none ops = some m → AInv m := by
    intro ops
    induction ops with
    | nil => intro m0 hi e; cases e; exact hi
    | cons op ops ih =>
      intro m0 hi e
      unfold run at e
      cases h : m0.step .none op with
      | none => rw [h] at e; cases e
      | some m1 => rw [h] at e; exact ih m1 (ainv_step hi h) e
  have hi := key ops _ ⟨rfl, by simp [HMem.empty], by simp [HMem.empty]⟩ e
  refine ⟨hi.good, fun b x hx => ⟨(hi.blocks b x hx).1, fun h => ?_⟩⟩
  by_contra hn
  have := (hi.blocks b x hx).2.1 hn
  omega

/-- create, freeze, clone, try to thaw, drop one, thaw, drop: destroyed at the end -/
example : ∃ m, HMem.empty.run .counting
    [.new, .new, .toRef 0, .clone 0, .tryToMutRef 0, .drop 0, .tryToMutRef 1, .drop 1] = some m ∧
    m.handles = [.mutRef 1] ∧ m.blocks.map (·.deleted) = [1, 0] := ⟨_, rfl, by decide⟩

/-! ## C23 -/

/-- `try_to_mut_ref` succeeds exactly when its argument is the only handle to the block. -/
theorem C23_try_to_mut_ref (ops : List Op) (m m' : HMem) (i b : Nat)
    (e : HMem.empty.run .counting ops = some m) (hg : m.handles[i]? = some (.ref b))
    (e' : m.step .counting (.tryToMutRef i) = some m') :
    (m'.handles[i]? = some (.mutRef b) ∨ m'.handles[i]? = some (.ref b)) ∧
    (m'.handles[i]? = some (.mutRef b) ↔ handlesTo m b = 1) ∧ m'.blocks = m.blocks := by
  have hi := hinv_run hinv_empty e
  have hm := List.mem_of_getElem? hg
  obtain ⟨x, hx, hd, hc, hs⟩ := hi.block hm
  change m.blocks[b]? = some x at hx
  change x.counter = (handlesTo m b : Int) - 1 at hc
  have hlt : b < m.blocks.length := hi.inRange _ hm
  have hset : m.blocks.set b ⟨x.counter, x.deleted⟩ = m.blocks := by
    apply List.ext_getElem?
    intro j
    by_cases hj : b = j
    · subst hj; rw [List.getElem?_set_self hlt, hx]
    · rw [List.getElem?_set_ne hj]
  have hil : i < m.handles.length := by
    rcases Nat.lt_or_ge i m.handles.length with h | h
    · exact h
    · rw [List.getElem?_eq_none h] at hg; cases hg
  dsimp only [step] at e'
  rw [hg] at e'
  simp only [refCounterUpdate, touch_ok hx hd, hx, HeaderKind.update, READ, Int.add_zero] at e'
  rw [hset] at e'
  by_cases hz : x.counter = 0
  · simp only [hz, decide_true, if_true, Option.some.injEq] at e'
    subst e'
    dsimp only
    rw [List.getElem?_set_self hil]
    exact ⟨Or.inl rfl, ⟨fun _ => by omega, fun _ => rfl⟩, rfl⟩
  · simp only [hz, decide_false, Bool.false_eq_true, if_false, Option.some.injEq] at e'
    subst e'
    dsimp only
    rw [hg]
    refine ⟨Or.inr rfl, ⟨fun h => (nomatch h), fun h => ?_⟩, rfl⟩
    exact absurd (show x.counter = 0 by omega) hz

/-- While a mutable handle exists it is the only handle to its block. -/
theorem C23_mut_is_sole (ops : List Op) (m : HMem) (e : HMem.empty.run .counting ops = some m)
    (i j b : Nat) (h : Handle) (hi : m.handles[i]? = some (.mutRef b)) (hj : m.handles[j]? = some h)
    (hb : h.block = b) : i = j := by
  have inv := hinv_run hinv_empty e
  have hm := List.mem_of_getElem? hi
  obtain ⟨_, _, _, _, hs⟩ := inv.block hm
  have h1 : handlesTo m b = 1 := hs hm
  by_contra hne
  have : h ∈ m.handles.eraseIdx i := by
    rw [List.mem_eraseIdx_iff_getElem?]; exact ⟨j, Ne.symm hne, hj⟩
  exact sole_handle hi h1 this hb

/-- For arena blocks `try_to_mut_ref` never succeeds. -/
theorem C23_arena_never (m m' : HMem) (i b : Nat) (hg : m.handles[i]? = some (.ref b))
    (e' : m.step .none (.tryToMutRef i) = some m') : m'.handles = m.handles := by
  dsimp only [step] at e'
  rw [hg] at e'
  have ht : (m.touch b).handles = m.handles := by
    unfold touch; split
    · split <;> rfl
    · rfl
  have hr : (m.refCounterUpdate .none b READ).1 = false ∧
      (m.refCounterUpdate .none b READ).2.handles = m.handles := by
    unfold refCounterUpdate
    cases h : (m.touch b).blocks[b]? with
    | none => simp only [h]; exact ⟨trivial, ht⟩
    | some x => simp only [h]; exact ⟨by simp [HeaderKind.update], ht⟩
  cases e'
  rw [if_neg (by rw [hr.1]; decide)]
  exact hr.2

example : ∃ m, HMem.empty.run .counting [.new, .toRef 0, .clone 0, .tryToMutRef 0] = some m ∧
    m.handles = [.ref 0, .ref 0] ∧ ∃ m', m.run .counting [.drop 1, .tryToMutRef 0] = some m' ∧
    m'.handles = [.mutRef 0] := ⟨_, rfl, by decide, _, rfl, by decide⟩

end Nanvm
