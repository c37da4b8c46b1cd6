import Verif.Lemmas.GraphPanic
/-!
# C24: exactly when dropping panics

`C24_no_panic_violated` shows that a bigint held through `Any` can make a program panic.  Here the
condition is stated exactly: an operation panics if and only if it gives up the last path to a
bigint, unless it gives up a typed handle of that bigint.
-/
namespace Nanvm
open Graph

/-- **C24** Exactly when an operation panics: it gives up a handle `o`, a bigint that could be reached
before cannot be reached without `o`, and `o` is not a typed handle (`Ref`, `MutRef`) of that bigint. -/
theorem C24_panic_iff (ops : List GMem.Op) (m : GMem) (e : GMem.empty.run ops = .ok m) (op : GMem.Op) :
    m.step op = .error .panic ↔ ∃ o m' b, Discards m op o m' ∧ IsBigint m b ∧ Reach m b ∧ ¬ Reach m' b ∧
      o ≠ .typed .bigint b ∧ o ≠ .mutRef .bigint b := by
  have s := run_st e
  have k : KidsOk m.heap := run_kidsOk ops _ _ (by intro c n h; simp [GMem.empty] at h) e
  have root : ∀ {i o}, m.roots[i]? = some o →
      (Graph.drop m.fuel m.heap o = .error .panic ↔ ∃ b, IsBigint m b ∧ Reach m b ∧
        ¬ Reach { m with roots := m.roots.eraseIdx i } b ∧ o ≠ .typed .bigint b ∧ o ≠ .mutRef .bigint b) := by
    intro i o er
    rw [drop_panic_iff (s.inv.perm (perm_eraseIdx er)) s.nd k (fuel_ok m)]
    constructor
    · rintro ⟨b, ⟨n, en, l, ty⟩, r⟩
      exact ⟨b, ⟨n, en, ty⟩, s.live_reach en l, r⟩
    · rintro ⟨b, ⟨n, en, ty⟩, r1, r⟩
      obtain ⟨n', en', l⟩ := s.reach r1
      rw [en] at en'; cases en'
      exact ⟨b, ⟨n, en, l, ty⟩, r⟩
  have bindp : ∀ {α β} {x : Except GErr α} {g : α → β},
      ((do let h ← x; return g h : Except GErr β) = .error .panic ↔ x = .error .panic) := by
    intro α β x g; cases x <;> simp [bind, Except.bind, pure, Except.pure]
  constructor
  · intro p
    cases op with
    | drop i =>
      dsimp only [GMem.step] at p
      cases hr : m.roots[i]? with
      | none => rw [hr] at p; cases p
      | some o =>
        rw [hr] at p
        simp only at p
        obtain ⟨b, r⟩ := (root hr).1 (bindp.1 p)
        exact ⟨o, _, b, .drop hr, r⟩
    | tryMove t i =>
      dsimp only [GMem.step] at p
      split at p
      · rename_i t' b' er
        split at p
        · cases p
        · rename_i nt
          obtain ⟨b, r⟩ := (root er).1 (bindp.1 p)
          exact ⟨_, _, b, .tryMove er (.inr ⟨_, _, rfl, nt⟩), r⟩
      · rename_i er
        obtain ⟨b, r⟩ := (root er).1 (bindp.1 p)
        exact ⟨_, _, b, .tryMove er (.inl rfl), r⟩
      · cases p
    | setItem i j kk =>
      dsimp only [GMem.step] at p
      split at p
      · rename_i t b v ei ek
        split at p
        · rename_i f
          unfold access at p
          cases hb : m.heap[b]? with
          | none => rw [hb] at p; cases p
          | some n =>
            rw [hb] at p
            simp only at p
            split at p
            · rename_i lt
              simp only [bind, Except.bind] at p
              split at p
              · rename_i old hold
                have p' := bindp.1 p
                obtain ⟨i3, nd3, k3, lc3⟩ := setItem_inv s k ei ek f hb hold
                obtain ⟨c, ⟨n', en, l, ty⟩, r⟩ := (drop_panic_iff i3 nd3 k3 lc3).1 p'
                rw [getElem?_set_of hb] at en
                have : ∃ n0, m.heap[c]? = some n0 ∧ n0.phase = .live ∧ n0.ty = .bigint := by
                  by_cases y : c = b
                  · subst y; rw [if_pos rfl] at en; cases en; exact ⟨n, hb, l, ty⟩
                  · rw [if_neg y] at en; exact ⟨n', en, l, ty⟩
                obtain ⟨n0, e0, l0, t0⟩ := this
                exact ⟨old, _, c, .setItem ei ek f hb hold, ⟨n0, e0, t0⟩, s.live_reach e0 l0, r⟩
              · cases p
            · cases p
        · cases p
      · cases p
    | value => cases p
    | new t is =>
      dsimp only [GMem.step] at p
      split at p
      · split at p <;> cases p
      · cases p
    | clone i =>
      dsimp only [GMem.step] at p
      split at p
      · exact absurd (bindp.1 p) (clone_nopanic _ _)
      · cases p
    | toRef i =>
      dsimp only [GMem.step] at p
      split at p <;> cases p
    | toAny t i =>
      dsimp only [GMem.step] at p
      split at p
      · split at p <;> cases p
      · cases p
    | tryToMutRef i =>
      dsimp only [GMem.step] at p
      split at p
      · exact absurd (bindp.1 p) (update_nopanic _ _ _ _)
      · cases p
    | getItem i j =>
      dsimp only [GMem.step] at p
      split at p
      · rename_i o _
        cases q : GMem.derefOwn m.heap o with
        | error x =>
          rw [q] at p
          have := deref_nopanic m.heap o
          rw [q] at this
          cases p
          exact absurd rfl this
        | ok n =>
          rw [q] at p
          simp only [bind, Except.bind] at p
          split at p
          · exact absurd (bindp.1 p) (clone_nopanic _ _)
          · cases p
      · cases p
  · rintro ⟨o, m', b, d, ib, r1, r⟩
    cases d with
    | drop er =>
      dsimp only [GMem.step]
      rw [er]
      exact bindp.2 ((root er).2 ⟨b, ib, r1, r⟩)
    | tryMove er c =>
      have p := (root er).2 ⟨b, ib, r1, r⟩
      dsimp only [GMem.step]
      rw [er]
      rcases c with rfl | ⟨t', b', rfl, nt⟩
      · exact bindp.2 p
      · simp only [if_neg nt]
        exact bindp.2 p
    | @setItem i j kk t c v n old ei ek f hb hold =>
      obtain ⟨i3, nd3, k3, lc3⟩ := setItem_inv s k ei ek f hb hold
      obtain ⟨nb, en, ty⟩ := ib
      obtain ⟨nb', en', l⟩ := s.reach r1
      rw [en] at en'; cases en'
      obtain ⟨n0, en0, l0, t0⟩ := s.inv.ok _ (List.mem_append.2 (.inl (List.mem_of_getElem? ei))) t c rfl
      rw [hb] at en0; cases en0
      have p := (drop_panic_iff i3 nd3 k3 lc3).2 ⟨b, by
        unfold LiveAt
        rw [getElem?_set_of hb]
        by_cases y : b = c
        · subst y; rw [hb] at en; cases en
          rw [if_pos rfl]; exact ⟨_, rfl, l, ty⟩
        · rw [if_neg y]; exact ⟨_, en, l, ty⟩, r⟩
      dsimp only [GMem.step]
      rw [ei, ek]
      simp only [f, if_true]
      unfold access
      rw [hb]
      simp only [if_pos (show n.phase = .live ∧ n.ty = t from ⟨l0, t0⟩), bind, Except.bind, hold]
      rw [p]

/-- **C24** A history panics exactly if one of its operations does, in the state its predecessors leave. -/
theorem C24_history_panics_iff (ops : List GMem.Op) :
    GMem.empty.run ops = .error .panic ↔ ∃ pre op post m, ops = pre ++ op :: post ∧
      GMem.empty.run pre = .ok m ∧ ∃ o m' b, Discards m op o m' ∧ IsBigint m b ∧ Reach m b ∧ ¬ Reach m' b ∧
      o ≠ .typed .bigint b ∧ o ≠ .mutRef .bigint b := by
  have key : ∀ (ops : List GMem.Op) (m0 : GMem), m0.run ops = .error .panic ↔
      ∃ pre op post m, ops = pre ++ op :: post ∧ m0.run pre = .ok m ∧ m.step op = .error .panic := by
    intro ops
    induction ops with
    | nil => intro m0; simp [GMem.run]
    | cons op ops ih =>
      intro m0
      constructor
      · intro p
        unfold GMem.run at p
        cases q : m0.step op with
        | error x => rw [q] at p; cases p; exact ⟨[], op, ops, m0, rfl, rfl, q⟩
        | ok m1 =>
          rw [q] at p
          obtain ⟨pre, op', post, m, rfl, e, p⟩ := (ih m1).1 p
          exact ⟨op :: pre, op', post, m, rfl, by unfold GMem.run; rw [q]; exact e, p⟩
      · rintro ⟨pre, op', post, m, e, r, p⟩
        cases pre with
        | nil =>
          cases e; cases r
          unfold GMem.run; rw [p]; rfl
        | cons x pre =>
          cases e
          unfold GMem.run at r ⊢
          cases q : m0.step op with
          | error x => rw [q] at r; cases r
          | ok m1 =>
            rw [q] at r
            exact (ih m1).2 ⟨pre, op', post, m, rfl, r, p⟩
  rw [key]
  constructor
  · rintro ⟨pre, op, post, m, e, r, p⟩
    exact ⟨pre, op, post, m, e, r, (C24_panic_iff pre m r op).1 p⟩
  · rintro ⟨pre, op, post, m, e, r, p⟩
    exact ⟨pre, op, post, m, e, r, (C24_panic_iff pre m r op).2 p⟩

/-- A bigint with an `Any` in an array and a `Ref`: dropping the array and then the `Ref` is fine, … -/
example : ∃ m, GMem.empty.run [.new .bigint [], .toRef 0, .clone 0, .toAny .bigint 1, .new .array [1],
    .drop 1, .drop 0] = .ok m ∧ m.heap.map (·.phase) = [.freed, .freed] := ⟨_, rfl, by decide⟩

/-- … the other order panics. -/
example : GMem.empty.run [.new .bigint [], .toRef 0, .clone 0, .toAny .bigint 1, .new .array [1],
    .drop 0, .drop 0] = .error .panic := by decide

/-- a store over a bigint and a failed `try_move` of a bigint panic as well -/
example : GMem.empty.run [.new .bigint [], .toRef 0, .toAny .bigint 0, .new .array [0], .value, .setItem 0 0 1]
    = .error .panic ∧
  GMem.empty.run [.new .bigint [], .toRef 0, .toAny .bigint 0, .tryMove .string 0] = .error .panic := by
  decide

end Nanvm
