import Verif.Lemmas.GraphPanic
/-! Lemmas for C75: only a store through a `MutRef` changes the items of a block -/
namespace Nanvm
open Graph

namespace Graph
open GMem

theorem foldl_same (f : Nat) (ih : ∀ h o h', drop f h o = .ok h' → Same h h') :
    ∀ (ks : List Own) (h h' : Heap), ks.foldlM (drop f) h = .ok h' → Same h h' := by
  intro ks
  induction ks with
  | nil => intro h h' e; cases e; exact .refl h
  | cons o ks ihk =>
    intro h h' e
    simp only [List.foldlM_cons] at e
    cases q : drop f h o with
    | error x => rw [q] at e; cases e
    | ok h1 => rw [q] at e; exact (ih h o h1 q).trans (ihk h1 h' e)

theorem delete_same (f : Nat) (ih : ∀ h o h', drop f h o = .ok h' → Same h h')
    {h h' : Heap} {t b} (e : delete (drop f) h t b = .ok h') : Same h h' := by
  unfold delete access at e
  cases hb : h[b]? with
  | none => rw [hb] at e; cases e
  | some n =>
    rw [hb] at e
    simp only at e
    split at e
    · set nd : Node := { n with phase := .dying } with hnd
      change (do
        let h ← n.kids.foldlM (drop f) (h.set b nd)
        match h[b]? with
        | some n => if n.phase = Phase.dying then Except.ok (h.set b { n with phase := .freed }) else .error GErr.memory
        | none => .error GErr.memory) = .ok h' at e
      cases q : n.kids.foldlM (drop f) (h.set b nd) with
      | error x => rw [q] at e; cases e
      | ok h1 =>
        rw [q] at e
        change (match h1[b]? with
          | some n => if n.phase = Phase.dying then Except.ok (h1.set b { n with phase := .freed }) else .error GErr.memory
          | none => .error GErr.memory) = .ok h' at e
        have s1 := foldl_same f ih n.kids _ h1 q
        cases g : h1[b]? with
        | none => rw [g] at e; cases e
        | some x =>
          rw [g] at e
          simp only at e
          split at e
          · cases e
            exact ((same_set (n' := nd) hb rfl rfl).trans s1).trans
              (same_set (n' := { x with phase := .freed }) g rfl rfl)
          · cases e
    · cases e

/-- a drop changes no items -/
theorem drop_same : ∀ (f : Nat) (h : Heap) (o : Own) (h' : Heap), drop f h o = .ok h' → Same h h' := by
  intro f
  induction f with
  | zero => intro h o h' e; cases e
  | succ f ih =>
    intro h o h' e
    cases o with
    | simple => cases e; exact .refl h
    | any t b =>
      unfold drop at e
      cases q : refCounterUpdate h t b RELEASE with
      | error x => rw [q] at e; cases e
      | ok zh =>
        obtain ⟨z, h1⟩ := zh
        rw [q] at e
        have sm := (refCounterUpdate_same q).1
        cases z with
        | false => cases e; exact sm
        | true =>
          cases t with
          | bigint => cases e
          | _ => exact sm.trans (delete_same f ih e)
    | typed t b =>
      unfold drop at e
      cases q : refCounterUpdate h t b RELEASE with
      | error x => rw [q] at e; cases e
      | ok zh =>
        obtain ⟨z, h1⟩ := zh
        rw [q] at e
        have sm := (refCounterUpdate_same q).1
        cases z with
        | false => cases e; exact sm
        | true => exact sm.trans (delete_same f ih e)
    | mutRef t b =>
      unfold drop at e
      exact delete_same f ih e

/-- what an operation leaves as it is: the items of every block to which it does not store -/
theorem step_same {m m' : GMem} {op : GMem.Op} (e : m.step op = .ok m') {c : Nat}
    (hc : ∀ i j k t, op = .setItem i j k → m.roots[i]? ≠ some (.mutRef t c)) {n : Node} (hn : m.heap[c]? = some n) :
    ∃ n', m'.heap[c]? = some n' ∧ n'.ty = n.ty ∧ n'.kids = n.kids := by
  have fin : ∀ {h' : Heap}, Same m.heap h' → ∃ n', h'[c]? = some n' ∧ n'.ty = n.ty ∧ n'.kids = n.kids := by
    intro h' s
    obtain ⟨n', e', t, k⟩ := s.symm.pt c n hn
    exact ⟨n', e', t.symm, k.symm⟩
  cases op with
  | value => cases e; exact ⟨n, hn, rfl, rfl⟩
  | new t is =>
    dsimp only [GMem.step] at e
    cases ht : GMem.takeRoots m.roots is with
    | none => rw [ht] at e; cases e
    | some x =>
      obtain ⟨os, rs⟩ := x
      rw [ht] at e
      simp only at e
      split at e
      · cases e
        refine ⟨n, ?_, rfl, rfl⟩
        rw [List.getElem?_append_left (getElem?_lt hn)]
        exact hn
      · cases e
  | clone i =>
    dsimp only [GMem.step] at e
    cases hr : m.roots[i]? with
    | none => rw [hr] at e; cases e
    | some o =>
      rw [hr] at e
      simp only at e
      cases q : cloneOwn m.heap o with
      | error x => rw [q] at e; cases e
      | ok h' => rw [q] at e; cases e; exact fin (cloneOwn_same q)
  | toRef i =>
    dsimp only [GMem.step] at e
    split at e <;> cases e
    exact fin (.refl _)
  | toAny t i =>
    dsimp only [GMem.step] at e
    split at e
    · split at e <;> cases e
      exact fin (.refl _)
    · cases e
  | tryMove t i =>
    dsimp only [GMem.step] at e
    split at e
    · rename_i t' b er
      split at e
      · cases e; exact fin (.refl _)
      · cases q : Graph.drop m.fuel m.heap (.any t' b) with
        | error x => rw [q] at e; cases e
        | ok h' => rw [q] at e; cases e; exact fin (drop_same _ _ _ _ q)
    · cases q : Graph.drop m.fuel m.heap .simple with
      | error x => rw [q] at e; cases e
      | ok h' => rw [q] at e; cases e; exact fin (drop_same _ _ _ _ q)
    · cases e
  | tryToMutRef i =>
    dsimp only [GMem.step] at e
    split at e
    · rename_i t b er
      cases q : refCounterUpdate m.heap t b READ with
      | error x => rw [q] at e; cases e
      | ok x => rw [q] at e; cases e; exact fin (refCounterUpdate_same (z := x.1) q).1
    · cases e
  | getItem i j =>
    dsimp only [GMem.step] at e
    cases hr : m.roots[i]? with
    | none => rw [hr] at e; cases e
    | some o =>
      rw [hr] at e
      simp only at e
      cases q : GMem.derefOwn m.heap o with
      | error x => rw [q] at e; cases e
      | ok nn =>
        rw [q] at e
        simp only [bind, Except.bind] at e
        split at e
        · rename_i kk _
          cases q2 : cloneOwn m.heap kk with
          | error x => rw [q2] at e; cases e
          | ok h' => rw [q2] at e; cases e; exact fin (cloneOwn_same q2)
        · cases e; exact fin (.refl _)
  | setItem i j kk =>
    dsimp only [GMem.step] at e
    split at e
    · rename_i t b v ei ek
      have hcb : c ≠ b := by
        rintro rfl
        exact hc i j kk t rfl ei
      split at e
      · rename_i f
        unfold access at e
        cases hb : m.heap[b]? with
        | none => rw [hb] at e; cases e
        | some nb =>
          rw [hb] at e
          simp only at e
          split at e
          · simp only [bind, Except.bind] at e
            split at e
            · rename_i old ho
              cases q : Graph.drop m.fuel (m.heap.set b { nb with kids := nb.kids.set j v }) old with
              | error x => rw [q] at e; cases e
              | ok h' =>
                rw [q] at e; cases e
                obtain ⟨n', e', t', k'⟩ := (drop_same _ _ _ _ q).symm.pt c n
                  (by rw [getElem?_set_of hb, if_neg hcb]; exact hn)
                exact ⟨n', e', t'.symm, k'.symm⟩
            · cases e; exact fin (.refl _)
          · cases e
      · cases e
    · cases e
  | drop i =>
    dsimp only [GMem.step] at e
    cases hr : m.roots[i]? with
    | none => rw [hr] at e; cases e
    | some o =>
      rw [hr] at e
      simp only at e
      cases q : Graph.drop m.fuel m.heap o with
      | error x => rw [q] at e; cases e
      | ok h' => rw [q] at e; cases e; exact fin (drop_same _ _ _ _ q)

/-- some owner of the block is not a `MutRef` -/
def Lent (m : GMem) (c : Nat) : Prop :=
  ∃ o ∈ m.roots ++ edges m.heap, o.target = some c ∧ Own.isMut o = false

theorem Lent.no_mut {m : GMem} (s : St m) {c : Nat} (l : Lent m c) (t : RefTy) :
    Own.mutRef t c ∉ m.roots := by
  intro h
  obtain ⟨o, ho, ht, hm⟩ := l
  have h1 := s.inv.mutc t c h
  have h2 := cnt_two (List.mem_append.2 (.inl h)) ho (by rintro rfl; cases hm) rfl ht
  omega

theorem Lent.live {m : GMem} (s : St m) {c : Nat} (l : Lent m c) :
    ∃ n, m.heap[c]? = some n ∧ n.phase = .live := by
  obtain ⟨o, ho, ht, -⟩ := l
  exact s.inv.linkLive ho ht

/-- a step changes nothing that is read from a block with an owner that is not a `MutRef` -/
theorem step_seen {m m' : GMem} {op : GMem.Op} (s : St m) (s' : St m') (e : m.step op = .ok m')
    (path : List Nat) : ∀ c, Lent m c → Lent m' c →
    seen m'.heap c path = seen m.heap c path ∧ (path = [] → seen m.heap c path ≠ none) := by
  induction path with
  | nil =>
    intro c l l'
    obtain ⟨n, hn, hl⟩ := l.live s
    obtain ⟨n', hn', hl'⟩ := l'.live s'
    obtain ⟨n2, h1, h2, h3⟩ := step_same e (fun _ _ _ t _ h => l.no_mut s t (List.mem_of_getElem? h)) hn
    rw [hn'] at h1; cases h1
    simp [seen, hn, hn', hl, hl', h2, h3]
  | cons j js ih =>
    intro c l l'
    obtain ⟨n, hn, hl⟩ := l.live s
    obtain ⟨n', hn', hl'⟩ := l'.live s'
    obtain ⟨n2, h1, h2, h3⟩ := step_same e (fun _ _ _ t _ h => l.no_mut s t (List.mem_of_getElem? h)) hn
    rw [hn'] at h1; cases h1
    refine ⟨?_, by simp⟩
    simp only [seen, hn, hn', hl, hl', h3, Option.bind_some, if_true]
    cases hk : n.kids[j]? with
    | none => rfl
    | some o =>
      simp only [Option.bind_some]
      cases ht : o.target with
      | none => rfl
      | some d =>
        have ho : o ∈ edges m.heap := (mem_edges _ _).2 ⟨c, n, hn, hl, List.mem_of_getElem? hk⟩
        have ho' : o ∈ edges m'.heap :=
          (mem_edges _ _).2 ⟨c, n', hn', hl', by rw [h3]; exact List.mem_of_getElem? hk⟩
        exact (ih d ⟨o, List.mem_append.2 (.inr ho), ht, s.inv.nomut o ho⟩
          ⟨o, List.mem_append.2 (.inr ho'), ht, s'.inv.nomut o ho'⟩).1

end Graph

theorem Frozen.lent {m : GMem} {b : Nat} (f : Frozen m b) : Lent m b := by
  obtain ⟨t, h | h⟩ := f
  · exact ⟨_, List.mem_append.2 (.inl h), rfl, rfl⟩
  · exact ⟨_, List.mem_append.2 (.inl h), rfl, rfl⟩

theorem step_st {m m' : GMem} {op : GMem.Op} (s : St m) (e : m.step op = .ok m') : St m' := by
  rcases step_good s op with ⟨m1, e1, s1, -⟩ | ⟨e1, -⟩ | e1 <;> rw [e1] at e <;> cases e
  exact s1

end Nanvm
