import Verif.Lemmas.GraphStep
import Verif.Spec.Graph
/-! Lemmas for C24: histories keep the invariant, and a block is live exactly while it can be reached -/
namespace Nanvm
open Graph

theorem run_good (ops : List GMem.Op) : ∀ (m : GMem), St m →
    (∃ m', m.run ops = .ok m' ∧ St m' ∧
      (HasBig (all m') → HasBig (all m) ∨ ∃ i, GMem.Op.toAny .bigint i ∈ ops)) ∨
    (m.run ops = .error .panic ∧ (HasBig (all m) ∨ ∃ i, GMem.Op.toAny .bigint i ∈ ops)) ∨
    m.run ops = .error .notRust := by
  induction ops with
  | nil => intro m s; exact .inl ⟨m, rfl, s, .inl⟩
  | cons op ops ih =>
    intro m s
    unfold GMem.run
    rcases step_good s op with ⟨m', e, s', b'⟩ | ⟨e, b⟩ | e
    · rw [e]
      have up : (HasBig (all m') ∨ ∃ i, GMem.Op.toAny .bigint i ∈ ops) →
          HasBig (all m) ∨ ∃ i, GMem.Op.toAny .bigint i ∈ op :: ops := by
        rintro (h | ⟨i, h⟩)
        · rcases b' h with h | ⟨i, h⟩
          · exact .inl h
          · exact .inr ⟨i, by simp [h]⟩
        · exact .inr ⟨i, by simp [h]⟩
      rcases ih m' s' with ⟨m2, e2, s2, b2⟩ | ⟨e2, b2⟩ | e2
      · exact .inl ⟨m2, e2, s2, fun h => up (b2 h)⟩
      · exact .inr (.inl ⟨e2, up b2⟩)
      · exact .inr (.inr e2)
    · rw [e]; exact .inr (.inl ⟨rfl, .inl b⟩)
    · rw [e]; exact .inr (.inr rfl)

theorem run_st {ops : List GMem.Op} {m : GMem} (e : GMem.empty.run ops = .ok m) : St m := by
  rcases run_good ops _ st_empty with ⟨m', e', s, _⟩ | ⟨e', _⟩ | e' <;> rw [e'] at e <;> cases e
  exact s

theorem not_big_empty : ¬ HasBig (all GMem.empty) := by
  rintro ⟨b, hb⟩; simp [all, GMem.empty, edges] at hb

theorem Graph.St.reach {m : GMem} (s : St m) {b : Nat} (r : Reach m b) :
    ∃ n, m.heap[b]? = some n ∧ n.phase = .live := by
  have lk : ∀ {o : Own} {b}, o ∈ m.roots ++ edges m.heap → o.target = some b →
      ∃ n, m.heap[b]? = some n ∧ n.phase = .live := by
    intro o b ho hb
    rw [target_link] at hb
    cases hl : Own.link o with
    | none => rw [hl] at hb; cases hb
    | some tb =>
      obtain ⟨t', b'⟩ := tb
      rw [hl] at hb; simp at hb; subst hb
      obtain ⟨n, e, l, _⟩ := s.inv.ok o ho t' b' hl
      exact ⟨n, e, l⟩
  induction r with
  | root ho hb => exact lk (List.mem_append.2 (.inl ho)) hb
  | kid _ e ho hb ih =>
    obtain ⟨n', e', l⟩ := ih
    rw [e] at e'; cases e'
    exact lk (List.mem_append.2 (.inr ((mem_edges _ _).2 ⟨_, _, e, l, ho⟩))) hb

theorem Graph.St.referenced {m : GMem} (s : St m) {b : Nat} {n : Node} (e : m.heap[b]? = some n)
    (l : n.phase = .live) : ∃ o ∈ m.roots ++ edges m.heap, o.target = some b := by
  apply cnt_pos
  have := s.inv.count b n e l
  have := s.inv.nonneg b n e l
  omega

theorem Graph.St.live_reach {m : GMem} (s : St m) {b : Nat} {n : Node} (e : m.heap[b]? = some n)
    (l : n.phase = .live) : Reach m b := by
  obtain ⟨r, hr⟩ := s.inv.rank
  -- ranks of existing blocks are bounded
  obtain ⟨K, hK⟩ : ∃ K, ∀ c < m.heap.length, r c ≤ K :=
    ⟨((List.range m.heap.length).map r).sum, fun c hc =>
      le_sum_of_mem (List.mem_map.2 ⟨c, List.mem_range.2 hc, rfl⟩)⟩
  have key : ∀ (k b : Nat) (n : Node), K - r b ≤ k → m.heap[b]? = some n → n.phase = .live →
      Reach m b := by
    intro k
    induction k with
    | zero =>
      intro b n hk e l
      obtain ⟨o, ho, ht⟩ := s.referenced e l
      rcases List.mem_append.1 ho with ho | ho
      · exact .root ho ht
      · obtain ⟨c, n', e', l', hk'⟩ := (mem_edges _ _).1 ho
        have := hr c n' e' l' o hk' b ht
        have := hK c (getElem?_lt e')
        omega
    | succ k ih =>
      intro b n hk e l
      obtain ⟨o, ho, ht⟩ := s.referenced e l
      rcases List.mem_append.1 ho with ho | ho
      · exact .root ho ht
      · obtain ⟨c, n', e', l', hk'⟩ := (mem_edges _ _).1 ho
        have := hr c n' e' l' o hk' b ht
        exact .kid (ih c n' (by omega) e' l') e' hk' ht
  exact key _ b n le_rfl e l

end Nanvm
