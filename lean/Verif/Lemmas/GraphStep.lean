import Verif.Lemmas.Graph
/-! The invariant of `Lemmas/Graph.lean` is preserved by every operation. -/
namespace Nanvm
namespace Graph
open GMem

theorem cnt_two {b : Nat} {P : List Own} {a o : Own} (ha : a ∈ P) (ho : o ∈ P) (ne : a ≠ o)
    (ta : a.target = some b) (tg : o.target = some b) : 2 ≤ cnt b P := by
  rw [cnt_perm (List.perm_cons_erase ha), cnt_cons, if_pos ta]
  have : o ∈ P.erase a := (List.mem_erase_of_ne (Ne.symm ne)).2 ho
  have := cnt_mem this tg
  omega

theorem perm_eraseIdx {α} {P : List α} {i : Nat} {o : α} (e : P[i]? = some o) :
    P.Perm (o :: P.eraseIdx i) := by
  have l := getElem?_lt e
  have : o = P[i] := by rw [List.getElem?_eq_getElem l] at e; exact (Option.some.inj e).symm
  rw [this]
  exact (List.getElem_cons_eraseIdx_perm l).symm

theorem perm_set {α} {P : List α} {i : Nat} {o : α} (e : P[i]? = some o) (o' : α) :
    (P.set i o').Perm (o' :: P.eraseIdx i) := by
  have l := getElem?_lt e
  have e' : (P.set i o')[i]? = some o' := by simp [l]
  have := perm_eraseIdx e'
  rwa [List.eraseIdx_set_eq] at this

theorem Inv.relink {h : Heap} {P : List Own} {o o' : Own} (i : Inv h (o :: P)) (el : Own.link o' = Own.link o)
    (mu : ∀ t b, o' = .mutRef t b → cnt b (o :: P ++ edges h) = 1) : Inv h (o' :: P) := by
  have et : o'.target = o.target := by rw [target_link, target_link, el]
  have cs : ∀ c, cnt c (o' :: P ++ edges h) = cnt c (o :: P ++ edges h) := by
    intro c
    change cnt c (o' :: (P ++ edges h)) = cnt c (o :: (P ++ edges h))
    rw [cnt_cons, cnt_cons, et]
  constructor
  · intro x hx t b hl
    rcases List.mem_cons.1 hx with hx | hx
    · subst hx; exact i.ok o (by simp) t b (by rw [← el, hl])
    · exact i.ok x (List.mem_cons_of_mem _ hx) t b hl
  · intro b n e l; rw [cs]; exact i.count b n e l
  · exact i.nonneg
  · exact i.nomut
  · intro t b hm
    rw [cs]
    rcases List.mem_cons.1 hm with hm | hm
    · exact mu t b hm.symm
    · exact i.mutc t b (List.mem_cons_of_mem _ hm)
  · exact i.rank

theorem Inv.clone {h : Heap} {P : List Own} {o : Own} (i : Inv h P) (ho : o ∈ P ++ edges h)
    (nm : Own.isMut o = false) : ∃ h', cloneOwn h o = .ok h' ∧ Inv h' (P ++ [o]) ∧ Keep h h' := by
  have key : ∀ t b, Own.link o = some (t, b) → ∃ n, h[b]? = some n ∧ n.phase = .live ∧ n.ty = t ∧
      Inv (h.set b { n with counter := n.counter + ADD_REF }) (P ++ [o]) ∧
      Keep h (h.set b { n with counter := n.counter + ADD_REF }) := by
    intro t b hl
    obtain ⟨n, e, l, ty⟩ := i.ok o ho t b hl
    have ot := link_target hl
    have c1 : ∀ c, cnt c (P ++ [o]) = cnt c P + if o.target = some c then 1 else 0 := by
      intro c
      rw [cnt_append, cnt_cons]; simp [cnt]
    refine ⟨n, e, l, ty, ?_, keep_recount e l _⟩
    refine i.recount e _ ?_ (fun _ => ?_) ?_ ?_ ?_
    · intro x hx
      rcases List.mem_append.1 hx with hx | hx
      · exact .inl hx
      · simp at hx; subst hx; exact .inr ⟨x, ho, rfl⟩
    · have := i.nonneg b n e l
      unfold ADD_REF; omega
    · intro _
      have := i.count b n e l
      rw [cnt_append, c1, if_pos ot]
      rw [cnt_append] at this
      unfold ADD_REF; push_cast at this ⊢; omega
    · intro c hc
      rw [c1, if_neg]
      · rfl
      · rw [ot]; simpa using fun h => hc h.symm
    · intro t' c hm
      have hP : Own.mutRef t' c ∈ P := by
        rcases List.mem_append.1 hm with hm | hm
        · exact hm
        · simp at hm; subst hm; simp [Own.isMut] at nm
      have m1 := i.mutc t' c hP
      by_cases y : c = b
      · subst y
        have := cnt_two (a := .mutRef t' c) (o := o) (P := P ++ edges h) (by simp [hP]) ho
          (by rintro rfl; simp [Own.isMut] at nm) rfl ot
        omega
      · rw [cnt_append, c1, if_neg]
        · rw [cnt_append] at m1; omega
        · rw [ot]; simpa using fun h => y h.symm
  cases o with
  | simple =>
    refine ⟨h, rfl, ?_, .refl h⟩
    refine Inv.perm (P := Own.simple :: P) ?_ (List.perm_append_comm (l₁ := [Own.simple]) (l₂ := P))
    have cs : ∀ c, cnt c (Own.simple :: P ++ edges h) = cnt c (P ++ edges h) := by
      intro c
      change cnt c (Own.simple :: (P ++ edges h)) = _
      rw [cnt_cons]; simp [Own.target]
    constructor
    · intro x hx t b hl
      rcases List.mem_cons.1 hx with hx | hx
      · subst hx; simp [Own.link] at hl
      · exact i.ok x hx t b hl
    · intro b n e l; rw [cs]; exact i.count b n e l
    · exact i.nonneg
    · exact i.nomut
    · intro t b hm
      rw [cs]
      exact i.mutc t b (by simpa using hm)
    · exact i.rank
  | any t b =>
    obtain ⟨n, e, l, ty, r⟩ := key t b rfl
    exact ⟨_, by simp [cloneOwn, refCounterUpdate_ok e l ty], r⟩
  | typed t b =>
    obtain ⟨n, e, l, ty, r⟩ := key t b rfl
    exact ⟨_, by simp [cloneOwn, refCounterUpdate_ok e l ty], r⟩
  | mutRef t b => simp [Own.isMut] at nm

theorem takeRoots_perm : ∀ (is : List Nat) (rs os rs' : List Own), takeRoots rs is = some (os, rs') →
    rs.Perm (os ++ rs') := by
  intro is
  induction is with
  | nil => intro rs os rs' e; simp [takeRoots] at e; obtain ⟨rfl, rfl⟩ := e; simp
  | cons i is ih =>
    intro rs os rs' e
    unfold takeRoots at e
    cases hr : rs[i]? with
    | none => rw [hr] at e; cases e
    | some o =>
      rw [hr] at e
      simp only [Option.map_eq_some_iff] at e
      obtain ⟨⟨os2, rs2⟩, e2, e3⟩ := e
      simp at e3
      obtain ⟨rfl, rfl⟩ := e3
      exact (perm_eraseIdx hr).trans ((ih _ _ _ e2).cons o)

theorem fits_nomut {t j o} (f : fits t j o = true) : Own.isMut o = false := by
  cases o with
  | mutRef t' b => simp [fits] at f
  | _ => rfl

def NoDying (h : Heap) : Prop := ∀ (c : Nat) (n : Node), h[c]? = some n → n.phase ≠ .dying

theorem Keep.noDying {h h' : Heap} (k : Keep h h') (d : NoDying h) : NoDying h' := by
  intro c n e x
  obtain ⟨n0, e0, _, _, _, y⟩ := k.pt c n e
  exact d c n0 e0 (y x)

theorem le_sum_of_mem {l : List Nat} {x : Nat} (h : x ∈ l) : x ≤ l.sum := by
  induction l with
  | nil => cases h
  | cons y ys ih =>
    rcases List.mem_cons.1 h with h | h
    · subst h; simp
    · have := ih h; simp; omega

def rankSum (r : Nat → Nat) (os : List Own) : Nat := (os.map fun o => (o.target.elim 0 r)).sum

theorem rankSum_lt {r : Nat → Nat} {os : List Own} {o : Own} {b} (h : o ∈ os) (e : o.target = some b) :
    r b ≤ rankSum r os := by
  apply le_sum_of_mem
  exact List.mem_map.2 ⟨o, h, by simp [e]⟩

theorem Inv.new {h : Heap} {P os : List Own} (i : Inv h (os ++ P)) (t : RefTy)
    (nm : ∀ o ∈ os, Own.isMut o = false) :
    Inv (h ++ [⟨t, 0, os, .live⟩]) (P ++ [.mutRef t h.length]) := by
  have ed : edges (h ++ [⟨t, 0, os, .live⟩]) = edges h ++ os := by
    rw [edges_append]; simp [nodeEdges]
  have lt : ∀ o ∈ os ++ P ++ edges h, ∀ b, o.target = some b → b < h.length := by
    intro o ho b hb
    rw [target_link] at hb
    cases hl : Own.link o with
    | none => rw [hl] at hb; cases hb
    | some tb =>
      obtain ⟨t', b'⟩ := tb
      rw [hl] at hb; simp at hb; subst hb
      obtain ⟨n, e, _⟩ := i.ok o ho t' b' hl
      exact getElem?_lt e
  have z : cnt h.length (os ++ P ++ edges h) = 0 := by
    by_contra x
    obtain ⟨o, ho, e⟩ := cnt_pos (Nat.pos_of_ne_zero x)
    exact absurd (lt o ho _ e) (by omega)
  have cs : ∀ c, cnt c ((P ++ [.mutRef t h.length]) ++ edges (h ++ [⟨t, 0, os, .live⟩])) =
      cnt c (os ++ P ++ edges h) + if h.length = c then 1 else 0 := by
    intro c
    rw [ed]
    simp only [cnt_append, cnt_cons, Own.target, Option.some.injEq]
    have : cnt c [] = 0 := rfl
    omega
  have ge : ∀ {c : Nat} {n : Node}, h[c]? = some n → (h ++ [(⟨t, 0, os, .live⟩ : Node)])[c]? = some n := by
    intro c n e
    rw [List.getElem?_append_left (getElem?_lt e)]; exact e
  have inv : ∀ {c : Nat} {n : Node}, (h ++ [(⟨t, 0, os, .live⟩ : Node)])[c]? = some n →
      h[c]? = some n ∨ (c = h.length ∧ n = ⟨t, 0, os, .live⟩) := by
    intro c n e
    by_cases x : c < h.length
    · rw [List.getElem?_append_left x] at e; exact .inl e
    · rw [List.getElem?_append_right (by omega)] at e
      by_cases y : c = h.length
      · subst y; simp at e; exact .inr ⟨rfl, e.symm⟩
      · rw [List.getElem?_eq_none (by simp; omega)] at e; cases e
  constructor
  · intro o ho t' b hl
    rw [ed] at ho
    have : o = .mutRef t h.length ∨ o ∈ os ++ P ++ edges h := by
      simp only [List.mem_append, List.mem_singleton] at ho ⊢
      tauto
    rcases this with rfl | ho
    · simp [Own.link] at hl
      obtain ⟨rfl, rfl⟩ := hl
      exact ⟨⟨t, 0, os, .live⟩, by simp, rfl, rfl⟩
    · obtain ⟨n, e, r⟩ := i.ok o ho t' b hl
      exact ⟨n, ge e, r⟩
  · intro b n e l
    rw [cs]
    rcases inv e with e | ⟨rfl, rfl⟩
    · have := getElem?_lt e
      rw [if_neg (by omega), i.count b n e l]; rfl
    · rw [z]; simp
  · intro b n e l
    rcases inv e with e | ⟨rfl, rfl⟩
    · exact i.nonneg b n e l
    · simp
  · intro o ho
    rw [ed] at ho
    rcases List.mem_append.1 ho with ho | ho
    · exact i.nomut o ho
    · exact nm o ho
  · intro t' c hm
    rw [cs]
    rcases List.mem_append.1 hm with hm | hm
    · have hc := lt (.mutRef t' c) (by simp [hm]) c rfl
      rw [if_neg (by omega), i.mutc t' c (by simp [hm])]
    · simp at hm
      obtain ⟨rfl, rfl⟩ := hm
      rw [z]; simp
  · obtain ⟨r, hr⟩ := i.rank
    refine ⟨fun c => if c = h.length then 1 + rankSum r os else r c, fun c n e l o ho b hb => ?_⟩
    rcases inv e with e | ⟨rfl, rfl⟩
    · have h1 := getElem?_lt e
      have h2 := lt o (by simp only [List.mem_append]; exact .inr ((mem_edges _ _).2 ⟨c, n, e, l, ho⟩)) b hb
      simp only [if_neg (by omega : ¬ c = h.length), if_neg (by omega : ¬ b = h.length)]
      exact hr c n e l o ho b hb
    · have h2 := lt o (by simp only [List.mem_append]; exact .inl (.inl ho)) b hb
      simp only [if_neg (by omega : ¬ b = h.length), if_true]
      have : r b ≤ rankSum r os := rankSum_lt (r := r) ho hb
      omega

theorem cnt_set {α} (p : α → Bool) (l : List α) (j : Nat) (x y : α) (e : l[j]? = some x) :
    (l.set j y).countP p + (if p x then 1 else 0) = l.countP p + if p y then 1 else 0 := by
  rw [(perm_set e y).countP_eq, (perm_eraseIdx e).countP_eq, List.countP_cons, List.countP_cons]
  split <;> split <;> omega

theorem Inv.setKid {h : Heap} {P : List Own} {t b} {v old : Own} {n : Node} {j : Nat}
    (i : Inv h (.mutRef t b :: v :: P)) (nm : Own.isMut v = false) (e : h[b]? = some n)
    (ej : n.kids[j]? = some old) :
    Inv (h.set b { n with kids := n.kids.set j v }) (old :: .mutRef t b :: P) := by
  obtain ⟨n', e', l, ty⟩ := i.ok (.mutRef t b) (by simp) t b rfl
  rw [e] at e'; cases e'
  set n' : Node := { n with kids := n.kids.set j v } with hn'
  have l' : n'.phase = .live := l
  have ne : nodeEdges n = n.kids := by simp [nodeEdges, l]
  have ne' : nodeEdges n' = n.kids.set j v := by simp [nodeEdges, l, hn']
  have oldk : old ∈ n.kids := List.mem_of_getElem? ej
  have olde : old ∈ edges h := (mem_edges _ _).2 ⟨b, n, e, l, oldk⟩
  have cs : ∀ c, cnt c ((old :: .mutRef t b :: P) ++ edges (h.set b n')) =
      cnt c ((.mutRef t b :: v :: P) ++ edges h) := by
    intro c
    have h1 := cnt_edges_set c b h n n' e
    rw [ne, ne'] at h1
    have h2 := cnt_set (pts c) n.kids j old v ej
    simp only [List.cons_append, cnt_cons, cnt_append]
    unfold cnt pts at *
    simp only [decide_eq_true_eq] at h2
    omega
  have sub : ∀ x ∈ (old :: .mutRef t b :: P) ++ edges (h.set b n'), x ∈ (.mutRef t b :: v :: P) ++ edges h := by
    intro x hx
    simp only [List.mem_append, List.mem_cons] at hx ⊢
    rcases hx with (rfl | rfl | hx) | hx
    · exact .inr olde
    · simp
    · simp [hx]
    · obtain ⟨c, m, em, lm, hm⟩ := (mem_edges _ _).1 hx
      rw [getElem?_set_of e] at em
      by_cases y : c = b
      · rw [if_pos y] at em; cases em
        rcases List.mem_or_eq_of_mem_set hm with hm | hm
        · exact .inr ((mem_edges _ _).2 ⟨b, n, e, l, hm⟩)
        · exact .inl (.inr (.inl hm))
      · rw [if_neg y] at em; exact .inr ((mem_edges _ _).2 ⟨c, m, em, lm, hm⟩)
  have one := i.mutc t b (by simp)
  have z : ∀ x ∈ v :: P ++ edges h, x.target ≠ some b := by
    apply cnt_zero
    change cnt b (.mutRef t b :: (v :: P ++ edges h)) = 1 at one
    rw [cnt_cons, if_pos (show (Own.mutRef t b).target = some b from rfl)] at one; omega
  constructor
  · intro x hx t' c hl
    obtain ⟨m, em, lm, tm⟩ := i.ok x (sub x hx) t' c hl
    unfold LiveAt
    rw [getElem?_set_of e]
    by_cases y : c = b
    · subst y; rw [e] at em; cases em
      exact ⟨n', by simp, lm, tm⟩
    · exact ⟨m, by simp [y, em], lm, tm⟩
  · intro c m em lm
    rw [cs]
    rw [getElem?_set_of e] at em
    by_cases y : c = b
    · subst y; rw [if_pos rfl] at em; cases em
      exact i.count c n e l
    · rw [if_neg y] at em; exact i.count c m em lm
  · intro c m em lm
    rw [getElem?_set_of e] at em
    by_cases y : c = b
    · subst y; rw [if_pos rfl] at em; cases em
      exact i.nonneg c n e l
    · rw [if_neg y] at em; exact i.nonneg c m em lm
  · intro x hx
    have : x ∈ v :: edges h := by
      obtain ⟨c, m, em, lm, hm⟩ := (mem_edges _ _).1 hx
      rw [getElem?_set_of e] at em
      by_cases y : c = b
      · rw [if_pos y] at em; cases em
        rcases List.mem_or_eq_of_mem_set hm with hm | hm
        · simp only [List.mem_cons]; exact .inr ((mem_edges _ _).2 ⟨b, n, e, l, hm⟩)
        · simp [hm]
      · rw [if_neg y] at em; simp only [List.mem_cons]; exact .inr ((mem_edges _ _).2 ⟨c, m, em, lm, hm⟩)
    rcases List.mem_cons.1 this with rfl | hx
    · exact nm
    · exact i.nomut x hx
  · intro t' c hm
    rw [cs]
    have : Own.mutRef t' c ∈ .mutRef t b :: v :: P := by
      rcases List.mem_cons.1 hm with hm | hm
      · have := i.nomut _ olde; rw [← hm] at this; simp [Own.isMut] at this
      · simp only [List.mem_cons] at hm ⊢; tauto
    exact i.mutc t' c this
  · obtain ⟨r, hr⟩ := i.rank
    refine ⟨fun c => if c = b then 1 + rankSum r (n.kids.set j v) else r c, fun c m em lm o ho d hd => ?_⟩
    have oe : o ∈ v :: P ++ edges h := by
      rw [getElem?_set_of e] at em
      simp only [List.mem_append, List.mem_cons]
      by_cases y : c = b
      · rw [if_pos y] at em; cases em
        rcases List.mem_or_eq_of_mem_set ho with hm | hm
        · exact .inr ((mem_edges _ _).2 ⟨b, n, e, l, hm⟩)
        · exact .inl (.inl hm)
      · rw [if_neg y] at em; exact .inr ((mem_edges _ _).2 ⟨c, m, em, lm, ho⟩)
    have db : d ≠ b := by
      rintro rfl; exact z o oe hd
    rw [getElem?_set_of e] at em
    by_cases y : c = b
    · subst y
      rw [if_pos rfl] at em; cases em
      simp only [if_neg db, if_true]
      have : r d ≤ rankSum r (n.kids.set j v) := rankSum_lt (r := r) ho hd
      omega
    · rw [if_neg y] at em
      simp only [if_neg db, if_neg y]
      exact hr c m em lm o ho d hd

/-- all owned values of a state -/
def all (m : GMem) : List Own := m.roots ++ edges m.heap

structure St (m : GMem) : Prop where
  inv : Inv m.heap m.roots
  nd : NoDying m.heap

def StepGood (m : GMem) (op : Op) (r : Except GErr GMem) : Prop :=
  (∃ m', r = .ok m' ∧ St m' ∧ (HasBig (all m') → HasBig (all m) ∨ ∃ i, op = .toAny .bigint i)) ∨
  (r = .error .panic ∧ HasBig (all m)) ∨ r = .error .notRust

theorem fuel_ok (m : GMem) : liveCount m.heap < m.fuel := by
  have := liveCount_le m.heap
  unfold GMem.fuel; omega

/-- dropping the handle at position `i` -/
theorem dropRoot_good {m : GMem} (s : St m) {i : Nat} {o : Own} (e : m.roots[i]? = some o) (op : Op) :
    (∃ h', drop m.fuel m.heap o = .ok h' ∧ St ⟨h', m.roots.eraseIdx i⟩ ∧
      (HasBig (all ⟨h', m.roots.eraseIdx i⟩) → HasBig (all m) ∨ ∃ i, op = .toAny .bigint i)) ∨
    (drop m.fuel m.heap o = .error .panic ∧ HasBig (all m)) := by
  rcases drop_good m.fuel m.heap o (m.roots.eraseIdx i) (s.inv.perm (perm_eraseIdx e)) (fuel_ok m) with
    ⟨h', e2, i2, k2⟩ | ⟨e2, b, hb⟩
  · refine .inl ⟨h', e2, ⟨i2, k2.noDying s.nd⟩, fun ⟨b, hb⟩ => .inl ⟨b, ?_⟩⟩
    rcases List.mem_append.1 hb with hb | hb
    · exact List.mem_append.2 (.inl (List.mem_of_mem_eraseIdx hb))
    · exact List.mem_append.2 (.inr (k2.edges _ hb))
  · refine .inr ⟨e2, b, ?_⟩
    rcases List.mem_append.1 hb with hb | hb
    · exact List.mem_append.2 (.inl ((perm_eraseIdx e).mem_iff.2 hb))
    · exact List.mem_append.2 (.inr hb)

theorem setRoot_good {m : GMem} (s : St m) {i : Nat} {o o' : Own} (e : m.roots[i]? = some o)
    (el : Own.link o' = Own.link o) (mu : ∀ t b, o' = .mutRef t b → cnt b (m.roots ++ edges m.heap) = 1) :
    St { m with roots := m.roots.set i o' } := by
  refine ⟨?_, s.nd⟩
  have h1 := s.inv.perm (perm_eraseIdx e)
  refine (h1.relink el fun t b x => ?_).perm (perm_set e o').symm
  rw [← mu t b x]
  exact (cnt_perm ((perm_eraseIdx e).append_right _)).symm

theorem setRoot_big {m : GMem} {i : Nat} {o' : Own} {h' : Heap} (ed : ∀ x ∈ edges h', x ∈ edges m.heap)
    (nb : ∀ b, o' ≠ .any .bigint b) (hb : HasBig (all ⟨h', m.roots.set i o'⟩)) : HasBig (all m) := by
  obtain ⟨b, hb⟩ := hb
  refine ⟨b, ?_⟩
  rcases List.mem_append.1 hb with hb | hb
  · rcases List.mem_or_eq_of_mem_set hb with hb | hb
    · exact List.mem_append.2 (.inl hb)
    · exact absurd hb.symm (nb b)
  · exact List.mem_append.2 (.inr (ed _ hb))

theorem push_big {m : GMem} {o : Own} {h' : Heap} (ed : ∀ x ∈ edges h', x ∈ edges m.heap)
    (ho : (∀ b, o ≠ .any .bigint b) ∨ o ∈ all m) (hb : HasBig (all ⟨h', m.roots ++ [o]⟩)) : HasBig (all m) := by
  obtain ⟨b, hb⟩ := hb
  refine ⟨b, ?_⟩
  rcases List.mem_append.1 hb with hb | hb
  · rcases List.mem_append.1 hb with hb | hb
    · exact List.mem_append.2 (.inl hb)
    · simp at hb
      rcases ho with ho | ho
      · exact absurd hb.symm (ho b)
      · rw [hb]; exact ho
  · exact List.mem_append.2 (.inr (ed _ hb))

theorem step_good {m : GMem} (s : St m) (op : Op) : StepGood m op (m.step op) := by
  cases op with
  | value =>
    refine .inl ⟨_, rfl, ⟨?_, s.nd⟩, fun hb => .inl (push_big (fun _ => id) (.inl (by simp)) hb)⟩
    have : cloneOwn m.heap .simple = .ok m.heap := rfl
    have cs : ∀ c, cnt c (m.roots ++ [Own.simple] ++ edges m.heap) = cnt c (m.roots ++ edges m.heap) := by
      intro c
      simp [cnt, pts, Own.target]
    have i := s.inv
    constructor
    · intro x hx t b hl
      have : x = .simple ∨ x ∈ m.roots ++ edges m.heap := by
        simp only [List.mem_append, List.mem_singleton] at hx ⊢; tauto
      rcases this with rfl | hx
      · simp [Own.link] at hl
      · exact i.ok x hx t b hl
    · intro b n e l; rw [cs]; exact i.count b n e l
    · exact i.nonneg
    · exact i.nomut
    · intro t b hm
      rw [cs]
      exact i.mutc t b (by simpa using hm)
    · exact i.rank
  | new t is =>
    dsimp only [step]
    cases ht : takeRoots m.roots is with
    | none => exact .inr (.inr rfl)
    | some x =>
      obtain ⟨os, rs⟩ := x
      simp only
      split
      · rename_i c
        have p := takeRoots_perm _ _ _ _ ht
        have nm : ∀ o ∈ os, Own.isMut o = false := by
          intro o ho
          obtain ⟨j, hj⟩ := List.mem_iff_getElem?.1 ho
          have := c.1
          rw [List.all_eq_true] at this
          exact fits_nomut (this (o, j) (List.mem_zipIdx_iff_getElem?.2 hj))
        refine .inl ⟨_, rfl, ⟨(s.inv.perm p).new t nm, ?_⟩, ?_⟩
        · intro c n e x
          by_cases y : c < m.heap.length
          · rw [List.getElem?_append_left y] at e; exact s.nd c n e x
          · rw [List.getElem?_append_right (by omega)] at e
            by_cases z : c = m.heap.length
            · subst z; simp at e; subst e; simp at x
            · rw [List.getElem?_eq_none (by simp; omega)] at e; cases e
        · rintro ⟨b, hb⟩
          refine .inl ⟨b, ?_⟩
          unfold all at hb ⊢
          rw [edges_append] at hb
          simp only [List.mem_append, List.mem_singleton, nodeEdges, if_true] at hb ⊢
          rcases hb with (hb | hb) | (hb | hb)
          · exact .inl (p.mem_iff.2 (by simp [hb]))
          · cases hb
          · exact .inr hb
          · exact .inl (p.mem_iff.2 (by simp [hb]))
      · exact .inr (.inr rfl)
  | clone i =>
    dsimp only [step]
    cases hr : m.roots[i]? with
    | none => exact .inr (.inr rfl)
    | some o =>
      simp only
      have ho : o ∈ m.roots ++ edges m.heap := List.mem_append.2 (.inl (List.mem_of_getElem? hr))
      by_cases mu : Own.isMut o = true
      · cases o with
        | mutRef t b => exact .inr (.inr rfl)
        | _ => simp [Own.isMut] at mu
      · obtain ⟨h', e, i', k⟩ := s.inv.clone ho (by simpa using mu)
        rw [e]
        exact .inl ⟨_, rfl, ⟨i', k.noDying s.nd⟩, fun hb => .inl (push_big k.edges (.inr ho) hb)⟩
  | toRef i =>
    dsimp only [step]
    split
    · rename_i t b e
      refine .inl ⟨_, rfl, setRoot_good s e rfl (by simp), fun hb => .inl (setRoot_big (fun _ => id) (by simp) hb)⟩
    · exact .inr (.inr rfl)
  | toAny t i =>
    dsimp only [step]
    split
    · rename_i t' b e
      split
      · rename_i c; subst c
        refine .inl ⟨_, rfl, setRoot_good s e rfl (by simp), fun hb => ?_⟩
        by_cases x : t = .bigint
        · subst x; exact .inr ⟨i, rfl⟩
        · exact .inl (setRoot_big (fun _ => id) (by simp [x]) hb)
      · exact .inr (.inr rfl)
    · exact .inr (.inr rfl)
  | tryMove t i =>
    dsimp only [step]
    split
    · rename_i t' b e
      split
      · rename_i c; subst c
        exact .inl ⟨_, rfl, setRoot_good s e rfl (by simp), fun hb => .inl (setRoot_big (fun _ => id) (by simp) hb)⟩
      · rcases dropRoot_good s e (.tryMove t i) with ⟨h', e2, r⟩ | ⟨e2, r⟩
        · rw [e2]; exact .inl ⟨_, rfl, r⟩
        · rw [e2]; exact .inr (.inl ⟨rfl, r⟩)
    · rename_i e
      rcases dropRoot_good s e (.tryMove t i) with ⟨h', e2, r⟩ | ⟨e2, r⟩
      · rw [e2]; exact .inl ⟨_, rfl, r⟩
      · rw [e2]; exact .inr (.inl ⟨rfl, r⟩)
    · exact .inr (.inr rfl)
  | tryToMutRef i =>
    dsimp only [step]
    split
    · rename_i t b e
      have ho : Own.typed t b ∈ m.roots ++ edges m.heap := List.mem_append.2 (.inl (List.mem_of_getElem? e))
      obtain ⟨n, en, l, ty⟩ := s.inv.ok _ ho t b rfl
      rw [refCounterUpdate_ok en l ty]
      have hs : m.heap.set b { n with counter := n.counter + READ } = m.heap := by
        apply List.ext_getElem?
        intro c
        rw [getElem?_set_of en]
        by_cases y : c = b
        · subst y; simp [en, READ]
        · simp [y]
      rw [hs]
      by_cases z : n.counter = 0
      · simp only [z, decide_true]
        refine .inl ⟨_, rfl, setRoot_good s e rfl ?_, fun hb => .inl (setRoot_big (fun _ => id) (by simp) hb)⟩
        intro t' b' hx
        cases hx
        have := s.inv.count b n en l
        rw [z] at this; omega
      · simp only [z, decide_false]
        exact .inl ⟨_, rfl, s, fun hb => .inl hb⟩
    · exact .inr (.inr rfl)
  | getItem i j =>
    dsimp only [step]
    cases hr : m.roots[i]? with
    | none => exact .inr (.inr rfl)
    | some o =>
      simp only
      have ho : o ∈ m.roots ++ edges m.heap := List.mem_append.2 (.inl (List.mem_of_getElem? hr))
      have key : ∀ t b, Own.link o = some (t, b) → derefOwn m.heap o = access m.heap t b →
          StepGood m (.getItem i j) (do
            let n ← derefOwn m.heap o
            match n.kids[j]? with
            | some k =>
              let h ← cloneOwn m.heap k
              return ⟨h, m.roots ++ [k]⟩
            | none => return m) := by
        intro t b hl hd
        obtain ⟨n, ea, e, l, ty⟩ := access_ok (s.inv.ok o ho t b hl)
        rw [hd, ea]
        change StepGood m _ (match n.kids[j]? with
            | some k => do
              let h ← cloneOwn m.heap k
              return ⟨h, m.roots ++ [k]⟩
            | none => return m)
        cases hk : n.kids[j]? with
        | none => exact .inl ⟨m, rfl, s, .inl⟩
        | some k =>
          have hke : k ∈ edges m.heap := (mem_edges _ _).2 ⟨b, n, e, l, List.mem_of_getElem? hk⟩
          have hka : k ∈ all m := List.mem_append.2 (.inr hke)
          obtain ⟨h', e2, i', kp⟩ := s.inv.clone hka (s.inv.nomut k hke)
          simp only
          rw [e2]
          exact .inl ⟨_, rfl, ⟨i', kp.noDying s.nd⟩, fun hb => .inl (push_big kp.edges (.inr hka) hb)⟩
      cases o with
      | simple => exact .inr (.inr rfl)
      | any t b => exact key t b rfl rfl
      | typed t b => exact key t b rfl rfl
      | mutRef t b => exact key t b rfl rfl
  | setItem i j k =>
    dsimp only [step]
    split
    · rename_i t b v ei ek
      split
      · rename_i f
        have nm := fits_nomut f
        have ho : Own.mutRef t b ∈ m.roots ++ edges m.heap := List.mem_append.2 (.inl (List.mem_of_getElem? ei))
        obtain ⟨n, ea, e, l, ty⟩ := access_ok (s.inv.ok _ ho t b rfl)
        rw [ea]
        change StepGood m _ (match n.kids[j]? with
            | some old => do
              let h ← Graph.drop m.fuel (m.heap.set b { n with kids := n.kids.set j v }) old
              return ⟨h, m.roots.eraseIdx k⟩
            | none => return m)
        cases hk : n.kids[j]? with
        | none => exact .inl ⟨m, rfl, s, .inl⟩
        | some old =>
          simp only
          -- the roots: the mutable reference, the new value, the others
          have p1 := perm_eraseIdx ek
          have mem : Own.mutRef t b ∈ m.roots.eraseIdx k := by
            have := p1.mem_iff.1 (List.mem_of_getElem? ei)
            rcases List.mem_cons.1 this with x | x
            · rw [← x] at nm; simp [Own.isMut] at nm
            · exact x
          have p2 := List.perm_cons_erase mem
          have p3 : m.roots.Perm (.mutRef t b :: v :: (m.roots.eraseIdx k).erase (.mutRef t b)) :=
            p1.trans ((p2.cons v).trans (List.Perm.swap _ _ _))
          have i2 := (s.inv.perm p3).setKid nm e hk
          have i3 := i2.perm (p2.symm.cons old)
          have lc : liveCount (m.heap.set b { n with kids := n.kids.set j v }) < m.fuel := by
            have := liveCount_le (m.heap.set b { n with kids := n.kids.set j v })
            simp at this
            unfold GMem.fuel; omega
          have ed : ∀ x ∈ edges (m.heap.set b { n with kids := n.kids.set j v }), x ∈ all m := by
            intro x hx
            obtain ⟨c, q, em, lm, hm⟩ := (mem_edges _ _).1 hx
            rw [getElem?_set_of e] at em
            unfold all
            simp only [List.mem_append]
            by_cases y : c = b
            · rw [if_pos y] at em; cases em
              rcases List.mem_or_eq_of_mem_set hm with hm | hm
              · exact .inr ((mem_edges _ _).2 ⟨b, n, e, l, hm⟩)
              · rw [hm]; exact .inl (List.mem_of_getElem? ek)
            · rw [if_neg y] at em; exact .inr ((mem_edges _ _).2 ⟨c, q, em, lm, hm⟩)
          have olde : old ∈ all m :=
            List.mem_append.2 (.inr ((mem_edges _ _).2 ⟨b, n, e, l, List.mem_of_getElem? hk⟩))
          have er : ∀ x ∈ m.roots.eraseIdx k, x ∈ all m :=
            fun x hx => List.mem_append.2 (.inl (List.mem_of_mem_eraseIdx hx))
          rcases drop_good m.fuel _ old _ i3 lc with ⟨h', e2, i4, kp⟩ | ⟨e2, c, hc⟩
          · rw [e2]
            refine .inl ⟨_, rfl, ⟨i4, kp.noDying ?_⟩, ?_⟩
            · intro c q em x
              rw [getElem?_set_of e] at em
              by_cases y : c = b
              · rw [if_pos y] at em; cases em; simp [l] at x
              · rw [if_neg y] at em; exact s.nd c q em x
            · rintro ⟨c, hc⟩
              refine .inl ⟨c, ?_⟩
              rcases List.mem_append.1 hc with hc | hc
              · exact er _ hc
              · exact ed _ (kp.edges _ hc)
          · rw [e2]
            refine .inr (.inl ⟨rfl, c, ?_⟩)
            simp only [List.mem_append, List.mem_singleton] at hc
            rcases hc with (hc | hc) | hc
            · rw [hc]; exact olde
            · exact er _ hc
            · exact ed _ hc
      · exact .inr (.inr rfl)
    · exact .inr (.inr rfl)
  | drop i =>
    dsimp only [step]
    cases hr : m.roots[i]? with
    | none => exact .inr (.inr rfl)
    | some o =>
      simp only
      rcases dropRoot_good s hr (.drop i) with ⟨h', e2, r⟩ | ⟨e2, r⟩
      · rw [e2]; exact .inl ⟨_, rfl, r⟩
      · rw [e2]; exact .inr (.inl ⟨rfl, r⟩)

theorem st_empty : St GMem.empty := by
  refine ⟨⟨?_, ?_, ?_, ?_, ?_, ⟨fun _ => 0, ?_⟩⟩, ?_⟩ <;> simp [GMem.empty, edges, NoDying]

end Graph
end Nanvm
