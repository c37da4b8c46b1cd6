import Verif.Model.Graph
import Mathlib.Data.Finset.Card
import Mathlib.Algebra.Order.BigOperators.Group.List
/-! Lemmas about `Model/Graph.lean` -/
namespace Nanvm
namespace Graph

def nodeEdges (n : Node) : List Own := if n.phase = .live then n.kids else []
def edges (h : Heap) : List Own := h.flatMap nodeEdges

def pts (b : Nat) (o : Own) : Bool := o.target = some b
def cnt (b : Nat) (os : List Own) : Nat := os.countP (pts b)

theorem edges_set (p : Own → Bool) (h : Heap) (b : Nat) (n n' : Node) (e : h[b]? = some n) :
    (edges (h.set b n')).countP p + (nodeEdges n).countP p =
      (edges h).countP p + (nodeEdges n').countP p := by
  induction h generalizing b with
  | nil => simp at e
  | cons x xs ih =>
    cases b with
    | zero =>
      simp at e; subst e
      simp [edges, List.countP_append]; omega
    | succ b =>
      have := ih b (by simpa using e)
      simp only [edges, List.set_cons_succ, List.flatMap_cons, List.countP_append] at this ⊢
      omega

theorem edges_append (h : Heap) (n : Node) : edges (h ++ [n]) = edges h ++ nodeEdges n := by
  simp [edges]

theorem mem_edges (h : Heap) (o : Own) :
    o ∈ edges h ↔ ∃ (c : Nat) (n : Node), h[c]? = some n ∧ n.phase = .live ∧ o ∈ n.kids := by
  simp only [edges, List.mem_flatMap, nodeEdges]
  constructor
  · rintro ⟨n, hn, ho⟩
    obtain ⟨c, hc⟩ := List.mem_iff_getElem?.1 hn
    by_cases l : n.phase = .live
    · exact ⟨c, n, hc, l, by simpa [l] using ho⟩
    · simp [l] at ho
  · rintro ⟨c, n, hc, l, ho⟩
    exact ⟨n, List.mem_iff_getElem?.2 ⟨c, hc⟩, by simpa [l] using ho⟩

theorem cnt_append (b : Nat) (xs ys : List Own) : cnt b (xs ++ ys) = cnt b xs + cnt b ys := by
  simp [cnt]

theorem cnt_cons (b : Nat) (o : Own) (xs : List Own) :
    cnt b (o :: xs) = cnt b xs + if o.target = some b then 1 else 0 := by
  simp [cnt, List.countP_cons, pts]

theorem cnt_perm {b : Nat} {xs ys : List Own} (p : xs.Perm ys) : cnt b xs = cnt b ys := p.countP_eq _

theorem cnt_zero {b : Nat} {xs : List Own} (e : cnt b xs = 0) : ∀ o ∈ xs, o.target ≠ some b := by
  intro o ho h
  have := List.countP_eq_zero.1 e o ho
  simp [pts, h] at this

theorem cnt_pos {b : Nat} {xs : List Own} (e : 0 < cnt b xs) : ∃ o ∈ xs, o.target = some b := by
  obtain ⟨o, ho, h⟩ := List.countP_pos_iff.1 e
  exact ⟨o, ho, by simpa [pts] using h⟩

theorem cnt_mem {b : Nat} {xs : List Own} {o : Own} (ho : o ∈ xs) (e : o.target = some b) :
    0 < cnt b xs := List.countP_pos_iff.2 ⟨o, ho, by simp [pts, e]⟩

theorem cnt_edges_set (b c : Nat) (h : Heap) (n n' : Node) (e : h[c]? = some n) :
    cnt b (edges (h.set c n')) + cnt b (nodeEdges n) = cnt b (edges h) + cnt b (nodeEdges n') :=
  edges_set _ h c n n' e

def Own.isMut : Own → Bool
  | .mutRef _ _ => true
  | _ => false

/-- the block an owned value refers to and the type by which it does -/
def Own.link : Own → Option (RefTy × Nat)
  | .simple => none
  | .any t b => some (t, b)
  | .typed t b => some (t, b)
  | .mutRef t b => some (t, b)

theorem target_link (o : Own) : o.target = (Own.link o).map (·.2) := by cases o <;> rfl

theorem link_target {o : Own} {t b} (e : Own.link o = some (t, b)) : o.target = some b := by
  rw [target_link, e]; rfl

/-- block `b` is live and has type `t` -/
def LiveAt (h : Heap) (t : RefTy) (b : Nat) : Prop :=
  ∃ n, h[b]? = some n ∧ n.phase = .live ∧ n.ty = t

/-- The state invariant; `P` are the handles outside the heap. -/
structure Inv (h : Heap) (P : List Own) : Prop where
  ok : ∀ o ∈ P ++ edges h, ∀ t b, Own.link o = some (t, b) → LiveAt h t b
  count : ∀ (b : Nat) (n : Node), h[b]? = some n → n.phase = .live → n.counter + 1 = (cnt b (P ++ edges h) : Int)
  nonneg : ∀ (b : Nat) (n : Node), h[b]? = some n → n.phase = .live → 0 ≤ n.counter
  nomut : ∀ o ∈ edges h, Own.isMut o = false
  mutc : ∀ t b, Own.mutRef t b ∈ P → cnt b (P ++ edges h) = 1
  rank : ∃ r : Nat → Nat, ∀ (c : Nat) (n : Node), h[c]? = some n → n.phase = .live → ∀ o ∈ n.kids, ∀ b,
    o.target = some b → r b < r c

theorem Inv.perm {h : Heap} {P Q : List Own} (i : Inv h P) (p : P.Perm Q) : Inv h Q where
  ok := fun o ho => i.ok o (by simpa [p.mem_iff] using ho)
  count := fun b n e l => by rw [i.count b n e l, cnt_perm (p.append_right _)]
  nonneg := i.nonneg
  nomut := i.nomut
  mutc := fun t b m => by rw [← cnt_perm (p.append_right _)]; exact i.mutc t b (p.mem_iff.2 m)
  rank := i.rank

/-- Replacing a node by one with the same type, phase and children. -/
theorem edges_same {h : Heap} {b : Nat} {n n' : Node} (e : h[b]? = some n)
    (s : nodeEdges n' = nodeEdges n) : edges (h.set b n') = edges h := by
  induction h generalizing b with
  | nil => simp at e
  | cons x xs ih =>
    cases b with
    | zero =>
      simp at e; subst e
      simp [edges, s]
    | succ b =>
      have := ih (b := b) (by simpa using e)
      simp only [edges, List.set_cons_succ, List.flatMap_cons] at this ⊢
      rw [this]

theorem getElem?_lt {α} {h : List α} {b : Nat} {n : α} (e : h[b]? = some n) : b < h.length := by
  by_contra x
  rw [List.getElem?_eq_none (by omega)] at e
  cases e

theorem getElem?_set_of {h : Heap} {b : Nat} {n : Node} (e : h[b]? = some n) (n' : Node) (c : Nat) :
    (h.set b n')[c]? = if c = b then some n' else h[c]? := by
  have := getElem?_lt e
  by_cases x : c = b
  · subst x; simp [this]
  · rw [List.getElem?_set_ne (by omega), if_neg x]

/-- counter changed only -/
theorem Inv.recount {h : Heap} {P Q : List Own} {b : Nat} {n : Node} (i : Inv h P)
    (e : h[b]? = some n) (k : Int)
    (sub : ∀ o ∈ Q, o ∈ P ∨ ∃ o' ∈ P ++ edges h, Own.link o = Own.link o')
    (k0 : n.phase = .live → 0 ≤ k)
    (cb : n.phase = .live → k + 1 = (cnt b (Q ++ edges h) : Int))
    (co : ∀ c, c ≠ b → cnt c Q = cnt c P)
    (mu : ∀ t c, Own.mutRef t c ∈ Q → cnt c (Q ++ edges h) = 1) :
    Inv (h.set b { n with counter := k }) Q := by
  have es : edges (h.set b { n with counter := k }) = edges h := edges_same e rfl
  constructor
  · intro o ho t c hl
    rw [es] at ho
    have : LiveAt h t c := by
      rcases List.mem_append.1 ho with ho | ho
      · rcases sub o ho with ho | ⟨o', ho', el⟩
        · exact i.ok o (by simp [ho]) t c hl
        · exact i.ok o' ho' t c (by rw [← el, hl])
      · exact i.ok o (by simp [ho]) t c hl
    obtain ⟨m, em, lm, tm⟩ := this
    unfold LiveAt
    rw [getElem?_set_of e]
    by_cases x : c = b
    · subst x
      rw [e] at em; cases em
      simp [lm, tm]
    · simp [x, em, lm, tm]
  · intro c m em lm
    rw [getElem?_set_of e] at em
    rw [es]
    by_cases x : c = b
    · subst x
      simp at em; subst em
      exact cb lm
    · rw [if_neg x] at em
      rw [i.count c m em lm, cnt_append, cnt_append, co c x]
  · intro c m em lm
    rw [getElem?_set_of e] at em
    by_cases x : c = b
    · subst x
      simp at em; subst em
      exact k0 lm
    · rw [if_neg x] at em
      exact i.nonneg c m em lm
  · rw [es]; exact i.nomut
  · rw [es]; exact mu
  · obtain ⟨r, hr⟩ := i.rank
    refine ⟨r, fun c m em lm o ho => ?_⟩
    rw [getElem?_set_of e] at em
    by_cases x : c = b
    · subst x
      simp at em; subst em
      exact hr c n e lm o ho
    · rw [if_neg x] at em
      exact hr c m em lm o ho

/-- a block whose only reference was removed is destroyed: its children become pending -/
theorem Inv.kill {h : Heap} {P : List Own} {o : Own} {b : Nat} {n n' : Node} (i : Inv h (o :: P))
    (ot : o.target = some b) (e : h[b]? = some n) (l : n.phase = .live)
    (one : cnt b (o :: P ++ edges h) = 1) (l' : n'.phase ≠ .live) :
    Inv (h.set b n') (n.kids ++ P) := by
  have z : cnt b (P ++ edges h) = 0 := by
    have : cnt b (o :: (P ++ edges h)) = 1 := one
    rw [cnt_cons, if_pos ot] at this; omega
  have z' := cnt_zero z
  have ne' : nodeEdges n' = [] := by simp [nodeEdges, l']
  have ne : nodeEdges n = n.kids := by simp [nodeEdges, l]
  have sub : ∀ x ∈ edges (h.set b n'), x ∈ edges h := by
    intro x hx
    obtain ⟨c, m, em, lm, hm⟩ := (mem_edges _ _).1 hx
    rw [getElem?_set_of e] at em
    by_cases y : c = b
    · rw [if_pos y] at em; cases em; exact absurd lm l'
    · rw [if_neg y] at em; exact (mem_edges _ _).2 ⟨c, m, em, lm, hm⟩
  have ksub : ∀ x ∈ n.kids, x ∈ edges h := fun x hx => (mem_edges _ _).2 ⟨b, n, e, l, hx⟩
  have all : ∀ x ∈ (n.kids ++ P) ++ edges (h.set b n'), x ∈ P ++ edges h := by
    intro x hx
    simp only [List.mem_append] at hx ⊢
    rcases hx with (hx | hx) | hx
    · exact .inr (ksub x hx)
    · exact .inl hx
    · exact .inr (sub x hx)
  have cs : ∀ c, cnt c ((n.kids ++ P) ++ edges (h.set b n')) = cnt c (P ++ edges h) := by
    intro c
    have := cnt_edges_set c b h n n' e
    rw [ne, ne'] at this
    simp only [cnt_append]
    have e0 : cnt c [] = 0 := rfl
    omega
  constructor
  · intro x hx t c hl
    have hx' := all x hx
    have cb : c ≠ b := by
      intro y; subst y
      exact z' x hx' (link_target hl)
    obtain ⟨m, em, lm, tm⟩ := i.ok x (List.mem_cons_of_mem _ hx') t c hl
    exact ⟨m, by rw [getElem?_set_of e, if_neg cb]; exact em, lm, tm⟩
  · intro c m em lm
    rw [getElem?_set_of e] at em
    by_cases y : c = b
    · rw [if_pos y] at em; cases em; exact absurd lm l'
    · rw [if_neg y] at em
      rw [cs, i.count c m em lm]
      have : cnt c (o :: (P ++ edges h)) = cnt c (P ++ edges h) := by
        rw [cnt_cons, if_neg]
        · omega
        · rw [ot]; simpa using fun h => y h.symm
      rw [← this]; rfl
  · intro c m em lm
    rw [getElem?_set_of e] at em
    by_cases y : c = b
    · rw [if_pos y] at em; cases em; exact absurd lm l'
    · rw [if_neg y] at em; exact i.nonneg c m em lm
  · intro x hx; exact i.nomut x (sub x hx)
  · intro t c hm
    rw [cs]
    have hP : Own.mutRef t c ∈ P := by
      rcases List.mem_append.1 hm with k | k
      · have := i.nomut _ (ksub _ k); simp [Own.isMut] at this
      · exact k
    have := i.mutc t c (List.mem_cons_of_mem _ hP)
    have cb : b ≠ c := by
      intro y; subst y
      exact z' _ (by simp [hP] : Own.mutRef t b ∈ P ++ edges h) rfl
    have e2 : cnt c (o :: (P ++ edges h)) = 1 := this
    rw [cnt_cons, if_neg] at e2
    · omega
    · rw [ot]; simpa using cb
  · obtain ⟨r, hr⟩ := i.rank
    refine ⟨r, fun c m em lm => ?_⟩
    rw [getElem?_set_of e] at em
    by_cases y : c = b
    · rw [if_pos y] at em; cases em; exact absurd lm l'
    · rw [if_neg y] at em; exact hr c m em lm

/-- changing the phase between dying and freed does not matter -/
theorem Inv.bury {h : Heap} {P : List Own} {b : Nat} {n n' : Node} (i : Inv h P)
    (e : h[b]? = some n) (l : n.phase ≠ .live) (l' : n'.phase ≠ .live) : Inv (h.set b n') P := by
  have es : edges (h.set b n') = edges h := edges_same e (by simp [nodeEdges, l, l'])
  constructor
  · intro x hx t c hl
    rw [es] at hx
    obtain ⟨m, em, lm, tm⟩ := i.ok x hx t c hl
    refine ⟨m, ?_, lm, tm⟩
    rw [getElem?_set_of e, if_neg]
    · exact em
    · intro y; subst y; rw [e] at em; cases em; exact l lm
  · intro c m em lm
    rw [getElem?_set_of e] at em
    rw [es]
    by_cases y : c = b
    · rw [if_pos y] at em; cases em; exact absurd lm l'
    · rw [if_neg y] at em; exact i.count c m em lm
  · intro c m em lm
    rw [getElem?_set_of e] at em
    by_cases y : c = b
    · rw [if_pos y] at em; cases em; exact absurd lm l'
    · rw [if_neg y] at em; exact i.nonneg c m em lm
  · rw [es]; exact i.nomut
  · rw [es]; exact i.mutc
  · obtain ⟨r, hr⟩ := i.rank
    refine ⟨r, fun c m em lm => ?_⟩
    rw [getElem?_set_of e] at em
    by_cases y : c = b
    · rw [if_pos y] at em; cases em; exact absurd lm l'
    · rw [if_neg y] at em; exact hr c m em lm

def isLive (h : Heap) (b : Nat) : Bool := (h[b]?).any (·.phase = .live)
def liveCount (h : Heap) : Nat := ((Finset.range h.length).filter (isLive h ·)).card

theorem isLive_iff (h : Heap) (b : Nat) : isLive h b = true ↔ ∃ n, h[b]? = some n ∧ n.phase = .live := by
  unfold isLive
  cases h[b]? <;> simp

theorem liveCount_le (h : Heap) : liveCount h ≤ h.length := by
  unfold liveCount
  simpa using Finset.card_filter_le (Finset.range h.length) (isLive h · = true)

/-- what a drop may do to the heap: live blocks may become freed, counters of live blocks change -/
structure Keep (h h' : Heap) : Prop where
  len : h'.length = h.length
  pt : ∀ (c : Nat) (n' : Node), h'[c]? = some n' → ∃ n : Node, h[c]? = some n ∧ n'.ty = n.ty ∧ n'.kids = n.kids ∧
    (n.phase ≠ .live → n' = n) ∧ (n'.phase = .dying → n.phase = .dying)

theorem Keep.refl (h : Heap) : Keep h h := ⟨rfl, fun _ n' e => ⟨n', e, rfl, rfl, fun _ => rfl, id⟩⟩

theorem Keep.trans {a b c : Heap} (x : Keep a b) (y : Keep b c) : Keep a c := by
  refine ⟨y.len.trans x.len, fun k n'' e => ?_⟩
  obtain ⟨n', e', t', k', d', y'⟩ := y.pt k n'' e
  obtain ⟨n, e1, t1, k1, d1, y1⟩ := x.pt k n' e'
  refine ⟨n, e1, t'.trans t1, k'.trans k1, fun h => ?_, fun h => y1 (y' h)⟩
  have := d1 h; subst this
  exact d' h

theorem Keep.live {h h' : Heap} (k : Keep h h') {c : Nat} {n' : Node} (e : h'[c]? = some n')
    (l : n'.phase = .live) : ∃ n, h[c]? = some n ∧ n.phase = .live ∧ n'.ty = n.ty ∧ n'.kids = n.kids := by
  obtain ⟨n, e1, t1, k1, d1, _⟩ := k.pt c n' e
  refine ⟨n, e1, ?_, t1, k1⟩
  by_contra x
  have := d1 x; subst this; exact x l

theorem Keep.edges {h h' : Heap} (k : Keep h h') : ∀ o ∈ edges h', o ∈ edges h := by
  intro o ho
  obtain ⟨c, n', e, l, hm⟩ := (mem_edges _ _).1 ho
  obtain ⟨n, e1, l1, _, k1⟩ := k.live e l
  exact (mem_edges _ _).2 ⟨c, n, e1, l1, by rw [← k1]; exact hm⟩

theorem Keep.liveCount {h h' : Heap} (k : Keep h h') : liveCount h' ≤ liveCount h := by
  apply Finset.card_le_card
  intro c hc
  simp only [Finset.mem_filter, Finset.mem_range, isLive_iff] at hc ⊢
  obtain ⟨hc, n', e, l⟩ := hc
  obtain ⟨n, e1, l1, _⟩ := k.live e l
  exact ⟨by rw [← k.len]; exact hc, n, e1, l1⟩

theorem liveCount_kill {h : Heap} {b : Nat} {n n' : Node} (e : h[b]? = some n) (l : n.phase = .live)
    (l' : n'.phase ≠ .live) : liveCount (h.set b n') < liveCount h := by
  apply Finset.card_lt_card
  rw [Finset.ssubset_iff_of_subset]
  · refine ⟨b, ?_, ?_⟩
    · simp only [Finset.mem_filter, Finset.mem_range, isLive_iff]
      exact ⟨getElem?_lt e, n, e, l⟩
    · simp only [Finset.mem_filter, Finset.mem_range, isLive_iff, getElem?_set_of e]
      simp [l']
  · intro c hc
    simp only [Finset.mem_filter, Finset.mem_range, isLive_iff, getElem?_set_of e, List.length_set] at hc ⊢
    obtain ⟨hc, m, em, lm⟩ := hc
    by_cases y : c = b
    · rw [if_pos y] at em; cases em; exact absurd lm l'
    · rw [if_neg y] at em; exact ⟨hc, m, em, lm⟩

def HasBig (os : List Own) : Prop := ∃ b, Own.any .bigint b ∈ os

theorem access_ok {h : Heap} {t b} (l : LiveAt h t b) : ∃ n, access h t b = .ok n ∧ h[b]? = some n ∧
    n.phase = .live ∧ n.ty = t := by
  obtain ⟨n, e, l, ty⟩ := l
  exact ⟨n, by simp [access, e, l, ty], e, l, ty⟩

/-- the outcome of dropping: fine, or the panic for a bigint in an `Any` -/
def Good (h : Heap) (os P : List Own) (r : Except GErr Heap) : Prop :=
  (∃ h', r = .ok h' ∧ Inv h' P ∧ Keep h h') ∨ (r = .error .panic ∧ HasBig (os ++ P ++ edges h))

theorem foldl_good (f : Nat)
    (ih : ∀ h o P, Inv h (o :: P) → liveCount h < f → Good h [o] P (drop f h o)) :
    ∀ (ks : List Own) (h : Heap) (P : List Own), Inv h (ks ++ P) → liveCount h < f →
      Good h ks P (ks.foldlM (drop f) h) := by
  intro ks
  induction ks with
  | nil => intro h P i _; exact .inl ⟨h, rfl, i, .refl h⟩
  | cons o ks ihk =>
    intro h P i lc
    simp only [List.foldlM_cons]
    rcases ih h o (ks ++ P) i lc with ⟨h', e, i', k⟩ | ⟨e, b, hb⟩
    · rw [e]
      change Good h (o :: ks) P (ks.foldlM (drop f) h')
      rcases ihk h' P i' (lt_of_le_of_lt k.liveCount lc) with ⟨h'', e2, i2, k2⟩ | ⟨e2, b, hb⟩
      · exact .inl ⟨h'', e2, i2, k.trans k2⟩
      · refine .inr ⟨e2, b, ?_⟩
        simp only [List.mem_append, List.mem_cons] at hb ⊢
        rcases hb with (hb | hb) | hb
        · exact .inl (.inl (.inr hb))
        · exact .inl (.inr hb)
        · exact .inr (k.edges _ hb)
    · rw [e]
      refine .inr ⟨rfl, b, ?_⟩
      simpa [or_assoc] using hb

theorem delete_good (f : Nat)
    (ih : ∀ h o P, Inv h (o :: P) → liveCount h < f → Good h [o] P (drop f h o))
    {h : Heap} {o : Own} {P : List Own} {t b} {n : Node} (k : Int) (i : Inv h (o :: P)) (lc : liveCount h < f + 1)
    (ot : o.target = some b) (e : h[b]? = some n) (l : n.phase = .live) (ty : n.ty = t)
    (one : cnt b (o :: P ++ edges h) = 1) :
    Good h [o] P (delete (drop f) (h.set b { n with counter := k }) t b) := by
  have e1 : (h.set b { n with counter := k })[b]? = some { n with counter := k } := by
    rw [getElem?_set_of e]; simp
  unfold delete access
  rw [e1]
  simp only [l, ty, and_self, if_true]
  change Good h [o] P (do
    let h ← n.kids.foldlM (drop f) ((h.set b ⟨t, k, n.kids, .live⟩).set b ⟨t, k, n.kids, .dying⟩)
    match h[b]? with
    | some n => if n.phase = .dying then .ok (h.set b { n with phase := .freed }) else .error .memory
    | none => .error .memory)
  rw [List.set_set]
  set nd : Node := ⟨t, k, n.kids, .dying⟩ with hnd
  have lnd : nd.phase ≠ .live := by simp [hnd]
  have lc' : liveCount (h.set b nd) < f := by
    have := liveCount_kill (n' := nd) e l lnd; omega
  have i' : Inv (h.set b nd) (n.kids ++ P) := i.kill ot e l one lnd
  have sub : ∀ x ∈ edges (h.set b nd), x ∈ edges h := by
    intro x hx
    obtain ⟨c, m, em, lm, hm⟩ := (mem_edges _ _).1 hx
    rw [getElem?_set_of e] at em
    by_cases y : c = b
    · rw [if_pos y] at em; cases em; exact absurd lm lnd
    · rw [if_neg y] at em; exact (mem_edges _ _).2 ⟨c, m, em, lm, hm⟩
  rcases foldl_good f ih n.kids _ P i' lc' with ⟨h', e2, i2, k2⟩ | ⟨e2, c, hc⟩
  · rw [e2]
    have elen : b < h'.length := by rw [k2.len, List.length_set]; exact getElem?_lt e
    obtain ⟨m, em⟩ : ∃ m, h'[b]? = some m := ⟨h'[b], by simp⟩
    obtain ⟨n0, en0, _, _, d0, _⟩ := k2.pt b m em
    rw [getElem?_set_of e, if_pos rfl] at en0; cases en0
    have := d0 lnd; subst this
    change Good h [o] P (match h'[b]? with
      | some n => if n.phase = .dying then .ok (h'.set b { n with phase := .freed }) else .error .memory
      | none => .error .memory)
    rw [em]
    simp only [hnd, if_true]
    refine .inl ⟨_, rfl, ?_, ?_⟩
    · exact i2.bury em lnd (by simp)
    · refine ⟨by simpa using k2.len, fun c n' ec => ?_⟩
      rw [getElem?_set_of em] at ec
      by_cases y : c = b
      · subst y
        rw [if_pos rfl] at ec; cases ec
        exact ⟨n, e, ty.symm, rfl, fun z => absurd l z, fun z => by simp at z⟩
      · rw [if_neg y] at ec
        obtain ⟨n1, en1, r⟩ := k2.pt c n' ec
        rw [getElem?_set_of e, if_neg y] at en1
        exact ⟨n1, en1, r⟩
  · rw [e2]
    refine .inr ⟨rfl, c, ?_⟩
    simp only [List.mem_append] at hc ⊢
    rcases hc with (hc | hc) | hc
    · exact .inr ((mem_edges _ _).2 ⟨b, n, e, l, hc⟩)
    · exact .inl (.inr hc)
    · exact .inr (sub _ hc)

theorem keep_recount {h : Heap} {b : Nat} {n : Node} (e : h[b]? = some n) (l : n.phase = .live) (k : Int) :
    Keep h (h.set b { n with counter := k }) := by
  refine ⟨by simp, fun c n' ec => ?_⟩
  rw [getElem?_set_of e] at ec
  by_cases y : c = b
  · subst y
    rw [if_pos rfl] at ec; cases ec
    exact ⟨n, e, rfl, rfl, fun z => absurd l z, fun z => by simp [l] at z⟩
  · rw [if_neg y] at ec
    exact ⟨n', ec, rfl, rfl, fun _ => rfl, id⟩

theorem release_good {h : Heap} {o : Own} {P : List Own} {b} {n : Node} (i : Inv h (o :: P))
    (ot : o.target = some b) (e : h[b]? = some n) (l : n.phase = .live) (nz : n.counter ≠ 0) :
    Inv (h.set b { n with counter := n.counter + RELEASE }) P := by
  have c := i.count b n e l
  have c1 : cnt b (o :: P ++ edges h) = cnt b (P ++ edges h) + 1 := by
    change cnt b (o :: (P ++ edges h)) = _
    rw [cnt_cons, if_pos ot]
  refine i.recount e _ (fun x hx => .inl (List.mem_cons_of_mem _ hx)) (fun _ => ?_) (fun _ => ?_)
    (fun d hd => ?_) ?_
  · have := i.nonneg b n e l
    unfold RELEASE; omega
  · rw [c1] at c; unfold RELEASE; push_cast at c; omega
  · rw [cnt_cons, if_neg]
    · omega
    · rw [ot]; simpa using fun h => hd h.symm
  · intro t d hm
    have := i.mutc t d (List.mem_cons_of_mem _ hm)
    by_cases y : d = b
    · subst y
      rw [this] at c; push_cast at c; omega
    · have e2 : cnt d (o :: (P ++ edges h)) = 1 := this
      rw [cnt_cons, if_neg] at e2
      · omega
      · rw [ot]; simpa using fun h => y h.symm

theorem refCounterUpdate_ok {h : Heap} {t b} {n : Node} (e : h[b]? = some n) (l : n.phase = .live)
    (ty : n.ty = t) (d : Int) : refCounterUpdate h t b d =
      .ok (decide (n.counter = 0), h.set b { n with counter := n.counter + d }) := by
  simp [refCounterUpdate, access, e, l, ty, HeaderKind.update, bind, Except.bind, pure, Except.pure]
  congr

theorem drop_good : ∀ (f : Nat) (h : Heap) (o : Own) (P : List Own), Inv h (o :: P) →
    liveCount h < f → Good h [o] P (drop f h o) := by
  intro f
  induction f with
  | zero => intro h o P _ lc; omega
  | succ f ih =>
    intro h o P i lc
    cases o with
    | simple =>
      refine .inl ⟨h, rfl, ?_, .refl h⟩
      exact ⟨fun x hx => i.ok x (List.mem_cons_of_mem _ hx), fun b n e l => by
          rw [i.count b n e l]
          change ((cnt b (Own.simple :: (P ++ edges h)) : Nat) : Int) = _
          rw [cnt_cons]; simp [Own.target], i.nonneg, i.nomut,
        fun t b m => by
          have := i.mutc t b (List.mem_cons_of_mem _ m)
          have e2 : cnt b (Own.simple :: (P ++ edges h)) = 1 := this
          rw [cnt_cons] at e2; simpa [Own.target] using e2, i.rank⟩
    | any t b =>
      obtain ⟨n, e, l, ty⟩ := i.ok (.any t b) (by simp) t b rfl
      unfold drop
      rw [refCounterUpdate_ok e l ty]
      by_cases z : n.counter = 0
      · have one : cnt b (Own.any t b :: P ++ edges h) = 1 := by
          have := i.count b n e l; rw [z] at this; omega
        have := delete_good f ih (t := t) (n.counter + RELEASE) i lc rfl e l ty one
        simp only [z, decide_true, bind, Except.bind]
        rw [z] at this
        cases t with
        | bigint => exact .inr ⟨rfl, b, by simp⟩
        | string => exact this
        | object => exact this
        | array => exact this
      · simp only [z, decide_false, bind, Except.bind]
        exact .inl ⟨_, rfl, release_good i rfl e l z, keep_recount e l _⟩
    | typed t b =>
      obtain ⟨n, e, l, ty⟩ := i.ok (.typed t b) (by simp) t b rfl
      unfold drop
      rw [refCounterUpdate_ok e l ty]
      by_cases z : n.counter = 0
      · have one : cnt b (Own.typed t b :: P ++ edges h) = 1 := by
          have := i.count b n e l; rw [z] at this; omega
        have := delete_good f ih (t := t) (n.counter + RELEASE) i lc rfl e l ty one
        simp only [z, decide_true, bind, Except.bind]
        rw [z] at this
        exact this
      · simp only [z, decide_false, bind, Except.bind]
        exact .inl ⟨_, rfl, release_good i rfl e l z, keep_recount e l _⟩
    | mutRef t b =>
      obtain ⟨n, e, l, ty⟩ := i.ok (.mutRef t b) (by simp) t b rfl
      have one : cnt b (Own.mutRef t b :: P ++ edges h) = 1 := i.mutc t b (by simp)
      have := delete_good f ih (t := t) n.counter i lc rfl e l ty one
      have s : h.set b { n with counter := n.counter } = h := by
        apply List.ext_getElem?
        intro c
        rw [getElem?_set_of e]
        by_cases y : c = b
        · subst y; simp [e]
        · simp [y]
      rw [s] at this
      exact this

end Graph
end Nanvm
