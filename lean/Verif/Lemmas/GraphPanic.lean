import Verif.Lemmas.GraphReach
/-! Lemmas for C24: when a drop panics -/
namespace Nanvm
open Graph

namespace Graph
open GMem

/-- no block owns a typed bigint or a `MutRef` -/
def KidsOk (h : Heap) : Prop :=
  ∀ (c : Nat) (n : Node), h[c]? = some n → ∀ o ∈ n.kids, (∀ b, o ≠ .typed .bigint b) ∧ ∀ t b, o ≠ .mutRef t b

/-- same blocks, types and owned values -/
structure Same (h h' : Heap) : Prop where
  len : h'.length = h.length
  pt : ∀ (c : Nat) (n' : Node), h'[c]? = some n' → ∃ n : Node, h[c]? = some n ∧ n'.ty = n.ty ∧ n'.kids = n.kids

theorem Same.refl (h : Heap) : Same h h := ⟨rfl, fun _ n e => ⟨n, e, rfl, rfl⟩⟩

theorem Same.symm {h h' : Heap} (s : Same h h') : Same h' h := by
  refine ⟨s.len.symm, fun c n e => ?_⟩
  have : c < h'.length := by rw [s.len]; exact getElem?_lt e
  obtain ⟨m, em, t, k⟩ := s.pt c h'[c] (by simp)
  rw [e] at em; cases em
  exact ⟨h'[c], by simp, t.symm, k.symm⟩

theorem Same.trans {a b c : Heap} (x : Same a b) (y : Same b c) : Same a c := by
  refine ⟨y.len.trans x.len, fun k n e => ?_⟩
  obtain ⟨n1, e1, t1, k1⟩ := y.pt k n e
  obtain ⟨n2, e2, t2, k2⟩ := x.pt k n1 e1
  exact ⟨n2, e2, t1.trans t2, k1.trans k2⟩

theorem Keep.same {h h' : Heap} (k : Keep h h') : Same h h' :=
  ⟨k.len, fun c n e => let ⟨m, em, t, ks, _⟩ := k.pt c n e; ⟨m, em, t, ks⟩⟩

theorem same_set {h : Heap} {b : Nat} {n n' : Node} (e : h[b]? = some n) (t : n'.ty = n.ty)
    (k : n'.kids = n.kids) : Same h (h.set b n') := by
  refine ⟨by simp, fun c m em => ?_⟩
  rw [getElem?_set_of e] at em
  by_cases y : c = b
  · subst y; rw [if_pos rfl] at em; cases em; exact ⟨n, e, t, k⟩
  · rw [if_neg y] at em; exact ⟨m, em, rfl, rfl⟩

theorem Same.kidsOk {h h' : Heap} (s : Same h h') (k : KidsOk h) : KidsOk h' := by
  intro c n e o ho
  obtain ⟨m, em, _, hk⟩ := s.pt c n e
  exact k c m em o (by rw [← hk]; exact ho)

theorem Same.reach {h h' : Heap} (s : Same h h') {P : List Own} {b : Nat} (r : Reach ⟨h, P⟩ b) :
    Reach ⟨h', P⟩ b := by
  induction r with
  | root ho hb => exact .root ho hb
  | kid _ e ho hb ih =>
    obtain ⟨m, em, _, hk⟩ := s.symm.pt _ _ e
    exact .kid ih em (by rw [← hk]; exact ho) hb

theorem reach_mono {h : Heap} {P Q : List Own} (s : ∀ o ∈ P, o ∈ Q) {b : Nat} (r : Reach ⟨h, P⟩ b) :
    Reach ⟨h, Q⟩ b := by
  induction r with
  | root ho hb => exact .root (s _ ho) hb
  | kid _ e ho hb ih => exact .kid ih e ho hb

theorem Inv.linkLive {h : Heap} {P : List Own} (i : Inv h P) {o : Own} {b : Nat}
    (ho : o ∈ P ++ edges h) (hb : o.target = some b) : ∃ n, h[b]? = some n ∧ n.phase = .live := by
  rw [target_link] at hb
  cases hl : Own.link o with
  | none => rw [hl] at hb; cases hb
  | some tb =>
    obtain ⟨t', b'⟩ := tb
    rw [hl] at hb; simp at hb; subst hb
    obtain ⟨n, e, l, _⟩ := i.ok o ho t' b' hl
    exact ⟨n, e, l⟩

/-- a block without another link cannot be reached -/
theorem Inv.unreach {h : Heap} {P : List Own} {o : Own} {b : Nat} (i : Inv h (o :: P))
    (z : cnt b (P ++ edges h) = 0) : ¬ Reach ⟨h, P⟩ b := by
  have live : ∀ c, Reach ⟨h, P⟩ c → ∃ n, h[c]? = some n ∧ n.phase = .live := by
    intro c r
    induction r with
    | root ho hb => exact i.linkLive (List.mem_append.2 (.inl (List.mem_cons_of_mem _ ho))) hb
    | kid _ e ho hb ih =>
      obtain ⟨n', e', l⟩ := ih
      rw [e] at e'; cases e'
      exact i.linkLive (List.mem_append.2 (.inr ((mem_edges _ _).2 ⟨_, _, e, l, ho⟩))) hb
  intro r
  cases r with
  | root ho hb => exact cnt_zero z _ (List.mem_append.2 (.inl ho)) hb
  | kid r e ho hb =>
    obtain ⟨n', e', l⟩ := live _ r
    rw [e] at e'; cases e'
    exact cnt_zero z _ (List.mem_append.2 (.inr ((mem_edges _ _).2 ⟨_, _, e, l, ho⟩))) hb

/-- a bigint that the drop of `o` destroys through an `Any` -/
def Doomed (h : Heap) (o : Own) (P : List Own) : Prop :=
  ∃ b, LiveAt h .bigint b ∧ ¬ Reach ⟨h, P⟩ b ∧ o ≠ .typed .bigint b ∧ o ≠ .mutRef .bigint b

theorem foldl_panic (f : Nat)
    (ih : ∀ h o P, Inv h (o :: P) → liveCount h < f → drop f h o = .error .panic → Doomed h o P) :
    ∀ (ks : List Own) (h : Heap) (P : List Own), Inv h (ks ++ P) → liveCount h < f →
      ks.foldlM (drop f) h = .error .panic → ∃ b, LiveAt h .bigint b ∧ ¬ Reach ⟨h, P⟩ b := by
  intro ks
  induction ks with
  | nil => intro h P _ _ e; cases e
  | cons o ks ihk =>
    intro h P i lc e
    simp only [List.foldlM_cons] at e
    rcases drop_good f h o (ks ++ P) i lc with ⟨h', e1, i', k⟩ | ⟨e1, _⟩
    · rw [e1] at e
      obtain ⟨b, ⟨n, en, l, ty⟩, r⟩ := ihk h' P i' (lt_of_le_of_lt k.liveCount lc) e
      obtain ⟨n0, e0, l0, t0, _⟩ := k.live en l
      exact ⟨b, ⟨n0, e0, l0, t0 ▸ ty⟩, fun x => r (k.same.reach x)⟩
    · obtain ⟨b, l, r, _⟩ := ih h o (ks ++ P) i lc e1
      exact ⟨b, l, fun x => r (reach_mono (fun o ho => List.mem_append.2 (.inr ho)) x)⟩

theorem delete_panic (f : Nat)
    (ih : ∀ h o P, Inv h (o :: P) → liveCount h < f → drop f h o = .error .panic → Doomed h o P)
    {h : Heap} {o : Own} {P : List Own} {t b} {n : Node} (k : Int) (i : Inv h (o :: P)) (lc : liveCount h < f + 1)
    (ot : o.target = some b) (e : h[b]? = some n) (l : n.phase = .live) (ty : n.ty = t)
    (one : cnt b (o :: P ++ edges h) = 1)
    (p : delete (drop f) (h.set b { n with counter := k }) t b = .error .panic) : Doomed h o P := by
  have e1 : (h.set b { n with counter := k })[b]? = some { n with counter := k } := by
    rw [getElem?_set_of e]; simp
  unfold delete access at p
  rw [e1] at p
  simp only [l, ty, and_self, if_true] at p
  change (do
    let h ← n.kids.foldlM (drop f) ((h.set b ⟨t, k, n.kids, .live⟩).set b ⟨t, k, n.kids, .dying⟩)
    match h[b]? with
    | some n => if n.phase = Phase.dying then Except.ok (h.set b { n with phase := .freed }) else .error GErr.memory
    | none => .error GErr.memory) = .error GErr.panic at p
  rw [List.set_set] at p
  set nd : Node := ⟨t, k, n.kids, .dying⟩ with hnd
  have lnd : nd.phase ≠ .live := by simp [hnd]
  have lc' : liveCount (h.set b nd) < f := by
    have := liveCount_kill (n' := nd) e l lnd; omega
  have i' : Inv (h.set b nd) (n.kids ++ P) := i.kill ot e l one lnd
  have sm : Same h (h.set b nd) := same_set e ty.symm rfl
  cases q : n.kids.foldlM (drop f) (h.set b nd) with
  | error x =>
    rw [q] at p
    have : x = .panic := by cases p; rfl
    subst this
    obtain ⟨c, ⟨m, em, lm, tm⟩, r⟩ := foldl_panic f ih n.kids _ P i' lc' q
    rw [getElem?_set_of e] at em
    by_cases y : c = b
    · rw [if_pos y] at em; cases em; exact absurd lm lnd
    · rw [if_neg y] at em
      refine ⟨c, ⟨m, em, lm, tm⟩, fun x => r (sm.reach x), ?_, ?_⟩
      · rintro rfl; simp [Own.target] at ot; exact y ot
      · rintro rfl; simp [Own.target] at ot; exact y ot
  | ok h' =>
    rw [q] at p
    change (match h'[b]? with
      | some n => if n.phase = Phase.dying then Except.ok (h'.set b { n with phase := .freed }) else .error GErr.memory
      | none => .error GErr.memory) = .error GErr.panic at p
    cases g : h'[b]? with
    | none => rw [g] at p; cases p
    | some x => rw [g] at p; simp only at p; split at p <;> cases p

theorem drop_panic : ∀ (f : Nat) (h : Heap) (o : Own) (P : List Own), Inv h (o :: P) →
    liveCount h < f → drop f h o = .error .panic → Doomed h o P := by
  intro f
  induction f with
  | zero => intro h o P _ lc; omega
  | succ f ih =>
    intro h o P i lc p
    cases o with
    | simple => cases p
    | any t b =>
      obtain ⟨n, e, l, ty⟩ := i.ok (.any t b) (by simp) t b rfl
      unfold drop at p
      rw [refCounterUpdate_ok e l ty] at p
      by_cases z : n.counter = 0
      · have one : cnt b (Own.any t b :: P ++ edges h) = 1 := by
          have := i.count b n e l; rw [z] at this; omega
        have D := delete_panic f ih (t := t) (n.counter + RELEASE) i lc rfl e l ty one
        simp only [z, decide_true, bind, Except.bind] at p
        rw [z] at D
        cases t with
        | bigint =>
          refine ⟨b, ⟨n, e, l, ty⟩, i.unreach ?_, by simp, by simp⟩
          have : cnt b (Own.any .bigint b :: (P ++ edges h)) = 1 := one
          rw [cnt_cons] at this
          simp only [Own.target, if_true] at this
          omega
        | string => exact D p
        | object => exact D p
        | array => exact D p
      · simp only [z, decide_false, bind, Except.bind] at p
        cases p
    | typed t b =>
      obtain ⟨n, e, l, ty⟩ := i.ok (.typed t b) (by simp) t b rfl
      unfold drop at p
      rw [refCounterUpdate_ok e l ty] at p
      by_cases z : n.counter = 0
      · have one : cnt b (Own.typed t b :: P ++ edges h) = 1 := by
          have := i.count b n e l; rw [z] at this; omega
        have D := delete_panic f ih (t := t) (n.counter + RELEASE) i lc rfl e l ty one
        simp only [z, decide_true, bind, Except.bind] at p
        rw [z] at D
        exact D p
      · simp only [z, decide_false, bind, Except.bind] at p
        cases p
    | mutRef t b =>
      obtain ⟨n, e, l, ty⟩ := i.ok (.mutRef t b) (by simp) t b rfl
      have one : cnt b (Own.mutRef t b :: P ++ edges h) = 1 := i.mutc t b (by simp)
      have D := delete_panic f ih (t := t) n.counter i lc rfl e l ty one
      have s : h.set b { n with counter := n.counter } = h := by
        apply List.ext_getElem?
        intro c
        rw [getElem?_set_of e]
        by_cases y : c = b
        · subst y; simp [e]
        · simp [y]
      rw [s] at D
      exact D p

/-- what a successful drop does to bigints: it may destroy one only through a typed handle -/
def Spares (h : Heap) (o : Own) (h' : Heap) : Prop :=
  KidsOk h' ∧ ∀ b, LiveAt h .bigint b → LiveAt h' .bigint b ∨ o = .typed .bigint b ∨ o = .mutRef .bigint b

theorem foldl_spares (f : Nat) (ih : ∀ h o h', KidsOk h → drop f h o = .ok h' → Spares h o h') :
    ∀ (ks : List Own) (h h' : Heap), (∀ o ∈ ks, (∀ b, o ≠ .typed .bigint b) ∧ ∀ t b, o ≠ .mutRef t b) →
      KidsOk h → ks.foldlM (drop f) h = .ok h' →
      KidsOk h' ∧ ∀ b, LiveAt h .bigint b → LiveAt h' .bigint b := by
  intro ks
  induction ks with
  | nil => intro h h' _ k e; cases e; exact ⟨k, fun _ => id⟩
  | cons o ks ihk =>
    intro h h' hk k e
    simp only [List.foldlM_cons] at e
    cases q : drop f h o with
    | error x => rw [q] at e; cases e
    | ok h1 =>
      rw [q] at e
      obtain ⟨k1, s1⟩ := ih h o h1 k q
      obtain ⟨k2, s2⟩ := ihk h1 h' (fun o ho => hk o (List.mem_cons_of_mem _ ho)) k1 e
      refine ⟨k2, fun b l => s2 b ?_⟩
      have := hk o (by simp)
      rcases s1 b l with x | x | x
      · exact x
      · exact absurd x (this.1 b)
      · exact absurd x (this.2 _ b)

theorem delete_spares (f : Nat) (ih : ∀ h o h', KidsOk h → drop f h o = .ok h' → Spares h o h')
    {h h' : Heap} {t b} (k : KidsOk h) (e : delete (drop f) h t b = .ok h') :
    KidsOk h' ∧ ∀ c, LiveAt h .bigint c → LiveAt h' .bigint c ∨ (c = b ∧ t = .bigint) := by
  unfold delete access at e
  cases hb : h[b]? with
  | none => rw [hb] at e; cases e
  | some n =>
    rw [hb] at e
    simp only at e
    split at e
    · rename_i c
      set nd : Node := { n with phase := .dying } with hnd
      change (do
        let h ← n.kids.foldlM (drop f) (h.set b nd)
        match h[b]? with
        | some n => if n.phase = Phase.dying then Except.ok (h.set b { n with phase := .freed }) else .error GErr.memory
        | none => .error GErr.memory) = .ok h' at e
      cases q : n.kids.foldlM (drop f) (h.set b nd) with
      | error x => rw [q] at e; cases e
      | ok h1 =>
        rw [q] at e
        change (match h1[b]? with
          | some n => if n.phase = Phase.dying then Except.ok (h1.set b { n with phase := .freed }) else .error GErr.memory
          | none => .error GErr.memory) = .ok h' at e
        obtain ⟨k1, s1⟩ := foldl_spares f ih n.kids _ h1 (fun o ho => k b n hb o ho)
          ((same_set (n' := nd) hb rfl rfl).kidsOk k) q
        cases g : h1[b]? with
        | none => rw [g] at e; cases e
        | some x =>
          rw [g] at e
          simp only at e
          split at e
          · cases e
            refine ⟨(same_set (n' := { x with phase := .freed }) g rfl rfl).kidsOk k1, fun d l => ?_⟩
            by_cases y : d = b
            · subst y
              obtain ⟨m, em, _, tm⟩ := l
              rw [hb] at em; cases em
              exact .inr ⟨rfl, c.2 ▸ tm⟩
            · refine .inl ?_
              obtain ⟨m, em, lm, tm⟩ := l
              obtain ⟨m', em', r⟩ := s1 d ⟨m, by rw [getElem?_set_of hb, if_neg y]; exact em, lm, tm⟩
              exact ⟨m', by rw [getElem?_set_of g, if_neg y]; exact em', r⟩
          · cases e
    · cases e

theorem refCounterUpdate_same {h h' : Heap} {t b d z} (e : refCounterUpdate h t b d = .ok (z, h')) :
    Same h h' ∧ ∀ c, LiveAt h .bigint c → LiveAt h' .bigint c := by
  unfold refCounterUpdate access at e
  cases hb : h[b]? with
  | none => rw [hb] at e; cases e
  | some n =>
    rw [hb] at e
    simp only at e
    split at e
    · rename_i c
      cases e
      refine ⟨same_set hb rfl rfl, fun c l => ?_⟩
      obtain ⟨m, em, lm, tm⟩ := l
      by_cases y : c = b
      · subst y; rw [hb] at em; cases em
        unfold LiveAt
        rw [getElem?_set_of hb, if_pos rfl]
        exact ⟨_, rfl, lm, tm⟩
      · exact ⟨m, by rw [getElem?_set_of hb, if_neg y]; exact em, lm, tm⟩
    · cases e

theorem drop_spares : ∀ (f : Nat) (h : Heap) (o : Own) (h' : Heap), KidsOk h → drop f h o = .ok h' →
    Spares h o h' := by
  intro f
  induction f with
  | zero => intro h o h' _ e; cases e
  | succ f ih =>
    intro h o h' k e
    cases o with
    | simple => cases e; exact ⟨k, fun b l => .inl l⟩
    | any t b =>
      unfold drop at e
      cases q : refCounterUpdate h t b RELEASE with
      | error x => rw [q] at e; cases e
      | ok zh =>
        obtain ⟨z, h1⟩ := zh
        rw [q] at e
        obtain ⟨sm, lv⟩ := refCounterUpdate_same q
        cases z with
        | false => cases e; exact ⟨sm.kidsOk k, fun b l => .inl (lv b l)⟩
        | true =>
          simp only [bind, Except.bind, if_true] at e
          have D : t ≠ .bigint → delete (drop f) h1 t b = .ok h' → Spares h (.any t b) h' := by
            intro nt e
            obtain ⟨k2, s2⟩ := delete_spares f ih (sm.kidsOk k) e
            refine ⟨k2, fun c l => ?_⟩
            rcases s2 c (lv c l) with x | x
            · exact .inl x
            · exact absurd x.2 nt
          cases t with
          | bigint => cases e
          | string => exact D (by simp) e
          | object => exact D (by simp) e
          | array => exact D (by simp) e
    | typed t b =>
      unfold drop at e
      cases q : refCounterUpdate h t b RELEASE with
      | error x => rw [q] at e; cases e
      | ok zh =>
        obtain ⟨z, h1⟩ := zh
        rw [q] at e
        obtain ⟨sm, lv⟩ := refCounterUpdate_same q
        cases z with
        | false => cases e; exact ⟨sm.kidsOk k, fun b l => .inl (lv b l)⟩
        | true =>
          simp only [bind, Except.bind, if_true] at e
          obtain ⟨k2, s2⟩ := delete_spares f ih (sm.kidsOk k) e
          refine ⟨k2, fun c l => ?_⟩
          rcases s2 c (lv c l) with x | ⟨rfl, rfl⟩
          · exact .inl x
          · exact .inr (.inl rfl)
    | mutRef t b =>
      unfold drop at e
      obtain ⟨k2, s2⟩ := delete_spares f ih k e
      refine ⟨k2, fun c l => ?_⟩
      rcases s2 c l with x | ⟨rfl, rfl⟩
      · exact .inl x
      · exact .inr (.inr rfl)

theorem drop_panic_iff {f : Nat} {h : Heap} {o : Own} {P : List Own} (i : Inv h (o :: P))
    (nd : NoDying h) (k : KidsOk h) (lc : liveCount h < f) :
    drop f h o = .error .panic ↔ Doomed h o P := by
  refine ⟨drop_panic f h o P i lc, ?_⟩
  rintro ⟨b, l, r, n1, n2⟩
  rcases drop_good f h o P i lc with ⟨h', e, i', kp⟩ | ⟨e, _⟩
  · exfalso
    rcases (drop_spares f h o h' k e).2 b l with ⟨n, en, ln, _⟩ | x | x
    · have s : St ⟨h', P⟩ := ⟨i', kp.noDying nd⟩
      exact r (kp.same.symm.reach (s.live_reach en ln))
    · exact n1 x
    · exact n2 x
  · exact e

theorem fits_kid {t j o} (f : fits t j o = true) :
    (∀ b, o ≠ .typed .bigint b) ∧ ∀ t b, o ≠ .mutRef t b := by
  constructor <;> intros <;> rintro rfl <;> simp [fits] at f

theorem cloneOwn_same {h h' : Heap} {o : Own} (e : cloneOwn h o = .ok h') : Same h h' := by
  cases o with
  | simple => cases e; exact .refl h
  | mutRef t b => cases e
  | any t b =>
    change (·.2) <$> refCounterUpdate h t b ADD_REF = .ok h' at e
    cases q : refCounterUpdate h t b ADD_REF with
    | error x => rw [q] at e; cases e
    | ok x => rw [q] at e; cases e; exact (refCounterUpdate_same (z := x.1) q).1
  | typed t b =>
    change (·.2) <$> refCounterUpdate h t b ADD_REF = .ok h' at e
    cases q : refCounterUpdate h t b ADD_REF with
    | error x => rw [q] at e; cases e
    | ok x => rw [q] at e; cases e; exact (refCounterUpdate_same (z := x.1) q).1

theorem step_kidsOk {m m' : GMem} {op : GMem.Op} (k : KidsOk m.heap) (e : m.step op = .ok m') :
    KidsOk m'.heap := by
  cases op with
  | value => cases e; exact k
  | new t is =>
    dsimp only [GMem.step] at e
    cases ht : GMem.takeRoots m.roots is with
    | none => rw [ht] at e; cases e
    | some x =>
      obtain ⟨os, rs⟩ := x
      rw [ht] at e
      simp only at e
      split at e
      · rename_i c
        cases e
        intro c' n en o ho
        by_cases y : c' < m.heap.length
        · rw [List.getElem?_append_left y] at en; exact k c' n en o ho
        · rw [List.getElem?_append_right (by omega)] at en
          by_cases z : c' = m.heap.length
          · subst z; simp at en; subst en
            obtain ⟨j, hj⟩ := List.mem_iff_getElem?.1 ho
            have := c.1
            rw [List.all_eq_true] at this
            exact fits_kid (this (o, j) (List.mem_zipIdx_iff_getElem?.2 hj))
          · rw [List.getElem?_eq_none (by simp; omega)] at en; cases en
      · cases e
  | clone i =>
    dsimp only [GMem.step] at e
    cases hr : m.roots[i]? with
    | none => rw [hr] at e; cases e
    | some o =>
      rw [hr] at e
      simp only at e
      cases q : cloneOwn m.heap o with
      | error x => rw [q] at e; cases e
      | ok h' => rw [q] at e; cases e; exact (cloneOwn_same q).kidsOk k
  | toRef i =>
    dsimp only [GMem.step] at e
    split at e <;> cases e
    exact k
  | toAny t i =>
    dsimp only [GMem.step] at e
    split at e
    · split at e <;> cases e
      exact k
    · cases e
  | tryMove t i =>
    dsimp only [GMem.step] at e
    split at e
    · rename_i t' b er
      split at e
      · cases e; exact k
      · cases q : Graph.drop m.fuel m.heap (.any t' b) with
        | error x => rw [q] at e; cases e
        | ok h' => rw [q] at e; cases e; exact (drop_spares _ _ _ _ k q).1
    · cases q : Graph.drop m.fuel m.heap .simple with
      | error x => rw [q] at e; cases e
      | ok h' => rw [q] at e; cases e; exact (drop_spares _ _ _ _ k q).1
    · cases e
  | tryToMutRef i =>
    dsimp only [GMem.step] at e
    split at e
    · rename_i t b er
      cases q : refCounterUpdate m.heap t b READ with
      | error x => rw [q] at e; cases e
      | ok x => rw [q] at e; cases e; exact (refCounterUpdate_same (z := x.1) q).1.kidsOk k
    · cases e
  | getItem i j =>
    dsimp only [GMem.step] at e
    cases hr : m.roots[i]? with
    | none => rw [hr] at e; cases e
    | some o =>
      rw [hr] at e
      simp only at e
      cases q : GMem.derefOwn m.heap o with
      | error x => rw [q] at e; cases e
      | ok n =>
        rw [q] at e
        simp only [bind, Except.bind] at e
        split at e
        · rename_i kk _
          cases q2 : cloneOwn m.heap kk with
          | error x => rw [q2] at e; cases e
          | ok h' => rw [q2] at e; cases e; exact (cloneOwn_same q2).kidsOk k
        · cases e; exact k
  | setItem i j kk =>
    dsimp only [GMem.step] at e
    split at e
    · rename_i t b v ei ek
      split at e
      · rename_i f
        unfold access at e
        cases hb : m.heap[b]? with
        | none => rw [hb] at e; cases e
        | some n =>
          rw [hb] at e
          simp only at e
          split at e
          · simp only [bind, Except.bind] at e
            split at e
            · rename_i old ho
              cases q : Graph.drop m.fuel (m.heap.set b { n with kids := n.kids.set j v }) old with
              | error x => rw [q] at e; cases e
              | ok h' =>
                rw [q] at e; cases e
                refine (drop_spares _ _ _ _ ?_ q).1
                intro c n' en o ho
                rw [getElem?_set_of hb] at en
                by_cases y : c = b
                · rw [if_pos y] at en; cases en
                  rcases List.mem_or_eq_of_mem_set ho with hm | hm
                  · exact k b n hb o hm
                  · rw [hm]; exact fits_kid f
                · rw [if_neg y] at en; exact k c n' en o ho
            · cases e; exact k
          · cases e
      · cases e
    · cases e
  | drop i =>
    dsimp only [GMem.step] at e
    cases hr : m.roots[i]? with
    | none => rw [hr] at e; cases e
    | some o =>
      rw [hr] at e
      simp only at e
      cases q : Graph.drop m.fuel m.heap o with
      | error x => rw [q] at e; cases e
      | ok h' => rw [q] at e; cases e; exact (drop_spares _ _ _ _ k q).1

theorem run_kidsOk (ops : List GMem.Op) : ∀ (m m' : GMem), KidsOk m.heap → m.run ops = .ok m' →
    KidsOk m'.heap := by
  induction ops with
  | nil => intro m m' k e; cases e; exact k
  | cons op ops ih =>
    intro m m' k e
    unfold GMem.run at e
    cases q : m.step op with
    | error x => rw [q] at e; cases e
    | ok m1 => rw [q] at e; exact ih m1 m' (step_kidsOk k q) e

theorem setItem_inv {m : GMem} (s : St m) (k : KidsOk m.heap) {i j kk : Nat} {t b} {v old : Own} {n : Node}
    (ei : m.roots[i]? = some (.mutRef t b)) (ek : m.roots[kk]? = some v) (f : fits t j v = true)
    (e : m.heap[b]? = some n) (hk : n.kids[j]? = some old) :
    Inv (m.heap.set b { n with kids := n.kids.set j v }) (old :: m.roots.eraseIdx kk) ∧
    NoDying (m.heap.set b { n with kids := n.kids.set j v }) ∧
    KidsOk (m.heap.set b { n with kids := n.kids.set j v }) ∧
    liveCount (m.heap.set b { n with kids := n.kids.set j v }) < m.fuel := by
  have nm := fits_nomut f
  have p1 := perm_eraseIdx ek
  have mem : Own.mutRef t b ∈ m.roots.eraseIdx kk := by
    have := p1.mem_iff.1 (List.mem_of_getElem? ei)
    rcases List.mem_cons.1 this with x | x
    · rw [← x] at nm; simp [Own.isMut] at nm
    · exact x
  have p2 := List.perm_cons_erase mem
  have p3 : m.roots.Perm (.mutRef t b :: v :: (m.roots.eraseIdx kk).erase (.mutRef t b)) :=
    p1.trans ((p2.cons v).trans (List.Perm.swap _ _ _))
  have i2 := (s.inv.perm p3).setKid nm e hk
  refine ⟨i2.perm (p2.symm.cons old), ?_, ?_, ?_⟩
  · intro c q em x
    rw [getElem?_set_of e] at em
    by_cases y : c = b
    · rw [if_pos y] at em; cases em; exact s.nd b n e x
    · rw [if_neg y] at em; exact s.nd c q em x
  · intro c n' en o ho
    rw [getElem?_set_of e] at en
    by_cases y : c = b
    · rw [if_pos y] at en; cases en
      rcases List.mem_or_eq_of_mem_set ho with hm | hm
      · exact k b n e o hm
      · rw [hm]; exact fits_kid f
    · rw [if_neg y] at en; exact k c n' en o ho
  · have := liveCount_le (m.heap.set b { n with kids := n.kids.set j v })
    simp at this
    unfold GMem.fuel; omega

theorem access_nopanic (h : Heap) (t b) : access h t b ≠ .error .panic := by
  unfold access
  split
  · split <;> simp
  · simp

theorem update_nopanic (h : Heap) (t b d) : refCounterUpdate h t b d ≠ .error .panic := by
  unfold refCounterUpdate
  cases q : access h t b with
  | error x => have := access_nopanic h t b; rw [q] at this; simpa [bind, Except.bind] using this
  | ok x => simp [bind, Except.bind, pure, Except.pure]

theorem clone_nopanic (h : Heap) (o : Own) : cloneOwn h o ≠ .error .panic := by
  cases o with
  | simple => simp [cloneOwn]
  | mutRef t b => simp [cloneOwn]
  | any t b =>
    change (·.2) <$> refCounterUpdate h t b ADD_REF ≠ .error .panic
    have := update_nopanic h t b ADD_REF
    cases q : refCounterUpdate h t b ADD_REF with
    | error x => rw [q] at this; simpa [Functor.map, Except.map] using this
    | ok x => simp [Functor.map, Except.map]
  | typed t b =>
    change (·.2) <$> refCounterUpdate h t b ADD_REF ≠ .error .panic
    have := update_nopanic h t b ADD_REF
    cases q : refCounterUpdate h t b ADD_REF with
    | error x => rw [q] at this; simpa [Functor.map, Except.map] using this
    | ok x => simp [Functor.map, Except.map]

theorem deref_nopanic (h : Heap) (o : Own) : derefOwn h o ≠ .error .panic := by
  cases o <;> unfold derefOwn
  · simp
  all_goals exact access_nopanic h _ _

end Graph

end Nanvm
