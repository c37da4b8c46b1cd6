import Verif.Lemmas.MemNew
import Verif.Lemmas.GraphReach
/-! Lemmas for C80: histories -/
namespace Nanvm
open Graph
variable {φ : Nat → Nat}

theorem sim_start (cell : Nat → W) : Sim (fun _ => 0) GMem.empty (MMem.start cell) := by
  refine ⟨st_empty, ⟨?_, ?_, ?_, ?_, ?_⟩, ⟨rfl, ?_⟩, rfl⟩ <;> simp [GMem.empty, MMem.start]

theorem holding_start (cell : Nat → W) : Holding (MMem.start cell) [] := by
  refine ⟨rfl, ?_⟩
  simp [MMem.start]

/-! ### owners -/

theorem flatMap_le {α β : Type} (f : α → List β) : ∀ (xs ys : List α), ys.length = xs.length →
    (∀ (c : Nat) x y, xs[c]? = some x → ys[c]? = some y → (f y).length ≤ (f x).length) →
    (ys.flatMap f).length ≤ (xs.flatMap f).length := by
  intro xs
  induction xs with
  | nil => intro ys l _; cases ys <;> simp_all
  | cons x xs ih =>
    intro ys l h
    cases ys with
    | nil => simp at l
    | cons y ys =>
      have h0 := h 0 x y rfl rfl
      have := ih ys (by simpa using l) (fun c a b h1 h2 => h (c + 1) a b (by simpa using h1) (by simpa using h2))
      simp only [List.flatMap_cons, List.length_append]
      omega

theorem Graph.Keep.edges_le {h h' : Heap} (k : Keep h h') : (Graph.edges h').length ≤ (Graph.edges h).length := by
  refine flatMap_le nodeEdges h h' k.len (fun c n n' e e' => ?_)
  unfold nodeEdges
  split
  · rename_i l
    obtain ⟨n0, e0, l0, -, kd⟩ := k.live e' l
    rw [e] at e0; cases e0
    rw [if_pos l0, kd]
  · simp

theorem edges_set_le {h : Heap} {b : Nat} {n : Node} (e : h[b]? = some n) (j : Nat) (o : Own) :
    (edges (h.set b { n with kids := n.kids.set j o })).length ≤ (edges h).length := by
  refine flatMap_le nodeEdges _ _ (by simp) (fun c x y hx hy => ?_)
  rw [getElem?_set_of e] at hy
  by_cases q : c = b
  · subst q
    rw [e] at hx; cases hx
    rw [if_pos rfl] at hy; cases hy
    unfold nodeEdges
    simp only
    split <;> simp
  · rw [if_neg q, hx] at hy; cases hy
    exact Nat.le_refl _

/-- an operation adds at most one owner -/
theorem all_step {g g' : GMem} (s : St g) {gop : GMem.Op} (e : g.step gop = .ok g') :
    (all g').length ≤ (all g).length + 1 := by
  have er : ∀ i, (g.roots.eraseIdx i).length ≤ g.roots.length := fun i => by
    rw [List.length_eraseIdx]; split <;> omega
  have dr : ∀ {i o h'}, g.roots[i]? = some o → Graph.drop g.fuel g.heap o = .ok h' →
      (all ⟨h', g.roots.eraseIdx i⟩).length ≤ (all g).length + 1 := by
    intro i o h' ho hd
    rcases drop_good g.fuel g.heap o _ (s.inv.perm (perm_eraseIdx ho)) (fuel_ok g) with ⟨h2, e2, -, k⟩ | ⟨e2, -⟩
    · rw [e2] at hd; cases hd
      have := k.edges_le
      have := er i
      simp only [all, List.length_append] at *
      omega
    · rw [e2] at hd; cases hd
  have cl : ∀ {o h'}, o ∈ g.roots ++ edges g.heap → GMem.cloneOwn g.heap o = .ok h' →
      (all ⟨h', g.roots ++ [o]⟩).length ≤ (all g).length + 1 := by
    intro o h' ho hd
    have nm : Own.isMut o = false := by
      cases o with
      | mutRef t b => simp [GMem.cloneOwn] at hd
      | _ => rfl
    obtain ⟨h2, q1, -, k⟩ := s.inv.clone ho nm
    rw [q1] at hd; cases hd
    have := k.edges_le
    simp only [all, List.length_append, List.length_singleton] at *
    omega
  cases gop with
  | value =>
    cases e
    simp only [all, List.length_append, List.length_singleton]; omega
  | new t is =>
    simp only [GMem.step] at e
    split at e
    · rename_i os rs tk
      split at e
      · cases e
        have := (takeRoots_perm _ _ _ _ tk).length_eq
        simp only [all, List.length_append, edges_append, List.length_singleton] at this ⊢
        have : (nodeEdges ⟨t, 0, os, .live⟩).length = os.length := by simp [nodeEdges]
        omega
      · cases e
    · cases e
  | clone i =>
    simp only [GMem.step] at e
    split at e
    · rename_i o ho
      cases q : GMem.cloneOwn g.heap o with
      | error x => rw [q] at e; cases e
      | ok h' =>
        rw [q] at e; cases e
        exact cl (List.mem_append.2 (.inl (List.mem_of_getElem? ho))) q
    · cases e
  | toRef i =>
    simp only [GMem.step] at e
    split at e <;> cases e
    simp [all]
  | toAny t i =>
    simp only [GMem.step] at e
    split at e
    · split at e <;> cases e
      simp [all]
    · cases e
  | tryMove t i =>
    simp only [GMem.step] at e
    split at e
    · rename_i ho
      split at e
      · cases e; simp [all]
      · rename_i t' b _
        cases q : Graph.drop g.fuel g.heap (.any t' b) with
        | error x => rw [q] at e; cases e
        | ok h' => rw [q] at e; cases e; exact dr ho q
    · rename_i ho
      cases q : Graph.drop g.fuel g.heap .simple with
      | error x => rw [q] at e; cases e
      | ok h' => rw [q] at e; cases e; exact dr ho q
    · cases e
  | tryToMutRef i =>
    simp only [GMem.step] at e
    split at e
    · rename_i t b ho
      obtain ⟨n, en, l, ty⟩ := s.inv.ok _ (List.mem_append.2 (.inl (List.mem_of_getElem? ho))) t b rfl
      rw [refCounterUpdate_ok en l ty] at e
      have hs : g.heap.set b { n with counter := n.counter + READ } = g.heap := by
        apply List.ext_getElem?
        intro c
        rw [getElem?_set_of en]
        by_cases y : c = b
        · subst y; simp [en, READ]
        · simp [y]
      rw [hs] at e
      simp only [bind, Except.bind, pure, Except.pure, Except.ok.injEq] at e
      subst e
      simp only [all]
      split <;> simp
    · cases e
  | getItem i j =>
    simp only [GMem.step] at e
    split at e
    · rename_i o ho
      cases q : GMem.derefOwn g.heap o with
      | error x => rw [q] at e; cases e
      | ok n =>
        rw [q] at e
        simp only [bind, Except.bind] at e
        split at e
        · rename_i k hk
          have hke : k ∈ edges g.heap := by
            have : ∀ t b, Own.link o = some (t, b) → access g.heap t b = .ok n → k ∈ edges g.heap := by
              intro t b hl ha
              obtain ⟨n', ea, en, l, ty⟩ := access_ok (s.inv.ok o (List.mem_append.2 (.inl (List.mem_of_getElem? ho))) t b hl)
              rw [ea] at ha; cases ha
              exact (mem_edges _ _).2 ⟨b, n, en, l, List.mem_of_getElem? hk⟩
            cases o with
            | simple => cases q
            | any t b => exact this t b rfl q
            | typed t b => exact this t b rfl q
            | mutRef t b => exact this t b rfl q
          cases q2 : GMem.cloneOwn g.heap k with
          | error x => rw [q2] at e; cases e
          | ok h' => rw [q2] at e; cases e; exact cl (List.mem_append.2 (.inr hke)) q2
        · cases e; omega
    · cases e
  | setItem i j k =>
    have e0 := e
    simp only [GMem.step] at e
    split at e
    · rename_i t b v ei ek
      split at e
      · rename_i f
        obtain ⟨n, ea, en, l, ty⟩ := access_ok (s.inv.ok _ (List.mem_append.2 (.inl (List.mem_of_getElem? ei))) t b rfl)
        rw [ea] at e
        simp only [bind, Except.bind] at e
        split at e
        · rename_i old hold
          have nm := fits_nomut f
          have p1 := perm_eraseIdx ek
          have mem : Own.mutRef t b ∈ g.roots.eraseIdx k := by
            have := p1.mem_iff.1 (List.mem_of_getElem? ei)
            rcases List.mem_cons.1 this with x | x
            · rw [← x] at nm; simp [Own.isMut] at nm
            · exact x
          have p2 := List.perm_cons_erase mem
          have p3 : g.roots.Perm (.mutRef t b :: v :: (g.roots.eraseIdx k).erase (.mutRef t b)) :=
            p1.trans ((p2.cons v).trans (List.Perm.swap _ _ _))
          have i3 := ((s.inv.perm p3).setKid nm en hold).perm (p2.symm.cons old)
          have lc : liveCount (g.heap.set b { n with kids := n.kids.set j v }) < g.fuel := by
            have := liveCount_le (g.heap.set b { n with kids := n.kids.set j v })
            simp at this
            unfold GMem.fuel; omega
          rcases drop_good g.fuel _ old _ i3 lc with ⟨h2, e2, -, kp⟩ | ⟨e2, -⟩
          · rw [e2] at e; cases e
            have h1 := kp.edges_le
            have h2 := edges_set_le en j v
            have h3 := er k
            simp only [all, List.length_append] at *
            omega
          · rw [e2] at e; cases e
        · cases e; omega
      · cases e
    · cases e
  | drop i =>
    simp only [GMem.step] at e
    split at e
    · rename_i o ho
      cases q : Graph.drop g.fuel g.heap o with
      | error x => rw [q] at e; cases e
      | ok h' => rw [q] at e; cases e; exact dr ho q
    · cases e

theorem gstep_all {g g' : GMem} (s : St g) {op : MMem.Op} (e : GStep g op g') :
    (all g').length ≤ (all g).length + 1 := by
  unfold GStep at e
  split at e
  · exact all_step s e
  · subst e; omega

/-- where a bigint in an `Any` comes from -/
theorem gstep_big {g g' : GMem} {m : MMem} (S : Sim φ g m) {op : MMem.Op} (e : GStep g op g')
    (hb : HasBig (all g')) : HasBig (all g) ∨ ∃ i p, op = .toAny i ∧ m.roots[i]? = some (.ref .bigint p) := by
  unfold GStep at e
  split at e
  · rename_i gop hg
    rcases step_good S.st gop with ⟨m1, e1, -, b1⟩ | ⟨e1, -⟩ | e1 <;> rw [e1] at e <;> cases e
    rcases b1 hb with h | ⟨i, h⟩
    · exact .inl h
    · right
      subst h
      cases op with
      | toAny i' =>
        simp only [gopOf] at hg
        split at hg
        · rename_i t b hr
          cases hg
          obtain ⟨hd, hh, E⟩ := S.roots.right hr
          cases E
          exact ⟨_, _, rfl, hh⟩
        · cases hg
      | _ => simp [gopOf] at hg
  · subst e; exact .inl hb

/-! ### histories -/

/-- how the graph is after a history -/
inductive GRun : GMem → List MMem.Op → GMem → Prop
  | nil {g} : GRun g [] g
  | cons {g g' g'' op ops} : GStep g op g' → GRun g' ops g'' → GRun g (op :: ops) g''

theorem mem_run : ∀ (ops : List MMem.Op) (φ : Nat → Nat) (g : GMem) (m : MMem) (ts : Vals), Sim φ g m →
    Holding m ts → (∀ op ∈ ops, CleanOp op) →
    (∃ φ' g' m' ts', m.run ops = .ok m' ∧ Sim φ' g' m' ∧ VRun ts ops ts' ∧ Holding m' ts' ∧ GRun g ops g') ∨
    m.run ops = .error .notRust ∨
    (m.run ops = .error .panic ∧
      (2 ^ 59 ≤ (all g).length + ops.length ∨ (∃ op ∈ ops, ¬ ShortOp op) ∨ HasBig (all g) ∨ ¬ TypedBigints m ops)) := by
  intro ops
  induction ops with
  | nil => intro φ g m ts S H _; exact .inl ⟨φ, g, m, ts, rfl, S, .nil, H, .nil⟩
  | cons op ops ih =>
    intro φ g m ts S H cl
    unfold MMem.run
    rcases step_sim S H op (cl op (by simp)) with ⟨φ', g', m', ts', q, S', V, H', G⟩ | q | ⟨q, c⟩
    · rw [q]
      rcases ih φ' g' m' ts' S' H' (fun o ho => cl o (by simp [ho])) with
        ⟨φ2, g2, m2, ts2, q2, S2, V2, H2, G2⟩ | q2 | ⟨q2, c2⟩
      · exact .inl ⟨φ2, g2, m2, ts2, q2, S2, .cons V V2, H2, .cons G G2⟩
      · exact .inr (.inl q2)
      · refine .inr (.inr ⟨q2, ?_⟩)
        rcases c2 with c2 | ⟨o, ho, c2⟩ | c2 | c2
        · have := gstep_all S.st G
          left
          simp only [List.length_cons]; omega
        · exact .inr (.inl ⟨o, by simp [ho], c2⟩)
        · rcases gstep_big S G c2 with h | ⟨i, p, h1, h2⟩
          · exact .inr (.inr (.inl h))
          · exact .inr (.inr (.inr (fun tb => tb.1 i p h1 h2)))
        · exact .inr (.inr (.inr (fun tb => c2 (tb.2 m' q))))
    · exact .inr (.inl (by rw [q]; rfl))
    · refine .inr (.inr ⟨by rw [q]; rfl, ?_⟩)
      rcases c with ⟨gop, c⟩ | c | c
      · rcases step_good S.st gop with ⟨m1, e1, -⟩ | ⟨e1, hb⟩ | e1
        · rw [e1] at c; cases c
        · exact .inr (.inr (.inl hb))
        · rw [e1] at c; cases c
      · left; omega
      · refine .inr (.inl ⟨op, by simp, ?_⟩)
        cases op <;> simp only [MMem.Op.width] at c <;> simp only [ShortOp] <;> omega

theorem sim_run {cell : Nat → W} {ops : List MMem.Op} {m : MMem} (cl : ∀ op ∈ ops, CleanOp op)
    (e : (MMem.start cell).run ops = .ok m) :
    ∃ φ g ts, Sim φ g m ∧ VRun [] ops ts ∧ Holding m ts ∧ GRun GMem.empty ops g := by
  rcases mem_run ops _ _ _ _ (sim_start cell) (holding_start cell) cl with ⟨φ, g, m', ts, q, S, V, H, G⟩ | q | ⟨q, -⟩ <;>
    rw [q] at e <;> cases e
  exact ⟨φ, g, ts, S, V, H, G⟩

theorem sim_no_leak {g : GMem} {m : MMem} (S : Sim φ g m) (e : m.roots = []) : m.ram.live = [] := by
  have gr : g.roots = [] := by
    have := S.roots.1
    rw [e] at this
    exact List.eq_nil_of_length_eq_zero this
  by_contra c
  obtain ⟨x, hx⟩ := List.exists_mem_of_ne_nil _ c
  obtain ⟨b, n, en, f, -⟩ := S.rel.own x hx
  have r := S.st.live_reach en (live_of S.st.nd en f)
  clear en f hx
  induction r with
  | root ho _ => rw [gr] at ho; cases ho
  | kid _ _ _ _ ih => exact ih

/-! ### one value behind a handle -/

theorem ext_items {α : Type} {xs ys : List α} (l : xs.length = ys.length)
    (h : ∀ (j : Nat) x y, xs[j]? = some x → ys[j]? = some y → x = y) : xs = ys := by
  apply List.ext_getElem l
  intro j h1 h2
  exact h j _ _ (by simp) (by simp)

theorem decodes_unique {r : Ram} {hd : Hnd} {v : Tree} (d : Decodes r hd v) : ∀ v', Decodes r hd v' → v = v' := by
  induction d with
  | null x =>
    intro v' d'
    cases d' with
    | null y => rfl
    | bool y => rw [x] at y; cases y
    | number y => rw [x] at y; cases y
    | @any _ t _ _ y _ => rw [x] at y; cases t <;> simp [RefTy.val] at y
  | bool x =>
    intro v' d'
    cases d' with
    | null y => rw [x] at y; cases y
    | bool y => rw [x] at y; cases y; rfl
    | number y => rw [x] at y; cases y
    | @any _ t _ _ y _ => rw [x] at y; cases t <;> simp [RefTy.val] at y
  | number x =>
    intro v' d'
    cases d' with
    | null y => rw [x] at y; cases y
    | bool y => rw [x] at y; cases y
    | number y => rw [x] at y; cases y; rfl
    | @any _ t _ _ y _ => rw [x] at y; cases t <;> simp [RefTy.val] at y
  | @any _ t _ _ x _ ih =>
    intro v' d'
    cases d' with
    | null y => rw [x] at y; cases t <;> simp [RefTy.val] at y
    | bool y => rw [x] at y; cases t <;> simp [RefTy.val] at y
    | number y => rw [x] at y; cases t <;> simp [RefTy.val] at y
    | any y d' =>
      rw [x] at y
      injection y with y
      obtain ⟨rfl, rfl⟩ := tval_inj y
      exact ih _ d'
  | mutRef _ ih =>
    intro v' d'
    cases d' with
    | mutRef d' => exact ih _ d'
  | string x1 x2 x3 =>
    intro v' d'
    cases d' with
    | string y1 y2 y3 =>
      rw [x1] at y1; cases y1
      congr 1
      refine ext_items (by omega) (fun j x y hx hy => ?_)
      have := x3 j x hx
      rw [y3 j y hy] at this
      injection this with this
      have h2 := congrArg BitVec.toNat this
      simp only [BitVec.toNat_setWidth] at h2
      apply BitVec.eq_of_toNat_eq
      omega
  | @bigint _ _ neg0 ls0 x1 x2 x3 x4 =>
    intro v' d'
    cases d' with
    | @bigint _ _ neg ls y1 y2 y3 y4 =>
      rw [x1] at y1; cases y1
      rw [x2] at y2
      have len : ls0.length = ls.length := by
        cases neg0 <;> cases neg <;> simp at y2 <;> omega
      have sg : neg0 = neg := by
        cases neg0 <;> cases neg
        · rfl
        · have := List.length_pos_iff.2 (y3 rfl)
          simp at y2; omega
        · have := List.length_pos_iff.2 (x3 rfl)
          simp at y2; omega
        · rfl
      subst sg
      congr 1
      refine ext_items len (fun j x y hx hy => ?_)
      have := x4 j x hx
      rw [y4 j y hy] at this
      injection this with this
      exact this.symm
  | array hs x1 x2 x3 x4 ih =>
    intro v' d'
    cases d' with
    | array hs' y1 y2 y3 y4 =>
      rw [x1] at y1; cases y1
      congr 1
      refine ext_items (by omega) (fun j x y hx hy => ?_)
      have := x3 j x hx
      rw [y3 j y hy] at this
      injection this with this
      exact ih j x hx y (by rw [← this]; exact y4 j y hy)
  | object hs x1 x2 x3 x4 ih =>
    intro v' d'
    cases d' with
    | object hs' y1 y2 y3 y4 =>
      rw [x1] at y1; cases y1
      congr 1
      refine ext_items (by omega) (fun j x y hx hy => ?_)
      have := x3 j x hx
      rw [y3 j y hy] at this
      injection this with this
      exact ih j x hx y (by rw [← this]; exact y4 j y hy)

/-! ### addresses do not matter -/

theorem gopOf_same {g : GMem} {op op' : MMem.Op} (s : SameOp op op') : gopOf g op = gopOf g op' := by
  cases s <;> rfl

theorem gstep_det {g a b : GMem} {op op' : MMem.Op} (s : SameOp op op') (x : GStep g op a) (y : GStep g op' b) :
    a = b := by
  unfold GStep at x y
  rw [← gopOf_same s] at y
  split at x
  · rename_i gop hg
    rw [hg] at y
    simp only at y
    rw [x] at y; cases y; rfl
  · rename_i hg
    rw [hg] at y
    simp only at y
    rw [x, y]

theorem picks_det {ts : Vals} {is : List Nat} {vs rest : Vals} (p : Picks ts is vs rest) :
    takeAt ts is = some (vs, rest) := by
  induction p with
  | nil => rfl
  | @cons a v b is vs rest _ ih =>
    unfold takeAt
    have e1 : (a ++ v :: b)[a.length]? = some v := by simp
    have e2 : (a ++ v :: b).eraseIdx a.length = a ++ b := by
      rw [List.eraseIdx_append_of_length_le (Nat.le_refl _)]; simp
    rw [e1]
    simp only
    rw [e2, ih]
    rfl

/-- what an operation does to values is determined, but for the success of `try_to_mut_ref` -/
theorem vstep_det {ts a b : Vals} {op op' : MMem.Op} (s : SameOp op op') (x : VStep ts op a) (y : VStep ts op' b)
    (k : a.map (·.1) = b.map (·.1)) : a = b := by
  have get : ∀ {i : Nat} {p q : Kind × Tree}, ts[i]? = some p → ts[i]? = some q → p = q := by
    intro i p q h1 h2; rw [h1] at h2; exact Option.some.inj h2
  have pk : ∀ {is vs rest vs' rest'}, Picks ts is vs rest → Picks ts is vs' rest' → vs = vs' ∧ rest = rest' := by
    intro is vs rest vs' rest' h1 h2
    have e1 := picks_det h1
    rw [picks_det h2] at e1
    simp only [Option.some.injEq, Prod.mk.injEq] at e1
    exact ⟨e1.1.symm, e1.2.symm⟩
  cases x with
  | value => cases s with | refl => cases y with | value => rfl
  | string => cases s <;> cases y <;> rfl
  | bigint => cases s <;> cases y <;> rfl
  | array p1 _ =>
    cases s <;> cases y with
    | array p2 _ => obtain ⟨rfl, rfl⟩ := pk p1 p2; rfl
  | object p1 _ _ =>
    cases s <;> cases y with
    | object p2 _ _ => obtain ⟨rfl, rfl⟩ := pk p1 p2; rfl
  | clone h _ => cases s with | refl => cases y with | clone h' _ => rw [get h h']
  | toRef h => cases s with | refl => cases y with | toRef h' => have := get h h'; cases this; rfl
  | toAny h =>
    cases s with | refl => cases y with | toAny h' => have := get h h'; cases this; rfl
  | tryMove h t =>
    cases s with
    | refl =>
      cases y with
      | tryMove h' t' => have := get h h'; cases this; rfl
      | tryMove_fail h' t' => have := get h h'; cases this; exact absurd t t'
  | tryMove_fail h t =>
    cases s with
    | refl =>
      cases y with
      | tryMove h' t' => have := get h h'; cases this; exact absurd t' t
      | tryMove_fail h' t' => rfl
  | @tryToMutRef i t v h =>
    cases s with
    | refl =>
      cases y with
      | tryToMutRef h' => have := get h h'; cases this; rfl
      | tryToMutRef_fail h' =>
        exfalso
        have := congrArg (fun l => l[i]?) k
        simp only [List.getElem?_map, List.getElem?_set_self (getElem?_lt h), h] at this
        simp at this
  | @tryToMutRef_fail i t v h =>
    cases s with
    | refl =>
      cases y with
      | tryToMutRef h' =>
        exfalso
        have := congrArg (fun l => l[i]?) k
        simp only [List.getElem?_map, List.getElem?_set_self (getElem?_lt h), h] at this
        simp at this
      | tryToMutRef_fail h' => rfl
  | getItem h t kd x =>
    cases s with
    | refl =>
      cases y with
      | getItem h' t' kd' x' =>
        have := get h h'; cases this
        rw [t] at t'; cases t'
        rw [kd] at kd'; cases kd'
        rw [x] at x'; cases x'
        rfl
      | getItem_none h' t' x' =>
        have := get h h'; cases this
        rw [x] at x'; cases x'
  | getItem_none h t x =>
    cases s with
    | refl =>
      cases y with
      | getItem h' t' kd' x' =>
        have := get h h'; cases this
        rw [x] at x'; cases x'
      | getItem_none h' t' x' => rfl
  | setItem h hk kd l =>
    cases s with
    | refl =>
      cases y with
      | setItem h' hk' kd' l' =>
        have := get h h'; cases this
        have := get hk hk'; cases this
        rfl
      | setItem_none h' hk' kd' l' =>
        have := get h h'; cases this
        omega
  | setItem_none h hk kd l =>
    cases s with
    | refl =>
      cases y with
      | setItem h' hk' kd' l' =>
        have := get h h'; cases this
        omega
      | setItem_none h' hk' kd' l' => rfl
  | setUnit h =>
    cases s with
    | refl =>
      cases y with
      | setUnit h' => have := get h h'; cases this; rfl
  | setLimb h =>
    cases s with
    | refl =>
      cases y with
      | setLimb h' => have := get h h'; cases this; rfl
  | drop h => cases s with | refl => cases y with | drop h' => rfl

/-- the kinds of the handles are in the graph -/
theorem sim_kinds {φ ψ : Nat → Nat} {g : GMem} {m m' : MMem} {a b : Vals} (S : Sim φ g m) (S' : Sim ψ g m') (H : Holding m a)
    (H' : Holding m' b) : a.map (·.1) = b.map (·.1) := by
  refine ext_items ?_ (fun j x y hx hy => ?_)
  · have h1 := S.roots.1; have h2 := S'.roots.1; have h3 := H.1; have h4 := H'.1
    simp only [List.length_map]; omega
  · simp only [List.getElem?_map, Option.map_eq_some_iff] at hx hy
    obtain ⟨v, hv, rfl⟩ := hx
    obtain ⟨v', hv', rfl⟩ := hy
    obtain ⟨hd, h1, k1, -⟩ := PW.left H hv
    obtain ⟨hd', h2, k2, -⟩ := PW.left H' hv'
    obtain ⟨o, ho, E⟩ := S.roots.left h1
    obtain ⟨o', ho', E'⟩ := S'.roots.left h2
    rw [ho] at ho'; cases ho'
    rw [← k1, ← k2]
    cases E <;> cases E' <;> rfl

theorem same_run : ∀ (ops ops' : List MMem.Op) (φ ψ : Nat → Nat) (g : GMem) (m m' n n' : MMem) (ts : Vals),
    SameOps ops ops' → Sim φ g m → Sim ψ g m' → Holding m ts → Holding m' ts → (∀ op ∈ ops, CleanOp op) →
    m.run ops = .ok n → m'.run ops' = .ok n' → ∃ ts', Holding n ts' ∧ Holding n' ts' := by
  intro ops
  induction ops with
  | nil =>
    intro ops' φ ψ g m m' n n' ts s S S' H H' cl e e'
    cases s
    cases e; cases e'
    exact ⟨ts, H, H'⟩
  | cons op ops ih =>
    intro ops' φ ψ g m m' n n' ts s S S' H H' cl e e'
    cases s with
    | @cons _ op' _ ops' s1 s2 =>
      have c1 : CleanOp op := cl op (by simp)
      have c2 : CleanOp op' := by cases s1 <;> first | exact c1 | trivial
      unfold MMem.run at e e'
      rcases step_sim S H op c1 with ⟨φ1, g1, m1, ts1, q1, S1, V1, H1, G1⟩ | q1 | ⟨q1, -⟩ <;> rw [q1] at e
      · rcases step_sim S' H' op' c2 with ⟨φ2, g2, m2, ts2, q2, S2, V2, H2, G2⟩ | q2 | ⟨q2, -⟩ <;> rw [q2] at e'
        · have := gstep_det s1 G1 G2
          subst this
          have := vstep_det s1 V1 V2 (sim_kinds S1 S2 H1 H2)
          subst this
          exact ih ops' φ1 φ2 g1 m1 m2 n n' ts1 s2 S1 S2 H1 H2 (fun o ho => cl o (by simp [ho])) e e'
        · cases e'
        · cases e'
      · cases e
      · cases e

/-! ### operations that are defined on values are defined in memory -/

/-- not refused -/
def NR {α : Type} (x : Except GErr α) : Prop := x ≠ .error .notRust

theorem NR.bind {α β : Type} {x : Except GErr α} {f : α → Except GErr β} (h : NR x) (k : ∀ a, NR (f a)) :
    NR (x >>= f) := by
  cases x with
  | error e => intro q; exact h (by cases e <;> simp [Bind.bind, Except.bind] at q ⊢)
  | ok a => exact k a

theorem NR.bind' {α β : Type} {x : Except GErr α} {f : α → Except GErr β} (h : NR x) (k : ∀ a, x = .ok a → NR (f a)) :
    NR (x >>= f) := by
  cases x with
  | error e => intro q; exact h (by cases e <;> simp [Bind.bind, Except.bind] at q ⊢)
  | ok a => exact k a rfl

theorem NR.pure {α : Type} (a : α) : NR (Pure.pure a : Except GErr α) := by
  intro q; cases q

theorem NR.map {α β : Type} {x : Except GErr α} {f : α → β} (h : NR x) : NR (f <$> x) := by
  cases x with
  | error e => intro q; exact h (by cases e <;> simp [Functor.map, Except.map] at q ⊢)
  | ok a => intro q; cases q

theorem read_nr (r : Ram) (a n : Nat) : NR (r.read a n) := by
  unfold Ram.read; split <;> intro q <;> cases q

theorem write_nr (r : Ram) (a n : Nat) (v : W) : NR (r.write a n v) := by
  unfold Ram.write; split <;> intro q <;> cases q

theorem objectOf_nr (t : RefTy) (p : Nat) : NR (objectOf t p) := by rw [objectOf_ok]; intro q; cases q
theorem itemsOf_nr (t : RefTy) (p : Nat) : NR (itemsOf t p) := by rw [itemsOf_ok]; intro q; cases q
theorem layoutOf_nr (t : RefTy) (n : Nat) : NR (layoutOf t n) := by
  rw [layoutOf_eq]; split <;> intro q <;> cases q

theorem counterUpdate_nr (r : Ram) (p : Nat) (d : Int) : NR (r.counterUpdate p d) := by
  unfold Ram.counterUpdate
  refine (read_nr _ _ _).bind (fun w => ?_)
  simp only
  split
  · intro q; cases q
  · exact (write_nr _ _ _ _).bind (fun _ => .pure _)

theorem header_nr (r : Ram) (t : RefTy) (p : Nat) : NR (r.header t p) :=
  (objectOf_nr t p).bind fun _ => read_nr _ _ _

theorem field_nr (r : Ram) (t : RefTy) (p k : Nat) : NR (r.field t p k) :=
  (itemsOf_nr t p).bind fun _ => read_nr _ _ _

theorem owned_nr (r : Ram) (t : RefTy) (p k : Nat) : NR (r.owned t p k) :=
  (field_nr r t p k).bind fun _ => .pure _

theorem dropFields_nr {f : Ram → Hnd → Except GErr Ram} (h : ∀ r x, NR (f r x)) (t : RefTy) (p : Nat) :
    ∀ (n k : Nat) (r : Ram), NR (Ram.dropFields f t p n k r) := by
  intro n
  induction n with
  | zero => intro k r q; cases q
  | succ n ih =>
    intro k r
    exact (owned_nr _ _ _ _).bind fun x => (h r x).bind fun r' => ih _ _

theorem delete_nr {f : Ram → Hnd → Except GErr Ram} (h : ∀ r x, NR (f r x)) (r : Ram) (t : RefTy) (p : Nat) :
    NR (Ram.delete f r t p) := by
  refine (header_nr _ _ _).bind fun w => (layoutOf_nr _ _).bind fun l => (dropFields_nr h _ _ _ _ _).bind fun r' => ?_
  unfold Ram.dealloc
  split <;> intro q <;> cases q

theorem drop_nr : ∀ (f : Nat) (r : Ram) (hd : Hnd), NR (Ram.drop f r hd) := by
  intro f
  induction f with
  | zero => intro r hd q; unfold Ram.drop at q; cases q
  | succ f ih =>
    intro r hd
    cases hd with
    | any w =>
      unfold Ram.drop
      split
      · intro q; cases q
      · refine (counterUpdate_nr _ _ _).bind fun x => ?_
        simp only
        split
        · split
          · exact delete_nr ih _ _ _
          · exact delete_nr ih _ _ _
          · exact delete_nr ih _ _ _
          · intro q; cases q
        · exact .pure _
    | ref t p =>
      unfold Ram.drop
      refine (counterUpdate_nr _ _ _).bind fun x => ?_
      simp only
      split
      · exact delete_nr ih _ _ _
      · exact .pure _
    | mutRef t p =>
      unfold Ram.drop
      exact delete_nr ih _ _ _

theorem clone_nr (r : Ram) {hd : Hnd} (h : ∀ t, hd.kind ≠ .mutRef t) : NR (r.clone hd) := by
  cases hd with
  | any w =>
    change NR (match blockAddr w with
      | none => .ok r
      | some a => (·.2) <$> r.counterUpdate a.toNat ADD_REF)
    split
    · intro q; cases q
    · exact (counterUpdate_nr _ _ _).map
  | ref t p => exact (counterUpdate_nr _ _ _).map
  | mutRef t p => exact absurd rfl (h t)

theorem writeFields_nr (s : Nat) : ∀ (ws : List W) (r : Ram) (a : Nat), NR (r.writeFields s a ws) := by
  intro ws
  induction ws with
  | nil => intro r a q; cases q
  | cons w ws ih => intro r a; exact (write_nr _ _ _ _).bind fun _ => ih _ _

theorem new_nr {r : Ram} {t : RefTy} {header : W} (fields : List W) {p : Nat}
    (fr : r.Fresh p ⟨blkSize t (headerLen t header), 8⟩) : NR (r.new t header fields p) := by
  unfold Ram.new
  rw [layoutOf_eq]
  split
  · simp only [bind, Except.bind]
    rw [if_pos fr]
    refine NR.bind (write_nr _ _ _ _) fun _ => ?_
    refine NR.bind (objectOf_nr _ _) fun _ => ?_
    refine NR.bind (write_nr _ _ _ _) fun _ => ?_
    exact NR.bind (itemsOf_nr _ _) fun _ => writeFields_nr _ _ _ _
  · intro q; cases q

theorem create_nr {m : MMem} (rs : List Hnd) {t : RefTy} {header : W} {fields : List W} {p : Nat}
    (l : fields.length < 2 ^ 63) (fr : m.ram.Fresh p ⟨blkSize t (headerLen t header), 8⟩) :
    NR (m.create rs t header fields p) := by
  unfold MMem.create
  rw [if_pos l]
  exact (new_nr fields fr).bind fun _ => .pure _

theorem fits_of_kind {t : RefTy} {k : Nat} {hd : Hnd} (h : itemKind t k = some hd.kind) : hd.fits t k = true := by
  cases t with
  | array =>
    simp only [itemKind, Option.some.injEq] at h
    cases hd with
    | any w => simp [Hnd.fits]
    | _ => simp [Hnd.kind] at h
  | object =>
    simp only [itemKind, Option.some.injEq] at h
    by_cases c : k % 2 = 0
    · rw [if_pos c] at h
      cases hd with
      | ref t p => simp only [Hnd.kind, Kind.ref.injEq] at h; subst h; simp [Hnd.fits, c]
      | _ => simp [Hnd.kind] at h
    · rw [if_neg c] at h
      cases hd with
      | any w => simp [Hnd.fits]; omega
      | _ => simp [Hnd.kind] at h
  | _ => simp [itemKind] at h

theorem takeAt_length {α : Type} : ∀ (is : List Nat) (xs us rs : List α), takeAt xs is = some (us, rs) →
    us.length = is.length := by
  intro is
  induction is with
  | nil => intro xs us rs e; simp only [takeAt, Option.some.injEq, Prod.mk.injEq] at e; rw [← e.1]; rfl
  | cons i is ih =>
    intro xs us rs e
    unfold takeAt at e
    cases h : xs[i]? with
    | none => rw [h] at e; cases e
    | some o =>
      rw [h] at e
      simp only [Option.map_eq_some_iff] at e
      obtain ⟨⟨a, b⟩, e2, e3⟩ := e
      simp only [Prod.mk.injEq] at e3
      rw [← e3.1]
      simp [ih _ _ _ e2]

theorem createFrom_nr {m : MMem} {ts : Vals} (H : Holding m ts) {t : RefTy} (ht : t = .array ∨ t = .object)
    {is : List Nat} {p : Nat} {vs rest : Vals} (P : Picks ts is vs rest)
    (kd : ∀ (k : Nat) v, vs[k]? = some v → itemKind t k = some v.1) (ev : t = .object → vs.length % 2 = 0)
    (l : is.length < 2 ^ 63) (fr : m.ram.Fresh p ⟨16 + 8 * is.length, 8⟩) : NR (m.createFrom t is p) := by
  obtain ⟨hs, rs, tk, Hs, -⟩ := PW.take is _ _ _ _ H (picks_det P)
  have lh := takeAt_length _ _ _ _ tk
  have lv : hs.length = vs.length := Hs.1
  unfold MMem.createFrom
  rw [tk]
  simp only
  have c : (hs.zipIdx.all fun (h, k) => h.fits t k) ∧ (t = .object → hs.length % 2 = 0) := by
    refine ⟨?_, by rw [lv]; exact ev⟩
    rw [List.all_eq_true]
    rintro ⟨hd, k⟩ hm
    have hm := List.mem_zipIdx_iff_getElem?.1 hm
    obtain ⟨v, hv, kv⟩ := Hs.right hm
    simp only
    apply fits_of_kind
    rw [kv.1]
    exact kd k v hv
  rw [if_pos c]
  refine create_nr _ (by rw [List.length_map, lh]; exact l) ?_
  have : blkSize t (headerLen t (BitVec.ofNat 64 (if t = .object then hs.length / 2 else hs.length))) =
      16 + 8 * is.length := by
    rw [← lh]
    rw [← lh] at l
    rcases ht with rfl | rfl
    · simp only [headerLen, BitVec.toNat_ofNat, blkSize, itemType]
      rw [if_neg (by simp)]
      omega
    · have := c.2 rfl
      simp only [headerLen, BitVec.toNat_ofNat, blkSize, itemType, if_true]
      omega
  rw [this]
  exact fr

theorem step_nr {g : GMem} {m : MMem} {ts ts' : Vals} {op : MMem.Op} (S : Sim φ g m) (H : Holding m ts)
    (V : VStep ts op ts') (room : Room m op) : NR (m.step op) := by
  have root : ∀ {i : Nat} {v : Kind × Tree}, ts[i]? = some v → ∃ hd, m.roots[i]? = some hd ∧ hd.kind = v.1 ∧ Decodes m.ram hd v.2 :=
    fun h => PW.left H h
  cases V with
  | value => exact .pure _
  | @string us p =>
    refine create_nr _ (by rw [List.length_map]; exact room.1) ?_
    have : blkSize .string (headerLen .string (BitVec.ofNat 64 us.length)) = 16 + 2 * us.length := by
      have := room.1
      simp only [headerLen, BitVec.toNat_ofNat, blkSize, itemType]; omega
    rw [this]; exact room.2
  | @bigint neg ls p =>
    refine create_nr _ room.1 ?_
    have : blkSize .bigint (headerLen .bigint (MMem.bigintHeader neg ls.length)) = 16 + 8 * ls.length := by
      have ht := bigintHeader_toInt neg room.1
      have : headerLen .bigint (MMem.bigintHeader neg ls.length) = ls.length := by
        simp only [headerLen, ht]
        cases neg <;> simp
      rw [this]
      simp only [blkSize, itemType]; omega
    rw [this]; exact room.2
  | array P kd =>
    refine createFrom_nr H (.inl rfl) P (fun k v hv => ?_) (by simp) room.1 room.2
    rw [kd v (List.mem_of_getElem? hv)]; rfl
  | object P ev kd =>
    refine createFrom_nr H (.inr rfl) P (fun k v hv => ?_) (fun _ => ev) room.1 room.2
    rw [kd k v hv]; rfl
  | clone h nm =>
    obtain ⟨hd, hr, k, -⟩ := root h
    simp only [MMem.step, hr]
    exact (clone_nr _ (by rw [k]; exact nm)).bind fun _ => .pure _
  | toRef h =>
    obtain ⟨hd, hr, k, -⟩ := root h
    cases hd <;> simp only [Hnd.kind] at k <;> cases k
    simp only [MMem.step, hr]
    exact .pure _
  | toAny h =>
    obtain ⟨hd, hr, k, -⟩ := root h
    cases hd <;> simp only [Hnd.kind] at k <;> cases k
    simp only [MMem.step, hr]
    exact .pure _
  | tryMove h _ =>
    obtain ⟨hd, hr, k, -⟩ := root h
    cases hd <;> simp only [Hnd.kind] at k <;> cases k
    simp only [MMem.step, hr]
    split
    · exact .pure _
    · exact (drop_nr _ _ _).bind fun _ => .pure _
  | tryMove_fail h _ =>
    obtain ⟨hd, hr, k, -⟩ := root h
    cases hd <;> simp only [Hnd.kind] at k <;> cases k
    simp only [MMem.step, hr]
    split
    · exact .pure _
    · exact (drop_nr _ _ _).bind fun _ => .pure _
  | tryToMutRef h =>
    obtain ⟨hd, hr, k, -⟩ := root h
    cases hd <;> simp only [Hnd.kind] at k <;> cases k
    simp only [MMem.step, hr]
    exact (counterUpdate_nr _ _ _).bind fun _ => .pure _
  | tryToMutRef_fail h =>
    obtain ⟨hd, hr, k, -⟩ := root h
    cases hd <;> simp only [Hnd.kind] at k <;> cases k
    simp only [MMem.step, hr]
    exact (counterUpdate_nr _ _ _).bind fun _ => .pure _
  | @getItem i j kk v t kd x h ht _ _ => exact getItem_nr S H h ht j
  | @getItem_none i j kk v t h ht _ => exact getItem_nr S H h ht j
  | setItem h hk kd _ =>
    obtain ⟨hd, hr, k, -⟩ := root h
    obtain ⟨hd2, hr2, k2, -⟩ := root hk
    cases hd <;> simp only [Hnd.kind] at k <;> cases k
    simp only [MMem.step, hr, hr2]
    rw [if_pos (fits_of_kind (by rw [k2]; exact kd))]
    refine (header_nr _ _ _).bind fun w => ?_
    split
    · exact (owned_nr _ _ _ _).bind fun _ => (itemsOf_nr _ _).bind fun _ => (write_nr _ _ _ _).bind fun _ =>
        (drop_nr _ _ _).bind fun _ => .pure _
    · exact .pure _
  | setItem_none h hk kd _ =>
    obtain ⟨hd, hr, k, -⟩ := root h
    obtain ⟨hd2, hr2, k2, -⟩ := root hk
    cases hd <;> simp only [Hnd.kind] at k <;> cases k
    simp only [MMem.step, hr, hr2]
    rw [if_pos (fits_of_kind (by rw [k2]; exact kd))]
    refine (header_nr _ _ _).bind fun w => ?_
    split
    · exact (owned_nr _ _ _ _).bind fun _ => (itemsOf_nr _ _).bind fun _ => (write_nr _ _ _ _).bind fun _ =>
        (drop_nr _ _ _).bind fun _ => .pure _
    · exact .pure _
  | setUnit h =>
    obtain ⟨hd, hr, k, -⟩ := root h
    cases hd <;> simp only [Hnd.kind] at k <;> cases k
    simp only [MMem.step, hr]
    refine (header_nr _ _ _).bind fun w => ?_
    split
    · exact (itemsOf_nr _ _).bind fun _ => (write_nr _ _ _ _).bind fun _ => .pure _
    · exact .pure _
  | setLimb h =>
    obtain ⟨hd, hr, k, -⟩ := root h
    cases hd <;> simp only [Hnd.kind] at k <;> cases k
    simp only [MMem.step, hr]
    refine (header_nr _ _ _).bind fun w => ?_
    split
    · exact (itemsOf_nr _ _).bind fun _ => (write_nr _ _ _ _).bind fun _ => .pure _
    · exact .pure _
  | drop h =>
    obtain ⟨hd, hr, -⟩ := root (List.getElem?_eq_getElem h)
    simp only [MMem.step, hr]
    exact (drop_nr _ _ _).bind fun _ => .pure _
where
  getItem_nr {g : GMem} {m : MMem} {ts : Vals} {i : Nat} {k : Kind} {v : Tree} {t : RefTy} (S : Sim φ g m)
      (H : Holding m ts) (h : ts[i]? = some (k, v)) (ht : v.ty = some t) (j : Nat) : NR (m.step (.getItem i j)) := by
    obtain ⟨hd, hr, -, d⟩ := PW.left H h
    obtain ⟨o, ho, E⟩ := S.roots.left hr
    have tg : ∃ x, MMem.target hd = some x := by
      cases E with
      | simple w0 =>
        have := plain_inv w0 d
        simp only at this
        rw [this] at ht; cases ht
      | @any t' b =>
        obtain ⟨n, e, l, -⟩ := S.st.inv.ok (.any t' b) (List.mem_append.2 (.inl (List.mem_of_getElem? ho))) t' b rfl
        exact ⟨_, anyWord_target t' (S.rel.addr e (by rw [l]; simp)).2.1⟩
      | typed => exact ⟨_, rfl⟩
      | mutRef => exact ⟨_, rfl⟩
    obtain ⟨⟨t', p⟩, tg⟩ := tg
    simp only [MMem.step, hr, Option.bind_some, tg]
    refine (header_nr _ _ _).bind fun w => ?_
    split
    · refine NR.bind' (x := m.ram.owned t' p j) (owned_nr _ _ _ _) fun x q => ?_
      have km : ∀ t, x.kind ≠ .mutRef t := by
        intro t c
        unfold Ram.owned at q
        cases q2 : m.ram.field t' p j with
        | error y => rw [q2] at q; cases q
        | ok w =>
          rw [q2] at q
          simp only [bind, Except.bind, pure, Except.pure, Except.ok.injEq] at q
          subst q
          split at c <;> simp [Hnd.kind] at c
      exact (clone_nr _ km).bind fun _ => .pure _
    · exact .pure _

end Nanvm
