import Verif.Lemmas.GraphFrozen
import Verif.Spec.GraphTyped
/-!
# Property theorems C76: blocks hold what their type says, and operations read and store items
-/
namespace Nanvm
open Graph

/-- every item of a block fits its type -/
def FitsNode (n : Node) : Prop :=
  (∀ (j : Nat) (o : Own), n.kids[j]? = some o → fits n.ty j o = true) ∧
  (n.ty = .object → n.kids.length % 2 = 0)

def FitsHeap (h : Heap) : Prop := ∀ (c : Nat) (n : Node), h[c]? = some n → FitsNode n

theorem Graph.Same.fits {h h' : Heap} (s : Same h h') (f : FitsHeap h) : FitsHeap h' := by
  intro c n' e
  obtain ⟨n, hn, t, k⟩ := s.pt c n' e
  have := f c n hn
  unfold FitsNode at *
  rw [t, k]; exact this

theorem step_fits {m m' : GMem} {op : GMem.Op} (e : m.step op = .ok m') (f : FitsHeap m.heap) :
    FitsHeap m'.heap := by
  cases op with
  | value => cases e; exact f
  | new t is =>
    dsimp only [GMem.step] at e
    cases ht : GMem.takeRoots m.roots is with
    | none => rw [ht] at e; cases e
    | some x =>
      obtain ⟨os, rs⟩ := x
      rw [ht] at e
      simp only at e
      split at e
      · rename_i hc
        cases e
        intro c n hn
        by_cases x : c < m.heap.length
        · rw [List.getElem?_append_left x] at hn; exact f c n hn
        · rw [List.getElem?_append_right (by omega)] at hn
          by_cases y : c = m.heap.length
          · subst y
            simp at hn
            subst hn
            refine ⟨fun j o ho => ?_, hc.2⟩
            have := List.all_eq_true.1 hc.1 (o, j) (List.mem_zipIdx_iff_getElem?.2 ho)
            exact this
          · rw [List.getElem?_eq_none (by simp; omega)] at hn; cases hn
      · cases e
  | clone i =>
    dsimp only [GMem.step] at e
    cases hr : m.roots[i]? with
    | none => rw [hr] at e; cases e
    | some o =>
      rw [hr] at e
      simp only at e
      cases q : GMem.cloneOwn m.heap o with
      | error x => rw [q] at e; cases e
      | ok h' => rw [q] at e; cases e; exact (cloneOwn_same q).fits f
  | toRef i =>
    dsimp only [GMem.step] at e
    split at e <;> cases e
    exact f
  | toAny t i =>
    dsimp only [GMem.step] at e
    split at e
    · split at e <;> cases e
      exact f
    · cases e
  | tryMove t i =>
    dsimp only [GMem.step] at e
    split at e
    · rename_i t' b er
      split at e
      · cases e; exact f
      · cases q : Graph.drop m.fuel m.heap (.any t' b) with
        | error x => rw [q] at e; cases e
        | ok h' => rw [q] at e; cases e; exact (drop_same _ _ _ _ q).fits f
    · cases q : Graph.drop m.fuel m.heap .simple with
      | error x => rw [q] at e; cases e
      | ok h' => rw [q] at e; cases e; exact (drop_same _ _ _ _ q).fits f
    · cases e
  | tryToMutRef i =>
    dsimp only [GMem.step] at e
    split at e
    · rename_i t b er
      cases q : refCounterUpdate m.heap t b READ with
      | error x => rw [q] at e; cases e
      | ok x => rw [q] at e; cases e; exact (refCounterUpdate_same (z := x.1) q).1.fits f
    · cases e
  | getItem i j =>
    dsimp only [GMem.step] at e
    cases hr : m.roots[i]? with
    | none => rw [hr] at e; cases e
    | some o =>
      rw [hr] at e
      simp only at e
      cases q : GMem.derefOwn m.heap o with
      | error x => rw [q] at e; cases e
      | ok nn =>
        rw [q] at e
        simp only [bind, Except.bind] at e
        split at e
        · rename_i kk _
          cases q2 : GMem.cloneOwn m.heap kk with
          | error x => rw [q2] at e; cases e
          | ok h' => rw [q2] at e; cases e; exact (cloneOwn_same q2).fits f
        · cases e; exact f
  | setItem i j kk =>
    dsimp only [GMem.step] at e
    split at e
    · rename_i t b v ei ek
      split at e
      · rename_i ft
        unfold access at e
        cases hb : m.heap[b]? with
        | none => rw [hb] at e; cases e
        | some nb =>
          rw [hb] at e
          simp only at e
          split at e
          · rename_i ht
            simp only [bind, Except.bind] at e
            split at e
            · rename_i old ho
              cases q : Graph.drop m.fuel (m.heap.set b { nb with kids := nb.kids.set j v }) old with
              | error x => rw [q] at e; cases e
              | ok h' =>
                rw [q] at e; cases e
                refine (drop_same _ _ _ _ q).fits fun c n hn => ?_
                rw [getElem?_set_of hb] at hn
                split at hn
                · cases hn
                  have fb := f b nb hb
                  refine ⟨fun j' o h' => ?_, fun h' => ?_⟩
                  · simp only at h' ⊢
                    rw [List.getElem?_set] at h'
                    split at h'
                    · rename_i hj
                      split at h'
                      · cases h'
                        rw [← hj, ht.2]; exact ft
                      · cases h'
                    · exact fb.1 j' o h'
                  · simp only [List.length_set]
                    exact fb.2 h'
                · exact f c n hn
            · cases e; exact f
          · cases e
      · cases e
    · cases e
  | drop i =>
    dsimp only [GMem.step] at e
    cases hr : m.roots[i]? with
    | none => rw [hr] at e; cases e
    | some o =>
      rw [hr] at e
      simp only at e
      cases q : Graph.drop m.fuel m.heap o with
      | error x => rw [q] at e; cases e
      | ok h' => rw [q] at e; cases e; exact (drop_same _ _ _ _ q).fits f

theorem run_fits : ∀ (ops : List GMem.Op) (m m' : GMem), FitsHeap m.heap → m.run ops = .ok m' →
    FitsHeap m'.heap := by
  intro ops
  induction ops with
  | nil => intro m m' f e; cases e; exact f
  | cons op ops ih =>
    intro m m' f e
    unfold GMem.run at e
    cases q : m.step op with
    | error x => rw [q] at e; cases e
    | ok m1 => rw [q] at e; exact ih m1 m' (step_fits q f) e

theorem pairs_of_fits : ∀ (k : Nat) (kids : List Own), kids.length ≤ k → kids.length % 2 = 0 →
    (∀ (j : Nat) (o : Own), kids[j]? = some o → fits .object j o = true) →
    ∃ ps : List (Nat × Own), (∀ p ∈ ps, p.2.IsAny) ∧
      kids = ps.flatMap fun p => [.typed .string p.1, p.2] := by
  intro k
  induction k with
  | zero =>
    intro kids hk _ _
    exact ⟨[], by simp, by simpa using hk⟩
  | succ k ih =>
    intro kids hk he hf
    match kids with
    | [] => exact ⟨[], by simp, rfl⟩
    | [_] => simp at he
    | a :: b :: rest =>
      have ha := hf 0 a rfl
      have hb := hf 1 b rfl
      obtain ⟨ps, h1, h2⟩ := ih rest (by simp at hk; omega) (by simp at he; omega) fun j o ho => by
        have := hf (j + 2) o (by simpa using ho)
        cases o with
        | typed t _ => cases t <;> simpa [fits] using this
        | _ => simpa [fits] using this
      have : ∃ x, a = .typed .string x := by
        cases a with
        | typed t x => cases t <;> first | exact ⟨x, rfl⟩ | simp [fits] at ha
        | _ => simp [fits] at ha
      obtain ⟨x, rfl⟩ := this
      refine ⟨(x, b) :: ps, ?_, by simp [← h2]⟩
      intro p hp
      rcases List.mem_cons.1 hp with rfl | hp
      · cases b with
        | simple => exact .inl rfl
        | any t c => exact .inr ⟨t, c, rfl⟩
        | typed t c => cases t <;> simp [fits] at hb
        | mutRef t c => simp [fits] at hb
      · exact h1 p hp

theorem FitsNode.holds {n : Node} (f : FitsNode n) : Holds n.ty n.kids := by
  obtain ⟨f1, f2⟩ := f
  unfold Holds
  have none_of : (∀ j o, fits n.ty j o = false) → n.kids = [] := by
    intro h
    rcases hk : n.kids with _ | ⟨o, r⟩
    · rfl
    · have := f1 0 o (by rw [hk]; rfl)
      rw [h] at this; cases this
  cases ht : n.ty with
  | string => exact none_of fun j o => by rw [ht]; cases o with
      | typed t _ => cases t <;> simp [fits]
      | _ => simp [fits]
  | bigint => exact none_of fun j o => by rw [ht]; cases o with
      | typed t _ => cases t <;> simp [fits]
      | _ => simp [fits]
  | array =>
    intro o ho
    obtain ⟨j, hj⟩ := List.mem_iff_getElem?.1 ho
    have := f1 j o hj
    rw [ht] at this
    cases o with
    | simple => exact .inl rfl
    | any t c => exact .inr ⟨t, c, rfl⟩
    | typed t c => cases t <;> simp [fits] at this
    | mutRef t c => simp [fits] at this
  | object =>
    rw [ht] at f1
    exact pairs_of_fits _ n.kids (le_refl _) (f2 ht) f1

/-- **C76**: after any history, every existing block holds what its type says: arrays hold values,
objects hold properties, strings and bigints own nothing. -/
theorem C76_holds (ops : List GMem.Op) (m : GMem) (e : GMem.empty.run ops = .ok m) (b : Nat) (n : Node)
    (hn : m.heap[b]? = some n) : Holds n.ty n.kids :=
  (run_fits ops _ m (fun c n hc => by simp [GMem.empty] at hc) e b n hn).holds

/-- **C76**: every reference, in a handle of the program or in a block, refers to an existing block
of the type of the reference. -/
theorem C76_types (ops : List GMem.Op) (m : GMem) (e : GMem.empty.run ops = .ok m) (o : Own)
    (ho : o ∈ m.roots ∨ ∃ (b : Nat) (n : Node), m.heap[b]? = some n ∧ n.phase = .live ∧ o ∈ n.kids) (t : RefTy) (c : Nat)
    (hr : o = .any t c ∨ o = .typed t c ∨ o = .mutRef t c) : HasType m c t := by
  have hmem : o ∈ m.roots ++ edges m.heap := by
    rcases ho with ho | ho
    · exact List.mem_append.2 (.inl ho)
    · exact List.mem_append.2 (.inr ((mem_edges _ _).2 ho))
  obtain ⟨n, h1, h2, h3⟩ := (run_st e).inv.ok o hmem t c (by rcases hr with rfl | rfl | rfl <;> rfl)
  exact ⟨n, h1, h2, h3⟩

theorem Holds.toFits {t : RefTy} {kids : List Own} (h : Holds t kids) :
    (∀ (j : Nat) (o : Own), kids[j]? = some o → fits t j o = true) ∧
    (t = .object → kids.length % 2 = 0) := by
  cases t with
  | string => cases h; simp
  | bigint => cases h; simp
  | array =>
    refine ⟨fun j o ho => ?_, by simp⟩
    rcases h o (List.mem_of_getElem? ho) with rfl | ⟨t, b, rfl⟩ <;> simp [fits]
  | object =>
    obtain ⟨ps, h1, rfl⟩ := h
    induction ps with
    | nil => simp
    | cons p ps ih =>
      obtain ⟨i1, i2⟩ := ih fun q hq => h1 q (List.mem_cons_of_mem _ hq)
      constructor
      · intro j o ho
        rw [List.flatMap_cons] at ho
        match j with
        | 0 => simp at ho; subst ho; simp [fits]
        | 1 =>
          simp at ho; subst ho
          rcases h1 p (by simp) with e | ⟨t, b, e⟩ <;> rw [e] <;> simp [fits]
        | j + 2 =>
          simp at ho
          have := i1 j o ho
          cases o with
          | typed t _ => cases t <;> simpa [fits] using this
          | _ => simpa [fits] using this
      · intro _
        have := i2 rfl
        simp only [List.flatMap_cons, List.length_append, List.length_cons, List.length_nil]
        omega

theorem access_notRust {h : Heap} {t : RefTy} {b : Nat} : access h t b ≠ .error .notRust := by
  unfold access
  split
  · split <;> simp
  · simp

theorem drop_notRust : ∀ (f : Nat) (h : Heap) (o : Own), Graph.drop f h o ≠ .error .notRust := by
  intro f
  induction f with
  | zero => intro h o e; cases e
  | succ f ih =>
    have hfold : ∀ (ks : List Own) (h : Heap), ks.foldlM (Graph.drop f) h ≠ .error .notRust := by
      intro ks
      induction ks with
      | nil => intro h e; cases e
      | cons o ks ihk =>
        intro h e
        rw [List.foldlM_cons] at e
        cases q : Graph.drop f h o with
        | error x => rw [q] at e; cases e; exact ih _ _ q
        | ok h' => rw [q] at e; exact ihk _ e
    have hdel : ∀ (h : Heap) (t : RefTy) (b : Nat), delete (Graph.drop f) h t b ≠ .error .notRust := by
      intro h t b e
      unfold delete at e
      cases q : access h t b with
      | error x => rw [q] at e; cases e; exact access_notRust q
      | ok n =>
        rw [q] at e
        simp only [bind, Except.bind] at e
        cases q2 : n.kids.foldlM (Graph.drop f) (h.set b { n with phase := .dying }) with
        | error x => rw [q2] at e; cases e; exact hfold _ _ q2
        | ok h' =>
          rw [q2] at e
          simp only at e
          split at e
          · split at e <;> cases e
          · cases e
    have hrc : ∀ (h : Heap) (t : RefTy) (b : Nat) (d : Int), refCounterUpdate h t b d ≠ .error .notRust := by
      intro h t b d e
      unfold refCounterUpdate at e
      cases q : access h t b with
      | error x => rw [q] at e; cases e; exact access_notRust q
      | ok n => rw [q] at e; cases e
    intro h o e
    cases o with
    | simple => cases e
    | any t b =>
      unfold Graph.drop at e
      cases q : refCounterUpdate h t b RELEASE with
      | error x => rw [q] at e; cases e; exact hrc _ _ _ _ q
      | ok x =>
        rw [q] at e
        simp only [bind, Except.bind] at e
        split at e
        · cases t
          · exact hdel _ _ _ e
          · exact hdel _ _ _ e
          · exact hdel _ _ _ e
          · cases e
        · cases e
    | typed t b =>
      unfold Graph.drop at e
      cases q : refCounterUpdate h t b RELEASE with
      | error x => rw [q] at e; cases e; exact hrc _ _ _ _ q
      | ok x =>
        rw [q] at e
        simp only [bind, Except.bind] at e
        split at e
        · exact hdel _ _ _ e
        · cases e
    | mutRef t b => exact hdel _ _ _ e

theorem takes_takeRoots : ∀ (is : List Nat) (rs os rs' : List Own),
    Takes rs is os rs' ↔ GMem.takeRoots rs is = some (os, rs') := by
  intro is
  induction is with
  | nil =>
    intro rs os rs'
    constructor
    · intro h; cases h; rfl
    · intro h; cases h; exact .nil
  | cons i is ih =>
    intro rs os rs'
    unfold GMem.takeRoots
    constructor
    · intro h
      cases h with
      | cons a o b h =>
        have h' := (ih _ _ _).1 h
        simp [List.eraseIdx_append_of_length_le, h']
    · intro h
      cases hr : rs[i]? with
      | none => rw [hr] at h; cases h
      | some o =>
        rw [hr] at h
        simp only [Option.map_eq_some_iff] at h
        obtain ⟨⟨os2, rs2⟩, e2, e3⟩ := h
        simp at e3
        obtain ⟨rfl, rfl⟩ := e3
        have hl := getElem?_lt hr
        have e1 : rs = rs.take i ++ o :: rs.drop (i + 1) := by
          rw [List.getElem?_eq_getElem hl] at hr
          cases hr
          simp
        have e4 : (rs.take i).length = i := by simp; omega
        have := Takes.cons (rs.take i) o (rs.drop (i + 1)) (is := is) (os := os2) (rs' := rs2)
          ((ih _ _ _).2 (by rw [← e2, List.eraseIdx_eq_take_drop_succ]))
        rw [e4, ← e1] at this
        exact this

/-- **C76**: a block can be made from the handles at the given positions exactly if they are what a
block of this type holds.  It has these items; the handles are gone and a `MutRef` of the block,
which did not exist before, is there. -/
theorem C76_new (m : GMem) (t : RefTy) (is : List Nat) :
    (∀ os rs, Takes m.roots is os rs → Holds t os →
      ∃ m' b, m.step (.new t is) = .ok m' ∧ m.heap[b]? = none ∧
        m'.heap[b]? = some ⟨t, 0, os, .live⟩ ∧ m'.roots = rs ++ [.mutRef t b]) ∧
    ((¬ ∃ os rs, Takes m.roots is os rs ∧ Holds t os) → m.step (.new t is) = .error .notRust) := by
  constructor
  · intro os rs h hh
    have hc : (os.zipIdx.all fun (o, j) => fits t j o) ∧ (t = .object → os.length % 2 = 0) := by
      refine ⟨List.all_eq_true.2 ?_, hh.toFits.2⟩
      rintro ⟨o, j⟩ hm
      exact hh.toFits.1 j o (List.mem_zipIdx_iff_getElem?.1 hm)
    dsimp only [GMem.step]
    rw [(takes_takeRoots _ _ _ _).1 h]
    simp only
    rw [if_pos hc]
    exact ⟨_, m.heap.length, rfl, by simp, by simp, rfl⟩
  · intro h
    dsimp only [GMem.step]
    cases ht : GMem.takeRoots m.roots is with
    | none => rfl
    | some x =>
      obtain ⟨os, rs⟩ := x
      simp only
      rw [if_neg]
      rintro ⟨hc, h2⟩
      refine h ⟨os, rs, (takes_takeRoots _ _ _ _).2 ht, ?_⟩
      exact FitsNode.holds (n := ⟨t, 0, os, .live⟩) ⟨fun j o ho =>
        List.all_eq_true.1 hc (o, j) (List.mem_zipIdx_iff_getElem?.2 ho), h2⟩

/-- **C76**: through every handle of a block each of its items can be read: the program gets a copy
of it.  Nothing is read beyond the last item. -/
theorem C76_get (ops : List GMem.Op) (m : GMem) (e : GMem.empty.run ops = .ok m) (i j : Nat) (o : Own)
    (b : Nat) (n : Node) (ho : m.roots[i]? = some o) (hb : o.target = some b) (hn : m.heap[b]? = some n) :
    ∃ m', m.step (.getItem i j) = .ok m' ∧ m'.roots = m.roots ++ (n.kids[j]?).toList := by
  have s := run_st e
  have hd : GMem.derefOwn m.heap o = .ok n := by
    have key : ∀ t, Own.link o = some (t, b) → access m.heap t b = .ok n := by
      intro t hl
      obtain ⟨n', h1, h2, h3⟩ := s.inv.ok o (List.mem_append.2 (.inl (List.mem_of_getElem? ho))) t b hl
      rw [hn] at h1; cases h1
      simp [access, hn, h2, h3]
    cases o with
    | simple => cases hb
    | any t c => cases hb; exact key t rfl
    | typed t c => cases hb; exact key t rfl
    | mutRef t c => cases hb; exact key t rfl
  dsimp only [GMem.step]
  rw [ho]
  simp only [hd, bind, Except.bind]
  cases hk : n.kids[j]? with
  | none => exact ⟨m, rfl, by simp⟩
  | some k =>
    have hlive : n.phase = .live := by
      obtain ⟨n', h1, h2⟩ := s.inv.linkLive (List.mem_append.2 (.inl (List.mem_of_getElem? ho))) hb
      rw [hn] at h1; cases h1; exact h2
    have hm : k ∈ edges m.heap := (mem_edges _ _).2 ⟨b, n, hn, hlive, List.mem_of_getElem? hk⟩
    obtain ⟨h', hc, -, -⟩ := s.inv.clone (List.mem_append.2 (.inr hm)) (s.inv.nomut k hm)
    exact ⟨⟨h', m.roots ++ [k]⟩, by simp [hc, pure, Except.pure], rfl⟩

/-- **C76**: a value can be stored as an item exactly if the block then still holds what its type
says. -/
theorem C76_store_typed (ops : List GMem.Op) (m : GMem) (e : GMem.empty.run ops = .ok m) (i j k : Nat)
    (t : RefTy) (b : Nat) (v : Own) (n : Node) (hi : m.roots[i]? = some (.mutRef t b))
    (hk : m.roots[k]? = some v) (hn : m.heap[b]? = some n) (hj : j < n.kids.length) :
    m.step (.setItem i j k) ≠ .error .notRust ↔ Holds n.ty (n.kids.set j v) := by
  have s := run_st e
  obtain ⟨n', h1, h2, h3⟩ := s.inv.ok (.mutRef t b)
    (List.mem_append.2 (.inl (List.mem_of_getElem? hi))) t b rfl
  rw [hn] at h1; cases h1
  have f := run_fits ops _ m (fun c n hc => by simp [GMem.empty] at hc) e b n hn
  constructor
  · intro h
    have ft : fits n.ty j v = true := by
      by_contra hf
      apply h
      dsimp only [GMem.step]
      rw [hi, hk]
      simp only
      rw [if_neg (by rw [← h3]; exact hf)]
    refine FitsNode.holds (n := ⟨n.ty, 0, n.kids.set j v, .live⟩) ⟨fun j' o ho => ?_, fun h' => ?_⟩
    · simp only at ho ⊢
      rw [List.getElem?_set] at ho
      split at ho
      · rename_i hj'
        cases ho; rw [← hj']; exact ft
      · exact f.1 j' o ho
    · simp only [List.length_set]; exact f.2 h'
  · intro hh he
    have ft := hh.toFits.1 j v (by simp [hj])
    rcases step_good s (.setItem i j k) with ⟨m', e', -⟩ | ⟨e', -⟩ | e'
    · rw [e'] at he; cases he
    · rw [e'] at he; cases he
    · clear e'
      dsimp only [GMem.step] at he
      rw [hi, hk] at he
      simp only at he
      rw [if_pos (by rw [← h3]; exact ft)] at he
      have ha : access m.heap t b = .ok n := by simp [access, hn, h2, h3]
      simp only [ha, bind, Except.bind] at he
      rw [List.getElem?_eq_getElem hj] at he
      simp only at he
      cases q : Graph.drop m.fuel (m.heap.set b { n with kids := n.kids.set j v }) n.kids[j] with
      | error x => rw [q] at he; cases he; exact drop_notRust _ _ _ q
      | ok h' => rw [q] at he; cases he

/-- **C76**: a store replaces exactly the item at the given index.  The handle of the stored value is
gone. -/
theorem C76_store (ops : List GMem.Op) (m m' : GMem) (e : GMem.empty.run ops = .ok m) (i j k : Nat)
    (t : RefTy) (b : Nat) (v : Own) (n : Node) (hi : m.roots[i]? = some (.mutRef t b))
    (hk : m.roots[k]? = some v) (hn : m.heap[b]? = some n) (hj : j < n.kids.length)
    (h : m.step (.setItem i j k) = .ok m') :
    (∃ n', m'.heap[b]? = some n' ∧ n'.phase = .live ∧ n'.ty = n.ty ∧ n'.kids = n.kids.set j v) ∧
    m'.roots = m.roots.eraseIdx k := by
  have s := run_st e
  have s' := step_st s h
  dsimp only [GMem.step] at h
  rw [hi, hk] at h
  simp only at h
  split at h
  · rename_i ft
    unfold access at h
    rw [hn] at h
    simp only at h
    split at h
    · simp only [bind, Except.bind] at h
      rw [List.getElem?_eq_getElem hj] at h
      simp only at h
      cases q : Graph.drop m.fuel (m.heap.set b { n with kids := n.kids.set j v }) n.kids[j] with
      | error x => rw [q] at h; cases h
      | ok h' =>
        rw [q] at h; cases h
        refine ⟨?_, rfl⟩
        obtain ⟨n', e', t', k'⟩ := (drop_same _ _ _ _ q).symm.pt b { n with kids := n.kids.set j v }
          (by rw [getElem?_set_of hn, if_pos rfl])
        refine ⟨n', e', ?_, t'.symm, k'.symm⟩
        have hik : i ≠ k := by
          rintro rfl
          rw [hi] at hk; cases hk
          have := fits_nomut ft
          cases this
        have hm : Own.mutRef t b ∈ m.roots.eraseIdx k :=
          List.mem_eraseIdx_iff_getElem?.2 ⟨i, hik, hi⟩
        obtain ⟨n2, h1, h2⟩ := s'.inv.linkLive (o := .mutRef t b) (List.mem_append.2 (.inl hm)) rfl
        rw [e'] at h1; cases h1; exact h2
    · cases h
  · cases h

/-- an object with one property; a value of an array replaces the value of the property; its key
cannot be replaced by the array -/
example : ∃ m, GMem.empty.run [.new .string [], .toRef 0, .value, .new .object [0, 0], .new .array [],
      .toRef 1, .toAny .array 1] = .ok m ∧
    m.roots = [.mutRef .object 1, .any .array 2] ∧
    m.heap[1]? = some ⟨.object, 0, [.typed .string 0, .simple], .live⟩ ∧
    Holds .object [.typed .string 0, .simple] ∧ Holds .object [.typed .string 0, .any .array 2] ∧
    m.step (.setItem 0 1 1) = .ok ⟨[⟨.string, 0, [], .live⟩,
      ⟨.object, 0, [.typed .string 0, .any .array 2], .live⟩, ⟨.array, 0, [], .live⟩],
      [.mutRef .object 1]⟩ ∧
    m.step (.setItem 0 0 1) = .error .notRust := by
  refine ⟨⟨[⟨.string, 0, [], .live⟩, ⟨.object, 0, [.typed .string 0, .simple], .live⟩,
    ⟨.array, 0, [], .live⟩], [.mutRef .object 1, .any .array 2]⟩, by decide, by decide, by decide,
    ⟨[(0, .simple)], ?_, rfl⟩, ⟨[(0, .any .array 2)], ?_, rfl⟩, by decide, by decide⟩
  · intro p hp; simp at hp; subst hp; exact .inl rfl
  · intro p hp; simp at hp; subst hp; exact .inr ⟨_, _, rfl⟩

/-- the program of the example above takes the handles 0 and 0 of a string and a number -/
example : Takes [.typed .string 0, .simple] [0, 0] [.typed .string 0, .simple] [] :=
  .cons [] _ _ (.cons [] _ _ .nil)

end Nanvm
