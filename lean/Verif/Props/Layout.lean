import Verif.Lemmas.Layout
import Mathlib.Algebra.BigOperators.Group.List.Basic
/-! # C25–C28: layouts, arena, local manager, flexible arrays -/
namespace Nanvm

/-- A byte range `[p, p+n)` -/
def Disjoint (p n q m : Nat) : Prop := p + n ≤ q ∨ q + m ≤ p

instance (p n q m : Nat) : Decidable (Disjoint p n q m) := by unfold Disjoint; infer_instance

/-- `a` is a power of two -/
def Pow2 (a : Nat) : Prop := ∃ k, a = 2 ^ k

/-! ## C27 -/

/-- `align_to(i, a)` is the least multiple of `a` that is not below `i`. -/
theorem C27_align_to (i a : Nat) (ha : Pow2 a) (h : i + a ≤ 2 ^ 64) :
    ∃ r, alignTo i a = .ok r ∧ a ∣ r ∧ i ≤ r ∧ ∀ m, a ∣ m → i ≤ m → r ≤ m := by
  obtain ⟨r, e, h1, h2, -, h4⟩ := alignTo_spec i a ha h
  exact ⟨r, e, h1, h2, h4⟩

/-- The adjacent field is placed at the first aligned offset behind the first field, at every
base address of the layout's alignment; the total layout ends with the adjacent field. -/
theorem C27_field_layout (t a : TypeInfo) (adj n : Nat) (ht : Pow2 t.align) (hadj : Pow2 adj)
    (hle : a.align ≤ adj) (hsz : t.size + adj + n ≤ 2 ^ 64) :
    ∃ f l, FieldLayout.alignTo t a adj = .ok f ∧ f.layout n = .ok l ∧ Pow2 l.align ∧
      ∀ base, l.align ∣ base →
        t.align ∣ base ∧ adj ∣ f.toAdjacent base ∧ base + t.size ≤ f.toAdjacent base ∧
        f.toAdjacent base + n = base + l.size ∧ f.fromAdjacent (f.toAdjacent base) = base ∧
        ∀ q, adj ∣ q → base + t.size ≤ q → f.toAdjacent base ≤ q := by
  obtain ⟨f, e, h1, h2, hor, h3, h4, h5, h6⟩ := fieldLayout_ok t a adj ht hadj hle (by omega)
  refine ⟨f, _, e, layout_ok f n (by omega), ?_, ?_⟩
  · rcases hor with h | h
    · rw [h]; exact ht
    · rw [h]; exact hadj
  · intro base hb
    have hadjb : adj ∣ base := dvd_trans h2 hb
    refine ⟨dvd_trans h1 hb, dvd_add hadjb h3, ?_, ?_, ?_, ?_⟩
    · show base + t.size ≤ base + f.size; omega
    · show base + f.size + n = base + (f.size + n); omega
    · show base + f.size - f.size = base; omega
    · intro q hq hle
      have := h6 (q - base) ((Nat.dvd_sub_iff_left (by omega) hadjb).2 hq) (by omega)
      show base + f.size ≤ q; omega

/-- The assertions reject exactly the alignments that are not powers of two or too small. -/
theorem C27_asserts (t a : TypeInfo) (adj : Nat) :
    FieldLayout.alignTo t a adj = .error (.panic .assert) ↔ (¬ Pow2 adj ∨ adj < a.align) := by
  have hp := isPow2_iff adj
  unfold FieldLayout.alignTo
  cases hb : isPow2 adj
  · simp only [Bool.not_false, if_true, bind, Except.bind, throw, throwThe, MonadExceptOf.throw]
    refine ⟨fun _ => Or.inl (fun h => ?_), fun _ => by trivial⟩
    rw [hp.2 h] at hb; cases hb
  · have hadj : Pow2 adj := hp.1 hb
    by_cases hle : adj ≥ a.align
    · simp only [Bool.not_true, Bool.false_eq_true, if_false, decide_eq_true hle, bind, Except.bind,
        throw, throwThe, MonadExceptOf.throw, pure, Except.pure]
      constructor
      · intro h
        exfalso
        revert h
        unfold alignTo subU addU
        simp only [bind, Except.bind]
        split
        · rename_i heq
          split at heq
          · rename_i heq'
            split at heq'
            · cases heq'
            · cases heq'; intro h; cases heq; cases h
          · split at heq
            · rename_i heq'
              split at heq'
              · cases heq'
              · cases heq'; intro h; cases heq; cases h
            · cases heq
        · intro h; cases h
      · rintro (h | h)
        · exact absurd hadj h
        · omega
    · simp only [Bool.not_true, Bool.false_eq_true, if_false, decide_eq_false hle, Bool.not_false,
        if_true, bind, Except.bind, throw, throwThe, MonadExceptOf.throw]
      exact ⟨fun _ => Or.inr (by omega), fun _ => by trivial⟩

example : FieldLayout.alignTo ⟨3, 1⟩ ⟨1, 1⟩ 4 = .ok ⟨4, 4⟩ ∧
    (FieldLayout.mk 4 4).layout 7 = .ok ⟨11, 4⟩ ∧ Pow2 4 := ⟨by decide, by decide, 2, rfl⟩

/-! ## C25 -/

/-- a request that a Rust `Layout` allows -/
def Layout.Valid (l : Layout) : Prop := Pow2 l.align ∧ l.size + l.align ≤ 2 ^ 63

/-- An arena request succeeds exactly when it fits behind the blocks handed out so far; it then
returns the first aligned address.  A request that does not fit panics. -/
theorem C25_alloc (a : Arena) (l : Layout) (hl : l.Valid) (ha : a.start ≤ a.stop)
    (hs : a.stop < 2 ^ 63) :
    ∃ p, l.align ∣ p ∧ a.start ≤ p ∧ (∀ q, l.align ∣ q → a.start ≤ q → p ≤ q) ∧
      (p + l.size ≤ a.stop → a.alloc l = .ok (p, ⟨p + l.size, a.stop⟩)) ∧
      (a.stop < p + l.size → a.alloc l = .error (.panic .explicit)) := by
  obtain ⟨⟨k, hk⟩, hsz⟩ := hl
  have hpos : 0 < l.align := by rw [hk]; positivity
  obtain ⟨h1, h2, h3⟩ := alignOffset_spec a.start l.align hpos
  have hw1 : byteAdd a.start (alignOffset a.start l.align) = a.start + alignOffset a.start l.align :=
    Nat.mod_eq_of_lt (by omega)
  have hw2 : byteAdd (a.start + alignOffset a.start l.align) l.size =
      a.start + alignOffset a.start l.align + l.size := Nat.mod_eq_of_lt (by omega)
  refine ⟨a.start + alignOffset a.start l.align, h1, by omega, h3, ?_, ?_⟩
  · intro h
    unfold Arena.alloc
    simp only [hw1, hw2]
    rw [if_neg (by omega)]
  · intro h
    unfold Arena.alloc
    simp only [hw1, hw2]
    rw [if_pos (by omega)]

/-- Whatever is requested, in whatever order, and however often a request fails in between: all
blocks handed out are aligned, inside the buffer and pairwise disjoint. -/
theorem C25_blocks (base len : Nat) (h : base + len < 2 ^ 63) (reqs : List Layout)
    (hr : ∀ l ∈ reqs, l.Valid) :
    let blocks := ((Arena.new base len).run reqs).1
    (∀ b ∈ blocks, b.2 ∈ reqs ∧ b.2.align ∣ b.1 ∧ base ≤ b.1 ∧ b.1 + b.2.size ≤ base + len) ∧
    blocks.Pairwise fun x y => Disjoint x.1 x.2.size y.1 y.2.size := by
  have key : ∀ (reqs : List Layout) (a : Arena), (∀ l ∈ reqs, l.Valid) → a.start ≤ a.stop →
      a.stop < 2 ^ 63 →
      (∀ b ∈ (a.run reqs).1, b.2 ∈ reqs ∧ b.2.align ∣ b.1 ∧ a.start ≤ b.1 ∧
        b.1 + b.2.size ≤ a.stop) ∧
      (a.run reqs).1.Pairwise fun x y => Disjoint x.1 x.2.size y.1 y.2.size := by
    intro reqs
    induction reqs with
    | nil => intro a _ _ _; exact ⟨by simp [Arena.run], by simp [Arena.run]⟩
    | cons l ls ih =>
      intro a hr ha hs
      obtain ⟨p, h1, h2, -, hok, herr⟩ := C25_alloc a l (hr l (by simp)) ha hs
      rcases Nat.lt_or_ge a.stop (p + l.size) with hf | hf
      · have e : (a.run (l :: ls)).1 = (a.run ls).1 := by
          conv => lhs; unfold Arena.run
          rw [herr hf]
        rw [e]
        obtain ⟨i1, i2⟩ := ih a (fun l hl => hr l (by simp [hl])) ha hs
        exact ⟨fun b hb => ⟨by simp [(i1 b hb).1], (i1 b hb).2⟩, i2⟩
      · have e : (a.run (l :: ls)).1 = (p, l) :: (Arena.run ⟨p + l.size, a.stop⟩ ls).1 := by
          conv => lhs; unfold Arena.run
          rw [hok hf]
        rw [e]
        obtain ⟨i1, i2⟩ := ih ⟨p + l.size, a.stop⟩ (fun l hl => hr l (by simp [hl])) hf hs
        constructor
        · intro b hb
          rcases List.mem_cons.1 hb with rfl | hb
          · exact ⟨by simp, h1, h2, hf⟩
          · obtain ⟨j1, j2, j3, j4⟩ := i1 b hb
            dsimp only at j3 j4
            exact ⟨by simp [j1], j2, by omega, j4⟩
        · refine List.Pairwise.cons (fun b hb => ?_) i2
          have := (i1 b hb).2.2.1
          exact Or.inl this
  exact key reqs (Arena.new base len) hr (Nat.le_add_right _ _) h

example : ((Arena.new 1001 20).run [⟨1, 1⟩, ⟨4, 4⟩, ⟨100, 8⟩, ⟨8, 8⟩]).1 =
    [(1001, ⟨1, 1⟩), (1004, ⟨4, 4⟩), (1008, ⟨8, 8⟩)] := by decide

/-! ## C26 -/

/-- a block handed out by a `Local` manager and not yet released -/
structure LiveBlock where
  block : Nat
  /-- the layout requested -/
  layout : Layout
  owner : Nat
  /-- what was obtained from the global allocator -/
  base : Nat
  full : Layout
deriving DecidableEq

/-- Histories: any interleaving of allocations by any managers and releases.  The global
allocator returns memory that overlaps no live block (any such answer is allowed); a block is
released with the layout with which it was requested. -/
inductive LocalHistory : LocalMem → List LiveBlock → Prop
  | start (word : Nat → Option Nat) : LocalHistory ⟨fun _ => 0, fun _ => 0, word, []⟩ []
  | alloc {m m' : LocalMem} {L self p b block full} (h : LocalHistory m L) (hb : b.Valid)
      (e : m.alloc self p b = .ok (block, m')) (hfull : m'.live = (p, full) :: m.live)
      (fresh : ∀ x ∈ m.live, Disjoint p full.size x.1 x.2.size) :
      LocalHistory m' (⟨block, b, self, p, full⟩ :: L)
  | dealloc {m m' : LocalMem} {L x} (h : LocalHistory m L) (hx : x ∈ L)
      (e : m.dealloc x.block x.layout = some (.ok m')) : LocalHistory m' (L.erase x)

theorem localLayout_ok (b : Layout) (hb : b.Valid) : ∃ h l, localLayout b = .ok (h, l) ∧
    8 ≤ l.size ∧ l.size = h.size + b.size ∧ b.align ∣ h.size ∧ b.align ∣ l.align ∧ 8 ∣ l.align ∧
    8 ≤ h.size := by
  obtain ⟨hp, hs⟩ := hb
  have h1 : 1 ≤ b.align := by obtain ⟨k, hk⟩ := hp; rw [hk]; exact Nat.one_le_two_pow
  obtain ⟨f, e, g1, g2, -, g3, g4, g5, -⟩ := fieldLayout_ok ptrType byteType b.align ⟨3, rfl⟩ hp h1
    (by show 8 + b.align ≤ _; omega)
  have g4' : 8 ≤ f.size := g4
  have g5' : f.size < 8 + b.align := g5
  refine ⟨f, ⟨f.size + b.size, f.align⟩, ?_, by dsimp only; omega, rfl, g3, g2, g1, g4⟩
  unfold localLayout
  rw [e]
  simp only [bind, Except.bind, layout_ok f b.size (by omega)]
  rfl

/-- what the invariant says about one live block -/
def LiveBlock.Ok (m : LocalMem) (x : LiveBlock) : Prop :=
  ∃ h, localLayout x.layout = .ok (h, x.full) ∧ x.block = x.base + h.size ∧ x.layout.Valid ∧
    m.word x.base = some x.owner

theorem local_invariant {m : LocalMem} {L : List LiveBlock} (h : LocalHistory m L) :
    m.live = L.map (fun x => (x.base, x.full)) ∧ (∀ x ∈ L, x.Ok m) ∧
    (∀ i, m.counter i = ((L.filter fun x => x.owner = i).length : Int)) ∧
    (∀ i, m.size i = ((L.filter fun x => x.owner = i).map fun x => x.full.size).sum) ∧
    L.Pairwise (fun x y => Disjoint x.base x.full.size y.base y.full.size) := by
  induction h with
  | start => simp
  | @alloc m m' L self p b block full h hb e hfull fresh ih =>
    obtain ⟨i1, i2, i3, i4, i5⟩ := ih
    obtain ⟨hl, l, el, l8, -⟩ := localLayout_ok b hb
    unfold LocalMem.alloc at e
    rw [el] at e
    simp only [bind, Except.bind] at e
    unfold addU at e
    split at e
    · cases e
    rename_i sz hsz
    split at hsz
    swap
    · cases hsz
    cases hsz
    simp only [pure, Except.pure, Except.ok.injEq, Prod.mk.injEq] at e
    obtain ⟨rfl, rfl⟩ := e
    simp only [List.cons.injEq, Prod.mk.injEq, true_and, and_true] at hfull
    subst hfull
    refine ⟨?_, ?_, ?_, ?_, ?_⟩
    · simp [i1]
    · intro x hx
      rcases List.mem_cons.1 hx with rfl | hx
      · exact ⟨hl, el, rfl, hb, by simp⟩
      · obtain ⟨h', a1, a2, a3, a4⟩ := i2 x hx
        refine ⟨h', a1, a2, a3, ?_⟩
        have hd := fresh (x.base, x.full) (by rw [i1]; exact List.mem_map_of_mem hx)
        obtain ⟨h'', l'', e'', q8, -⟩ := localLayout_ok x.layout a3
        rw [a1] at e''
        cases e''
        have : x.base ≠ p := by
          rcases hd with hd | hd <;> dsimp only at hd <;> omega
        simp [this, a4]
    · intro i
      by_cases hi : i = self
      · subst hi; simp [i3]
      · simp [i3, hi, Ne.symm hi]
    · intro i
      by_cases hi : i = self
      · subst hi; simp [i4, Nat.add_comm]
      · simp [i4, hi, Ne.symm hi]
    · refine List.Pairwise.cons ?_ i5
      intro y hy
      exact fresh (y.base, y.full) (by rw [i1]; exact List.mem_map_of_mem hy)
  | @dealloc m m' L x h hx e ih =>
    obtain ⟨i1, i2, i3, i4, i5⟩ := ih
    obtain ⟨hl, a1, a2, a3, a4⟩ := i2 x hx
    have hp : hl.fromAdjacent x.block = x.base := by
      unfold FieldLayout.fromAdjacent; omega
    unfold LocalMem.dealloc at e
    rw [a1] at e
    simp only [hp, a4] at e
    split at e
    · cases e
    rename_i sz hsz
    split at e
    swap
    · cases e
    cases e
    unfold subU at hsz
    split at hsz
    swap
    · cases hsz
    cases hsz
    have hperm := List.perm_cons_erase hx
    refine ⟨?_, ?_, ?_, ?_, ?_⟩
    · -- the first pair with this base and layout is that of `x`
      dsimp only
      rw [i1]
      have : ∀ (L : List LiveBlock), x ∈ L → (∀ y ∈ L, 8 ≤ y.full.size) →
          L.Pairwise (fun x y => Disjoint x.base x.full.size y.base y.full.size) →
          (L.map fun x => (x.base, x.full)).erase (x.base, x.full) =
            (L.erase x).map fun x => (x.base, x.full) := by
        intro L
        induction L with
        | nil => intro h; cases h
        | cons y ys ih =>
          intro hx h8 hp
          by_cases hxy : y = x
          · subst hxy; simp
          · have hx' : x ∈ ys := by
              rcases List.mem_cons.1 hx with h | h
              · exact absurd h.symm hxy
              · exact h
            have hne : (y.base, y.full) ≠ (x.base, x.full) := by
              intro he
              have hd := (List.pairwise_cons.1 hp).1 x hx'
              have h1 := congrArg Prod.fst he
              have h8y := h8 y (by simp)
              have h8x := h8 x (by simp [hx'])
              dsimp only at h1
              unfold Disjoint at hd; omega
            rw [List.map_cons, List.erase_cons_tail (by simpa using hne),
              List.erase_cons_tail (by simpa using hxy), List.map_cons,
              ih hx' (fun z hz => h8 z (by simp [hz])) (List.pairwise_cons.1 hp).2]
      apply this L hx _ i5
      intro y hy
      obtain ⟨h', b1, -, b3, -⟩ := i2 y hy
      obtain ⟨h'', l'', e'', q8, -⟩ := localLayout_ok y.layout b3
      rw [b1] at e''; cases e''; exact q8
    · intro y hy
      obtain ⟨h', b1, b2, b3, b4⟩ := i2 y (List.mem_of_mem_erase hy)
      exact ⟨h', b1, b2, b3, b4⟩
    · intro i
      have := (hperm.filter fun y => decide (y.owner = i)).length_eq
      dsimp only
      rw [i3, this]
      by_cases hi : x.owner = i
      · subst hi; simp
      · simp [hi, Ne.symm hi]
    · intro i
      have := ((hperm.filter fun y => decide (y.owner = i)).map fun y => y.full.size).sum_eq
      dsimp only
      by_cases hi : x.owner = i
      · subst hi
        rw [if_pos rfl, i4, this]; simp
      · rw [if_neg (Ne.symm hi), i4, this]; simp [hi]
    · exact i5.sublist List.erase_sublist

/-- At all times the counter of a manager is the number of its live blocks and its size is the
total size of the memory obtained for them. -/
theorem C26_accounting {m : LocalMem} {L : List LiveBlock} (h : LocalHistory m L) (i : Nat) :
    m.counter i = ((L.filter fun x => x.owner = i).length : Int) ∧
    m.size i = ((L.filter fun x => x.owner = i).map fun x => x.full.size).sum := by
  obtain ⟨-, -, h3, h4, -⟩ := local_invariant h
  exact ⟨h3 i, h4 i⟩

/-- Releasing a live block never panics, and returns to the global allocator the very base address
and layout obtained for it; nothing else is returned. -/
theorem C26_dealloc {m : LocalMem} {L : List LiveBlock} (h : LocalHistory m L) {x : LiveBlock}
    (hx : x ∈ L) : ∃ m', m.dealloc x.block x.layout = some (.ok m') ∧ (x.base, x.full) ∈ m.live ∧
      m'.live = m.live.erase (x.base, x.full) ∧
      m'.counter x.owner = m.counter x.owner - 1 ∧ m'.size x.owner + x.full.size = m.size x.owner ∧
      ∀ i, i ≠ x.owner → m'.counter i = m.counter i ∧ m'.size i = m.size i := by
  obtain ⟨i1, i2, -, i4, -⟩ := local_invariant h
  obtain ⟨hl, a1, a2, a3, a4⟩ := i2 x hx
  have hp : hl.fromAdjacent x.block = x.base := by
    unfold FieldLayout.fromAdjacent; omega
  have hmem : (x.base, x.full) ∈ m.live := by rw [i1]; exact List.mem_map_of_mem hx
  have hle : x.full.size ≤ m.size x.owner := by
    rw [i4]
    exact List.single_le_sum (by simp) _ (List.mem_map_of_mem (by simp [hx]))
  refine ⟨{ counter := fun i => if i = x.owner then m.counter i - 1 else m.counter i
            size := fun i => if i = x.owner then m.size x.owner - x.full.size else m.size i
            word := m.word
            live := m.live.erase (x.base, x.full) }, ?_, hmem, rfl, by simp, ?_, ?_⟩
  · unfold LocalMem.dealloc
    rw [a1]
    simp only [hp, a4, subU, if_pos hle]
    rw [if_pos hmem]
  · simp; omega
  · intro i hi; simp [hi]

/-- An allocation by a `Local` manager fails only if the total would not fit in `usize`; the block
is aligned as requested when the global allocator's block is, and lies inside it. -/
theorem C26_alloc (m : LocalMem) (self p : Nat) (b : Layout) (hb : b.Valid) :
    ∃ h full, (m.size self + full.size < 2 ^ 64 → ∃ m', m.alloc self p b = .ok (p + h, m') ∧
        m'.live = (p, full) :: m.live) ∧
      8 ≤ h ∧ p + h + b.size = p + full.size ∧ (full.align ∣ p → b.align ∣ p + h ∧ 8 ∣ p) := by
  obtain ⟨f, l, e, h1, h2, h3, h4, h5, h6⟩ := localLayout_ok b hb
  refine ⟨f.size, l, ?_, h6, by omega, fun hd => ⟨dvd_add (dvd_trans h4 hd) h3, dvd_trans h5 hd⟩⟩
  intro hs
  refine ⟨{ counter := fun i => if i = self then m.counter i + 1 else m.counter i
            size := fun i => if i = self then m.size self + l.size else m.size i
            word := fun a => if a = p then some self else m.word a
            live := (p, l) :: m.live }, ?_, rfl⟩
  unfold LocalMem.alloc addU
  rw [e]
  simp only [bind, Except.bind, if_pos hs, pure, Except.pure]
  rfl

/-- After all blocks are released both figures are zero and the global allocator holds nothing. -/
theorem C26_all_released {m : LocalMem} (h : LocalHistory m []) (i : Nat) :
    m.counter i = 0 ∧ m.size i = 0 ∧ m.live = [] := by
  obtain ⟨h1, -, h3, h4, -⟩ := local_invariant h
  exact ⟨by simpa using h3 i, by simpa using h4 i, by simpa using h1⟩

/-- two managers, three blocks, one released -/
example : ∃ m L, LocalHistory m L ∧ L.length = 2 ∧ m.counter 0 = 1 ∧ m.size 0 = 20 ∧
    m.size 1 = 32 := by
  have v : ∀ n, n ≤ 100 → (Layout.mk n 8).Valid := fun n hn => ⟨⟨3, rfl⟩, by dsimp only; omega⟩
  have h0 := LocalHistory.start (fun _ => none)
  have h1 := h0.alloc (self := 0) (p := 1000) (b := ⟨12, 8⟩) (block := 1008) (full := ⟨20, 8⟩)
    (v 12 (by omega)) rfl rfl (by decide)
  have h2 := h1.alloc (self := 1) (p := 2000) (b := ⟨24, 8⟩) (block := 2008) (full := ⟨32, 8⟩)
    (v 24 (by omega)) rfl rfl (by decide)
  have h3 := h2.alloc (self := 0) (p := 1024) (b := ⟨12, 8⟩) (block := 1032) (full := ⟨20, 8⟩)
    (v 12 (by omega)) rfl rfl (by decide)
  have h4 := h3.dealloc (x := ⟨1008, ⟨12, 8⟩, 0, 1000, ⟨20, 8⟩⟩) (by decide) rfl
  exact ⟨_, _, h4, by decide, by decide, by decide, by decide⟩

/-! ## C28 -/

/-- Construction writes exactly the first `n` items of the iterator, in order, and `items()`
returns them; it panics exactly when the iterator ends early. -/
theorem C28_construct {α : Type} (n : Nat) (src : Nat → Option α) :
    (∀ l : List α, l.length = n → (∀ i, (h : i < n) → src i = l[i]?) →
      ∃ f, construct n src = .ok f ∧ f.len = n ∧ f.read = some l) ∧
    ((∃ i < n, src i = none) → construct n src = .error (.panic .unwrap)) := by
  constructor
  · intro l hl hs
    have key : ∀ (l : List α) (k : Nat), (∀ i, i < l.length → src (k + i) = l[i]?) →
        constructLoop src l.length k = .ok l := by
      intro l
      induction l with
      | nil => intro k _; rfl
      | cons a l ih =>
        intro k h
        have h0 := h 0 (by simp)
        simp only [Nat.add_zero, List.getElem?_cons_zero] at h0
        rw [List.length_cons]
        unfold constructLoop
        rw [h0]
        dsimp only
        rw [ih (k + 1) (fun i hi => by
          have := h (i + 1) (by simp; omega)
          rw [List.getElem?_cons_succ] at this
          rw [← this]; congr 1; omega)]
        rfl
    subst hl
    refine ⟨⟨l.length, l.map some⟩, ?_, rfl, ?_⟩
    · unfold construct
      rw [key l 0 (fun i hi => by rw [Nat.zero_add]; exact hs i hi)]; rfl
    · unfold FlexArray.read
      dsimp only
      rw [List.take_of_length_le (by simp)]
      have : ∀ l : List α, (l.map some).mapM id = some l := by
        intro l
        induction l with
        | nil => rfl
        | cons a l ih => rw [List.map_cons, List.mapM_cons, ih]; rfl
      exact this l
  · rintro ⟨i, hi, hs⟩
    have key : ∀ (n k i : Nat), i < n → src (k + i) = none →
        constructLoop src n k = .error (.panic .unwrap) := by
      intro n
      induction n with
      | zero => intro k i h; omega
      | succ n ih =>
        intro k i hi hs
        unfold constructLoop
        cases h : src k with
        | none => rfl
        | some a =>
          cases i with
          | zero => rw [Nat.add_zero, h] at hs; cases hs
          | succ i =>
            dsimp only
            rw [ih (k + 1) i (by omega) (by rw [← hs]; congr 1; omega)]; rfl
    unfold construct
    rw [key n 0 i hi (by rw [Nat.zero_add]; exact hs)]; rfl

/-- Dropping the array drops each item exactly once, in order, and then the header once. -/
theorem C28_drop {α : Type} (n : Nat) (src : Nat → Option α) (f : FlexArray α)
    (h : construct n src = .ok f) :
    ∃ ev, f.objectDrop = some ev ∧ ev.length = n + 1 ∧ ev[n]? = some .header ∧
      ∀ i, i < n → ev[i]? = (src i).map .item := by
  have hsome : ∀ i < n, src i ≠ none := by
    intro i hi hn
    rw [(C28_construct n src).2 ⟨i, hi, hn⟩] at h
    cases h
  -- the list of items
  obtain ⟨l, hl, hs⟩ : ∃ l : List α, l.length = n ∧ ∀ i, (h : i < n) → src i = l[i]? := by
    clear h f
    induction n with
    | zero => exact ⟨[], rfl, by omega⟩
    | succ n ih =>
      obtain ⟨l, hl, hs⟩ := ih (fun i hi => hsome i (by omega))
      obtain ⟨a, ha⟩ := Option.ne_none_iff_exists'.1 (hsome n (by omega))
      refine ⟨l ++ [a], by simp [hl], fun i hi => ?_⟩
      rcases Nat.lt_or_ge i n with h | h
      · rw [List.getElem?_append_left (by omega)]; exact hs i h
      · have : i = n := by omega
        subst this
        rw [← hl, List.getElem?_append_right (by omega)]; simp [hl, ha]
  obtain ⟨f', e, -, hr⟩ := (C28_construct n src).1 l hl hs
  rw [h] at e
  cases e
  refine ⟨l.map .item ++ [.header], by unfold FlexArray.objectDrop; rw [hr]; rfl, by simp [hl], ?_, ?_⟩
  · rw [List.getElem?_append_right (by simp [hl])]; simp [hl]
  · intro i hi
    rw [List.getElem?_append_left (by simp [hl]; omega), List.getElem?_map, hs i hi]

/-- The block allocated for a flexible array with `n` items holds block header, array header and
the `n` items, in that order, aligned and without overlap, and nothing behind them.  The layout
passed at release is computed from the same length, hence equal. -/
theorem C28_layout (h t i : TypeInfo) (n : Nat) (hh : Pow2 h.align) (ht : Pow2 t.align)
    (hi : Pow2 i.align) (hta : t.align ≤ 2 ^ 32) (hia : i.align ≤ 2 ^ 32)
    (hsz : h.size + t.size + n * i.size ≤ 2 ^ 62) :
    ∃ bt fh ff size l, flexBlockType h t i = .ok bt ∧ bt.headerLayout = .ok fh ∧
      flexHeaderLayout t i = .ok ff ∧ flexibleSize t i n = .ok size ∧ bt.blockLayout size = .ok l ∧
      ∀ base, l.align ∣ base →
        h.align ∣ base ∧ t.align ∣ fh.toAdjacent base ∧
        i.align ∣ ff.toAdjacent (fh.toAdjacent base) ∧
        base + h.size ≤ fh.toAdjacent base ∧
        fh.toAdjacent base + t.size ≤ ff.toAdjacent (fh.toAdjacent base) ∧
        ff.toAdjacent (fh.toAdjacent base) + n * i.size = base + l.size := by
  obtain ⟨ff, e1, a1, a2, hor, a3, a4, a5, -⟩ := fieldLayout_ok t i i.align ht hi (le_refl _) (by omega)
  have hfp : Pow2 ff.align := by
    rcases hor with hh | hh
    · rw [hh]; exact ht
    · rw [hh]; exact hi
  have hfa : ff.align ≤ 2 ^ 32 := by rcases hor with hh | hh <;> omega
  have hta' : t.align ≤ ff.align := by
    apply Nat.le_of_dvd _ a1
    obtain ⟨k, hk⟩ := hfp; rw [hk]; positivity
  obtain ⟨fh, e2, b1, b2, -, b3, b4, b5, -⟩ := fieldLayout_ok h t ff.align hh hfp hta' (by omega)
  refine ⟨⟨h, t, ff.align⟩, fh, ff, ff.size + n * i.size, ⟨fh.size + (ff.size + n * i.size), fh.align⟩,
    ?_, e2, e1, ?_, ?_, ?_⟩
  · unfold flexBlockType flexHeaderLayout; rw [e1]; rfl
  · unfold flexibleSize flexHeaderLayout mulU addU
    rw [e1]
    simp only [bind, Except.bind]
    rw [if_pos (by omega)]
    dsimp only
    rw [if_pos (by omega)]
  · unfold BlockType.blockLayout BlockType.headerLayout
    rw [e2]
    exact layout_ok fh _ (by omega)
  · intro base hb
    dsimp only at hb
    have hbf : ff.align ∣ base := dvd_trans b2 hb
    have hbo : ff.align ∣ base + fh.size := dvd_add hbf b3
    refine ⟨dvd_trans b1 hb, dvd_trans a1 hbo, dvd_add (dvd_trans a2 hbo) a3, ?_, ?_, ?_⟩
    all_goals unfold FieldLayout.toAdjacent
    all_goals (try dsimp only)
    all_goals omega

example : construct 3 (fun i => [7, 8, 9, 10][i]?) = .ok ⟨3, [some 7, some 8, some 9]⟩ ∧
    flexBlockType ⟨8, 8⟩ ⟨2, 2⟩ ⟨16, 16⟩ = .ok ⟨⟨8, 8⟩, ⟨2, 2⟩, 16⟩ ∧
    flexibleSize ⟨2, 2⟩ ⟨16, 16⟩ 3 = .ok 64 ∧
    BlockType.blockLayout ⟨⟨8, 8⟩, ⟨2, 2⟩, 16⟩ 64 = .ok ⟨80, 16⟩ := by
  refine ⟨rfl, by decide, by decide, by decide⟩

end Nanvm
