import Verif.Lemmas.MemWord
import Verif.Lemmas.GraphFrozen
import Mathlib.Data.List.Pairwise
/-! Lemmas for C80: memory stores the graph of blocks -/
namespace Nanvm
open Graph

/-- how an owned value is stored; `φ` gives the addresses of the blocks -/
inductive Enc (φ : Nat → Nat) : Own → Hnd → Prop
  | simple {w} : isRef w = false → Enc φ .simple (.any w)
  | any {t b} : Enc φ (.any t b) (.any (anyWord t (φ b)))
  | typed {t b} : Enc φ (.typed t b) (.ref t (φ b))
  | mutRef {t b} : Enc φ (.mutRef t b) (.mutRef t (φ b))

theorem Enc.congr {φ ψ : Nat → Nat} {o : Own} {hd : Hnd} (e : Enc φ o hd)
    (h : ∀ b, o.target = some b → ψ b = φ b) : Enc ψ o hd := by
  cases e with
  | simple w => exact .simple w
  | any => rw [← h _ rfl]; exact .any
  | typed => rw [← h _ rfl]; exact .typed
  | mutRef => rw [← h _ rfl]; exact .mutRef

/-- the owned value in field `k` -/
def ownedAt (r : Ram) (t : RefTy) (p k : Nat) : Hnd :=
  if t = .object ∧ k % 2 = 0 then .ref .string (r.cell (p + 16 + k * 8)).toNat
  else .any (r.cell (p + 16 + k * 8))

/-- the length of the object in the block at `p` -/
def lenAt (r : Ram) (t : RefTy) (p : Nat) : Nat := headerLen t (r.cell (p + 8))

structure NodeAt (φ : Nat → Nat) (r : Ram) (n : Node) (p : Nat) : Prop where
  block : (p, ⟨blkSize n.ty (lenAt r n.ty p), 8⟩) ∈ r.live
  counter : (r.cell p).toInt = n.counter
  len : ownedFields n.ty (lenAt r n.ty p) = n.kids.length
  kids : ∀ (k : Nat) o, n.kids[k]? = some o → Enc φ o (ownedAt r n.ty p k)

/-- the blocks `x` and `y` do not overlap -/
def Apart (x y : Nat × Layout) : Prop := x.1 + x.2.size ≤ y.1 ∨ y.1 + y.2.size ≤ x.1

theorem Apart.symm {x y : Nat × Layout} (h : Apart x y) : Apart y x := Or.symm h

def OkBlock (x : Nat × Layout) : Prop :=
  0 < x.1 ∧ x.1 % 8 = 0 ∧ 16 ≤ x.2.size ∧ x.1 + x.2.size ≤ 2 ^ 48

structure Rel (φ : Nat → Nat) (h : Heap) (r : Ram) : Prop where
  node : ∀ (b : Nat) (n : Node), h[b]? = some n → n.phase ≠ .freed → NodeAt φ r n (φ b)
  inj : ∀ (b b' : Nat) (n n' : Node), h[b]? = some n → n.phase ≠ .freed → h[b']? = some n' →
    n'.phase ≠ .freed → φ b = φ b' → b = b'
  apart : r.live.Pairwise Apart
  shape : ∀ x ∈ r.live, OkBlock x
  own : ∀ x ∈ r.live, ∃ (b : Nat) (n : Node), h[b]? = some n ∧ n.phase ≠ .freed ∧ φ b = x.1

theorem field_bound {t : RefTy} {n k : Nat} (h : k < ownedFields t n) : 16 + k * 8 + 8 ≤ blkSize t n := by
  unfold blkSize
  cases t <;> simp only [ownedFields, itemType] at * <;> omega

theorem NodeAt.move {φ : Nat → Nat} {r r' : Ram} {n n' : Node} {p : Nat} (h : NodeAt φ r n p)
    (ty : n'.ty = n.ty) (kd : n'.kids = n.kids) (c : (r'.cell p).toInt = n'.counter)
    (cells : ∀ a, p < a → a < p + blkSize n.ty (lenAt r n.ty p) → r'.cell a = r.cell a)
    (bl : (p, ⟨blkSize n.ty (lenAt r n.ty p), 8⟩) ∈ r'.live) : NodeAt φ r' n' p := by
  have h8 : lenAt r' n.ty p = lenAt r n.ty p := by
    unfold lenAt
    rw [cells (p + 8) (by omega)]
    unfold blkSize; omega
  refine ⟨by rw [ty, h8]; exact bl, c, by rw [ty, h8, kd]; exact h.len, fun k o ho => ?_⟩
  rw [kd] at ho
  have hk : k < ownedFields n.ty (lenAt r n.ty p) := by rw [h.len]; exact getElem?_lt ho
  have := field_bound hk
  have e : ownedAt r' n'.ty p k = ownedAt r n.ty p k := by
    unfold ownedAt
    rw [ty, cells (p + 16 + k * 8) (by omega) (by omega)]
  rw [e]
  exact h.kids k o ho

namespace Rel
variable {φ : Nat → Nat} {h : Heap} {r : Ram}

theorem sep (R : Rel φ h r) {x y : Nat × Layout} (hx : x ∈ r.live) (hy : y ∈ r.live) (ne : x ≠ y) :
    Apart x y := by
  haveI : Std.Symm Apart := ⟨fun _ _ => Apart.symm⟩
  exact R.apart.forall hx hy ne

theorem uniq (R : Rel φ h r) {x y : Nat × Layout} (hx : x ∈ r.live) (hy : y ∈ r.live)
    (e : x.1 = y.1) : x = y := by
  by_contra ne
  have := R.sep hx hy ne
  have h1 := R.shape x hx
  have h2 := R.shape y hy
  unfold Apart at this
  unfold OkBlock at h1 h2
  omega

/-- a place in a block behind its start is not the start of a block -/
theorem inner (R : Rel φ h r) {x y : Nat × Layout} (hx : x ∈ r.live) (hy : y ∈ r.live) {a : Nat}
    (h1 : x.1 < a) (h2 : a < x.1 + x.2.size) : a ≠ y.1 := by
  intro e
  have ne : x ≠ y := by rintro rfl; omega
  have := R.sep hx hy ne
  have h3 := R.shape y hy
  unfold Apart at this
  unfold OkBlock at h3
  omega

/-- different blocks have different places -/
theorem other (R : Rel φ h r) {x y : Nat × Layout} (hx : x ∈ r.live) (hy : y ∈ r.live) (ne : x.1 ≠ y.1)
    {a : Nat} (h1 : x.1 ≤ a) (h2 : a < x.1 + x.2.size) : ¬ (y.1 ≤ a ∧ a < y.1 + y.2.size) := by
  intro e
  have := R.sep hx hy (by rintro rfl; exact ne rfl)
  unfold Apart at this
  omega

end Rel

theorem inside_of {r : Ram} {x : Nat × Layout} (hx : x ∈ r.live) {a n : Nat} (h1 : x.1 ≤ a)
    (h2 : a + n ≤ x.1 + x.2.size) : r.inside a n = true := by
  unfold Ram.inside
  rw [List.any_eq_true]
  exact ⟨x, hx, by simp [h1, h2]⟩

theorem read_of {r : Ram} {x : Nat × Layout} (hx : x ∈ r.live) {a n : Nat} (al : a % n = 0) (h1 : x.1 ≤ a)
    (h2 : a + n ≤ x.1 + x.2.size) : r.read a n = .ok (r.cell a) := by
  unfold Ram.read
  rw [if_pos ⟨al, inside_of hx h1 h2⟩]

/-- memory with one field changed -/
def Ram.put (r : Ram) (a : Nat) (v : W) : Ram := { r with cell := fun x => if x = a then v else r.cell x }

theorem put_same (r : Ram) (a : Nat) (v : W) : (r.put a v).cell a = v := by simp [Ram.put]
theorem put_ne (r : Ram) {a x : Nat} (v : W) (h : x ≠ a) : (r.put a v).cell x = r.cell x := by
  simp [Ram.put, h]
theorem put_live (r : Ram) (a : Nat) (v : W) : (r.put a v).live = r.live := rfl

theorem write_of {r : Ram} {x : Nat × Layout} (hx : x ∈ r.live) {a n : Nat} (al : a % n = 0) (h1 : x.1 ≤ a)
    (h2 : a + n ≤ x.1 + x.2.size) (v : W) : r.write a n v = .ok (r.put a v) := by
  unfold Ram.write
  rw [if_pos ⟨al, inside_of hx h1 h2⟩]; rfl

namespace NodeAt
variable {φ : Nat → Nat} {r : Ram} {n : Node} {p : Nat}

theorem header (N : NodeAt φ r n p) (al : p % 8 = 0) : r.header n.ty p = .ok (r.cell (p + 8)) := by
  unfold Ram.header
  rw [objectOf_ok]
  exact read_of N.block (by simp only [wordType]; omega) (by simp)
    (by simp only [wordType, blkSize]; omega)

theorem owned (N : NodeAt φ r n p) (al : p % 8 = 0) {k : Nat} (hk : k < n.kids.length) :
    r.owned n.ty p k = .ok (ownedAt r n.ty p k) := by
  rw [← N.len] at hk
  have fs : fieldSize n.ty = 8 := by
    cases e : n.ty <;> rw [e] at hk <;> simp_all [ownedFields, fieldSize]
  have := field_bound hk
  unfold Ram.owned Ram.field
  rw [itemsOf_ok]
  simp only [bind, Except.bind]
  rw [fs, read_of N.block (by omega) (by simp; omega) (by simp; omega)]
  unfold ownedAt
  rfl

end NodeAt

/-- changed fields are counters of blocks -/
def Only (φ : Nat → Nat) (h : Heap) (r r' : Ram) : Prop :=
  ∀ a, r'.cell a ≠ r.cell a → ∃ (b : Nat) (n : Node), h[b]? = some n ∧ n.phase ≠ .freed ∧ a = φ b

theorem Only.refl (φ : Nat → Nat) (h : Heap) (r : Ram) : Only φ h r r := fun _ x => absurd rfl x

theorem Keep.unfreed {h h' : Heap} (k : Keep h h') {b : Nat} {n' : Node} (e : h'[b]? = some n')
    (f : n'.phase ≠ .freed) : ∃ n, h[b]? = some n ∧ n.phase ≠ .freed := by
  obtain ⟨n, e1, -, -, d, -⟩ := k.pt b n' e
  refine ⟨n, e1, fun x => ?_⟩
  have := d (by rw [x]; simp)
  subst this
  exact f x

theorem Only.trans {φ : Nat → Nat} {h h' : Heap} {r r' r'' : Ram} (x : Only φ h r r') (k : Keep h h')
    (y : Only φ h' r' r'') : Only φ h r r'' := by
  intro a ha
  by_cases e : r''.cell a = r'.cell a
  · exact x a (by rw [← e]; exact ha)
  · obtain ⟨b, n', e1, f, rfl⟩ := y a e
    obtain ⟨n, e2, f2⟩ := Keep.unfreed k e1 f
    exact ⟨b, n, e2, f2, rfl⟩

/-- the cells of a block behind its counter stay as they are -/
theorem Only.cell {φ : Nat → Nat} {h : Heap} {r r' : Ram} (o : Only φ h r r') (R : Rel φ h r)
    {x : Nat × Layout} (hx : x ∈ r.live) {a : Nat} (h1 : x.1 < a) (h2 : a < x.1 + x.2.size) :
    r'.cell a = r.cell a := by
  by_contra c
  obtain ⟨b, n, e, f, rfl⟩ := o a c
  exact R.inner hx (R.node b n e f).block h1 h2 rfl

/-- what `Rel` says does not depend on whether a block is live or dying -/
theorem Rel.phase {φ : Nat → Nat} {h : Heap} {r : Ram} (R : Rel φ h r) {b : Nat} {n n' : Node}
    (e : h[b]? = some n) (f : n.phase ≠ .freed) (f' : n'.phase ≠ .freed) (ty : n'.ty = n.ty)
    (kd : n'.kids = n.kids) (c : n'.counter = n.counter) : Rel φ (h.set b n') r := by
  have back : ∀ {d : Nat} {m : Node}, (h.set b n')[d]? = some m → m.phase ≠ .freed →
      ∃ m0, h[d]? = some m0 ∧ m0.phase ≠ .freed := by
    intro d m hd fm
    rw [getElem?_set_of e] at hd
    by_cases y : d = b
    · subst y; exact ⟨n, e, f⟩
    · rw [if_neg y] at hd; exact ⟨m, hd, fm⟩
  refine ⟨fun d m hd fm => ?_, fun d d' m m' hd fd hd' fd' q => ?_, R.apart, R.shape, fun x hx => ?_⟩
  · rw [getElem?_set_of e] at hd
    by_cases y : d = b
    · subst y
      rw [if_pos rfl] at hd; cases hd
      have N := R.node d n e f
      exact N.move ty kd (by rw [N.counter, c]) (fun _ _ _ => rfl) N.block
    · rw [if_neg y] at hd; exact R.node d m hd fm
  · obtain ⟨m0, h0, f0⟩ := back hd fd
    obtain ⟨m1, h1, f1⟩ := back hd' fd'
    exact R.inj d d' m0 m1 h0 f0 h1 f1 q
  · obtain ⟨d, m, hd, fm, q⟩ := R.own x hx
    by_cases y : d = b
    · subst y; exact ⟨d, n', by rw [getElem?_set_of e, if_pos rfl], f', q⟩
    · exact ⟨d, m, by rw [getElem?_set_of e, if_neg y]; exact hd, fm, q⟩

/-- a block whose fields are changed, apart from its length -/
theorem Rel.put {φ : Nat → Nat} {h : Heap} {r : Ram} (R : Rel φ h r) {b : Nat} {n n' : Node}
    (e : h[b]? = some n) (f : n.phase ≠ .freed) (f' : n'.phase ≠ .freed) {a : Nat} {v : W}
    (h1 : φ b ≤ a) (h2 : a < φ b + blkSize n.ty (lenAt r n.ty (φ b)))
    (N : NodeAt φ (r.put a v) n' (φ b)) : Rel φ (h.set b n') (r.put a v) := by
  have back : ∀ {d : Nat} {m : Node}, (h.set b n')[d]? = some m → m.phase ≠ .freed →
      ∃ m0, h[d]? = some m0 ∧ m0.phase ≠ .freed := by
    intro d m hd fm
    rw [getElem?_set_of e] at hd
    by_cases y : d = b
    · subst y; exact ⟨n, e, f⟩
    · rw [if_neg y] at hd; exact ⟨m, hd, fm⟩
  have Nb := R.node b n e f
  refine ⟨fun d m hd fm => ?_, fun d d' m m' hd fd hd' fd' q => ?_, R.apart, R.shape, fun x hx => ?_⟩
  · rw [getElem?_set_of e] at hd
    by_cases y : d = b
    · subst y
      rw [if_pos rfl] at hd; cases hd
      exact N
    · rw [if_neg y] at hd
      have M := R.node d m hd fm
      have ne : φ b ≠ φ d := fun q => y (R.inj b d n m e f hd fm q).symm
      have key : ∀ x, φ d ≤ x → x < φ d + blkSize m.ty (lenAt r m.ty (φ d)) → x ≠ a := by
        rintro x g1 g2 rfl
        exact R.other Nb.block M.block ne h1 h2 ⟨g1, g2⟩
      refine M.move rfl rfl ?_ (fun x g1 g2 => put_ne r v (key x (by omega) g2)) M.block
      rw [put_ne r v (key _ (by omega) (by unfold blkSize; omega))]
      exact M.counter
  · obtain ⟨m0, h0, f0⟩ := back hd fd
    obtain ⟨m1, h1, f1⟩ := back hd' fd'
    exact R.inj d d' m0 m1 h0 f0 h1 f1 q
  · obtain ⟨d, m, hd, fm, q⟩ := R.own x hx
    by_cases y : d = b
    · subst y; exact ⟨d, n', by rw [getElem?_set_of e, if_pos rfl], f', q⟩
    · exact ⟨d, m, by rw [getElem?_set_of e, if_neg y]; exact hd, fm, q⟩

/-- the address of a block -/
theorem Rel.addr {φ : Nat → Nat} {h : Heap} {r : Ram} (R : Rel φ h r) {b : Nat} {n : Node}
    (e : h[b]? = some n) (f : n.phase ≠ .freed) : φ b % 8 = 0 ∧ φ b < 2 ^ 48 ∧ 0 < φ b := by
  have := R.shape _ (R.node b n e f).block
  unfold OkBlock at this
  simp only at this
  omega

theorem Rel.counterUpdate {φ : Nat → Nat} {h : Heap} {r : Ram} (R : Rel φ h r) {b : Nat} {n : Node}
    (e : h[b]? = some n) (f : n.phase ≠ .freed) (d : Int) :
    (¬ (-2 ^ 63 ≤ n.counter + d ∧ n.counter + d < 2 ^ 63) ∧ r.counterUpdate (φ b) d = .error .panic) ∨
    ∃ r', r.counterUpdate (φ b) d = .ok (decide (n.counter = 0), r') ∧
      Rel φ (h.set b { n with counter := n.counter + d }) r' ∧ Only φ h r r' := by
  have N := R.node b n e f
  have A := R.addr e f
  have sz : 16 ≤ blkSize n.ty (lenAt r n.ty (φ b)) := by unfold blkSize; omega
  unfold Ram.counterUpdate
  rw [show wordType.size = 8 from rfl, read_of N.block A.1 (by simp) (by simp only; omega)]
  simp only [bind, Except.bind, HeaderKind.update, N.counter]
  by_cases c : n.counter + d < -2 ^ 63 ∨ 2 ^ 63 ≤ n.counter + d
  · rw [if_pos c]; exact .inl ⟨by omega, rfl⟩
  · right
    rw [if_neg c, write_of N.block A.1 (by simp) (by simp only; omega)]
    refine ⟨_, rfl, R.put (n' := { n with counter := n.counter + d }) e f f (Nat.le_refl _) (by omega) ?_, ?_⟩
    · refine N.move rfl rfl ?_ (fun a h1 _ => put_ne r _ (by omega)) N.block
      rw [put_same, BitVec.toInt_ofInt]
      simp only [Int.bmod]
      omega
    · intro a ha
      by_cases y : a = φ b
      · exact ⟨b, n, e, f, y⟩
      · exact absurd (put_ne r _ y) ha

/-- giving back the memory of a block -/
theorem Rel.dealloc {φ : Nat → Nat} {h : Heap} {r : Ram} (R : Rel φ h r) {b : Nat} {n n' : Node}
    (e : h[b]? = some n) (f : n.phase ≠ .freed) (f' : n'.phase = .freed) :
    ∃ r', r.dealloc (φ b) ⟨blkSize n.ty (lenAt r n.ty (φ b)), 8⟩ = .ok r' ∧ Rel φ (h.set b n') r' ∧
      r'.cell = r.cell := by
  have N := R.node b n e f
  set x : Nat × Layout := (φ b, ⟨blkSize n.ty (lenAt r n.ty (φ b)), 8⟩) with hx
  refine ⟨{ r with live := r.live.erase x }, by unfold Ram.dealloc; rw [if_pos N.block], ?_, rfl⟩
  have nd : r.live.Nodup := by
    refine R.apart.imp_of_mem (fun {a b'} ha hb hab => ?_)
    rintro rfl
    have := R.shape a ha
    unfold Apart at hab
    unfold OkBlock at this
    omega
  have mem : ∀ y, y ∈ r.live.erase x ↔ y ≠ x ∧ y ∈ r.live := fun y => nd.mem_erase_iff
  have back : ∀ {d : Nat} {m : Node}, (h.set b n')[d]? = some m → m.phase ≠ .freed →
      d ≠ b ∧ h[d]? = some m := by
    intro d m hd fm
    rw [getElem?_set_of e] at hd
    by_cases y : d = b
    · rw [if_pos y] at hd; cases hd; exact absurd f' fm
    · rw [if_neg y] at hd; exact ⟨y, hd⟩
  refine ⟨fun d m hd fm => ?_, fun d d' m m' hd fd hd' fd' q => ?_, R.apart.sublist List.erase_sublist,
    fun y hy => R.shape y ((mem y).1 hy).2, fun y hy => ?_⟩
  · obtain ⟨ne, hd⟩ := back hd fm
    have M := R.node d m hd fm
    refine M.move rfl rfl M.counter (fun _ _ _ => rfl) ((mem _).2 ⟨?_, M.block⟩)
    intro q
    exact ne (R.inj d b m n hd fm e f (congrArg Prod.fst q))
  · exact R.inj d d' m m' (back hd fd).2 fd (back hd' fd').2 fd' q
  · obtain ⟨ne, hy'⟩ := (mem y).1 hy
    obtain ⟨d, m, hd, fm, q⟩ := R.own y hy'
    refine ⟨d, m, ?_, fm, q⟩
    rw [getElem?_set_of e, if_neg]
    · exact hd
    · rintro rfl
      exact ne (R.uniq hy' N.block q.symm)

end Nanvm
