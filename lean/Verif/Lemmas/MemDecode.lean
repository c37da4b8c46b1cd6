import Verif.Lemmas.MemDrop
/-! Lemmas for C80: what is read from memory stays the same -/
namespace Nanvm
open Graph

/-- two lists related position by position -/
def PW {α β : Type} (R : α → β → Prop) (xs : List α) (ys : List β) : Prop :=
  xs.length = ys.length ∧ ∀ (i : Nat) x y, xs[i]? = some x → ys[i]? = some y → R x y

namespace PW
variable {α β : Type} {R : α → β → Prop} {xs : List α} {ys : List β}

theorem right (p : PW R xs ys) {i : Nat} {x : α} (h : xs[i]? = some x) : ∃ y, ys[i]? = some y ∧ R x y := by
  have l : i < ys.length := by rw [← p.1]; exact getElem?_lt h
  have e : ys[i]? = some ys[i] := by simp
  exact ⟨ys[i], e, p.2 i x _ h e⟩

theorem left (p : PW R xs ys) {i : Nat} {y : β} (h : ys[i]? = some y) : ∃ x, xs[i]? = some x ∧ R x y := by
  have l : i < xs.length := by rw [p.1]; exact getElem?_lt h
  have e : xs[i]? = some xs[i] := by simp
  exact ⟨xs[i], e, p.2 i _ y e h⟩

theorem none (p : PW R xs ys) {i : Nat} (h : ys[i]? = none) : xs[i]? = none := by
  rw [List.getElem?_eq_none_iff] at h ⊢
  rw [p.1]; exact h

theorem mono {S : α → β → Prop} (p : PW R xs ys) (h : ∀ (i : Nat) x y, xs[i]? = some x → ys[i]? = some y → R x y → S x y) :
    PW S xs ys := ⟨p.1, fun i x y h1 h2 => h i x y h1 h2 (p.2 i x y h1 h2)⟩

theorem append1 (p : PW R xs ys) {x : α} {y : β} (h : R x y) : PW R (xs ++ [x]) (ys ++ [y]) := by
  refine ⟨by simp [p.1], fun i a b h1 h2 => ?_⟩
  by_cases c : i < xs.length
  · rw [List.getElem?_append_left c] at h1
    rw [List.getElem?_append_left (by rw [← p.1]; exact c)] at h2
    exact p.2 i a b h1 h2
  · have := getElem?_lt h1
    have e : i = xs.length := by simp at this; omega
    subst e
    rw [p.1] at h2
    simp at h1
    simp at h2
    subst h1 h2
    exact h

theorem set (p : PW R xs ys) (i : Nat) {x : α} {y : β} (h : R x y) : PW R (xs.set i x) (ys.set i y) := by
  refine ⟨by simp [p.1], fun j a b h1 h2 => ?_⟩
  rw [List.getElem?_set] at h1 h2
  by_cases c : i = j
  · rw [if_pos c] at h1 h2
    split at h1 <;> split at h2 <;> simp_all
  · rw [if_neg c] at h1 h2
    exact p.2 j a b h1 h2

theorem setL (p : PW R xs ys) {i : Nat} {x : α} {y : β} (h : R x y) (hy : ys[i]? = some y) :
    PW R (xs.set i x) ys := by
  refine ⟨by simp [p.1], fun j a b h1 h2 => ?_⟩
  rw [List.getElem?_set] at h1
  by_cases c : i = j
  · subst c
    rw [if_pos rfl] at h1
    split at h1 <;> simp_all
  · rw [if_neg c] at h1
    exact p.2 j a b h1 h2

theorem erase (p : PW R xs ys) (i : Nat) : PW R (xs.eraseIdx i) (ys.eraseIdx i) := by
  refine ⟨by rw [List.length_eraseIdx, List.length_eraseIdx, p.1], fun j a b h1 h2 => ?_⟩
  rw [List.getElem?_eraseIdx] at h1 h2
  split at h1
  · rename_i c; rw [if_pos c] at h2; exact p.2 _ a b h1 h2
  · rename_i c; rw [if_neg c] at h2; exact p.2 _ a b h1 h2

theorem take : ∀ (is : List Nat) (xs : List α) (ys : List β) (us : List β) (rs : List β), PW R xs ys →
    takeAt ys is = some (us, rs) → ∃ vs qs, takeAt xs is = some (vs, qs) ∧ PW R vs us ∧ PW R qs rs := by
  intro is
  induction is with
  | nil =>
    intro xs ys us rs p e
    simp only [takeAt, Option.some.injEq, Prod.mk.injEq] at e
    obtain ⟨rfl, rfl⟩ := e
    exact ⟨[], xs, rfl, ⟨rfl, fun i x y h => by simp at h⟩, p⟩
  | cons i is ih =>
    intro xs ys us rs p e
    unfold takeAt at e
    cases hy : ys[i]? with
    | none => rw [hy] at e; cases e
    | some y =>
      rw [hy] at e
      simp only [Option.map_eq_some_iff] at e
      obtain ⟨⟨us2, rs2⟩, e2, e3⟩ := e
      simp at e3
      obtain ⟨rfl, rfl⟩ := e3
      obtain ⟨x, hx, rxy⟩ := p.left hy
      obtain ⟨vs, qs, t1, t2, t3⟩ := ih _ _ _ _ (p.erase i) e2
      refine ⟨x :: vs, qs, ?_, ?_, t3⟩
      · unfold takeAt
        rw [hx]
        simp [t1]
      · refine ⟨by simp [t2.1], fun j a b h1 h2 => ?_⟩
        cases j with
        | zero => simp at h1 h2; subst h1 h2; exact rxy
        | succ j => exact t2.2 j a b (by simpa using h1) (by simpa using h2)

end PW

theorem read_ok {r : Ram} {a n : Nat} {w : W} (e : r.read a n = .ok w) : w = r.cell a := by
  unfold Ram.read at e
  split at e
  · injection e with e; exact e.symm
  · cases e

theorem header_ok {r : Ram} {t : RefTy} {p : Nat} {w : W} (e : r.header t p = .ok w) : w = r.cell (p + 8) := by
  unfold Ram.header at e
  rw [objectOf_ok] at e
  exact read_ok e

theorem field_ok {r : Ram} {t : RefTy} {p k : Nat} {w : W} (e : r.field t p k = .ok w) :
    w = r.cell (p + 16 + k * fieldSize t) := by
  unfold Ram.field at e
  rw [itemsOf_ok] at e
  exact read_ok e

theorem owned_ok {r : Ram} {t : RefTy} {p k : Nat} {x : Hnd} (ft : fieldSize t = 8) (e : r.owned t p k = .ok x) :
    x = ownedAt r t p k := by
  unfold Ram.owned at e
  cases q : r.field t p k with
  | error y => rw [q] at e; cases e
  | ok w =>
    rw [q] at e
    have := field_ok q
    rw [ft] at this
    subst this
    injection e with e
    exact e.symm

/-- a field is in its block -/
theorem raw_bound {t : RefTy} {n k : Nat} (h : k < n) (o : t ≠ .object) :
    16 + k * fieldSize t + fieldSize t ≤ blkSize t n ∧ (16 + k * fieldSize t) % fieldSize t = 0 := by
  unfold blkSize
  cases t <;> simp only [fieldSize, itemType] at * <;> first | (constructor <;> omega) | exact absurd rfl o

theorem NodeAt.field {φ : Nat → Nat} {r : Ram} {n : Node} {p : Nat} (N : NodeAt φ r n p) (al : p % 8 = 0)
    (o : n.ty ≠ .object) {k : Nat} (hk : k < lenAt r n.ty p) :
    r.field n.ty p k = .ok (r.cell (p + 16 + k * fieldSize n.ty)) := by
  obtain ⟨h1, h2⟩ := raw_bound hk o
  unfold Ram.field
  rw [itemsOf_ok]
  refine read_of N.block ?_ (by simp only; omega) (by simp only; omega)
  have : fieldSize n.ty = 2 ∨ fieldSize n.ty = 8 := by cases n.ty <;> simp [fieldSize]
  rcases this with h | h <;> rw [h] at h2 ⊢ <;> omega

theorem fieldSize_owner {t : RefTy} {n k : Nat} (h : k < ownedFields t n) : fieldSize t = 8 := by
  cases t <;> simp_all [ownedFields, fieldSize]

theorem visitor_not_plain {w : W} {t : RefTy} {a : W} (h : isRef w = false) (v : toVisitor w = .ok (t.val a)) :
    False := by
  obtain ⟨v', h1, h2, -⟩ := C19_visitor w
  rw [v] at h1
  injection h1 with h1
  subst h1
  have : isRef w = true := by
    rw [(C19_is_ref w).1, h2]
    cases t <;> simp [RefTy.val, TVal.type]
  rw [h] at this; cases this

theorem tval_inj {t t' : RefTy} {a a' : W} (h : t.val a = t'.val a') : t = t' ∧ a = a' := by
  cases t <;> cases t' <;> simp_all [RefTy.val]

/-- what is read behind a handle is the same in two memories that agree on a closed set of blocks -/
theorem decodes_keep {φ : Nat → Nat} {h : Heap} {r r' : Ram} (R : Rel φ h r') (S : Nat → Prop)
    (closed : ∀ b, S b → ∃ n, h[b]? = some n ∧ n.phase = .live ∧
      ∀ o ∈ n.kids, ∀ t c, Own.link o = some (t, c) → S c ∧ LiveAt h t c)
    (cells : ∀ (b : Nat) (n : Node), S b → h[b]? = some n → ∀ a, φ b < a →
      a < φ b + blkSize n.ty (lenAt r' n.ty (φ b)) → r'.cell a = r.cell a) :
    ∀ {hd : Hnd} {v : Tree}, Decodes r hd v → ∀ o, Enc φ o hd →
      (∀ t b, Own.link o = some (t, b) → S b ∧ LiveAt h t b) → Decodes r' hd v := by
  -- the block of a typed reference
  have blk : ∀ {o : Own} {t : RefTy} {p : Nat}, Enc φ o (.ref t p) →
      (∀ t b, Own.link o = some (t, b) → S b ∧ LiveAt h t b) →
      ∃ b n, p = φ b ∧ S b ∧ h[b]? = some n ∧ n.ty = t ∧ NodeAt φ r' n (φ b) ∧ φ b % 8 = 0 ∧
        r'.header t p = .ok (r'.cell (p + 8)) ∧ r'.cell (p + 8) = r.cell (p + 8) ∧
        ∀ o ∈ n.kids, ∀ t c, Own.link o = some (t, c) → S c ∧ LiveAt h t c := by
    intro o t p E hl
    cases E with
    | @typed _ b =>
      obtain ⟨sb, n, e, l, ty⟩ := hl t b rfl
      have fr : n.phase ≠ .freed := by rw [l]; simp
      have N := R.node b n e fr
      have A := R.addr e fr
      obtain ⟨n', e', -, cl⟩ := closed b sb
      rw [e] at e'; cases e'
      refine ⟨b, n, rfl, sb, e, ty, N, A.1, ?_, ?_, cl⟩
      · rw [← ty]; exact N.header A.1
      · exact cells b n sb e _ (by omega) (by unfold blkSize; omega)
  intro hd v d
  induction d with
  | null x => intro o E hl; exact .null x
  | bool x => intro o E hl; exact .bool x
  | number x => intro o E hl; exact .number x
  | @any w t a v x d ih =>
    intro o E hl
    refine .any x ?_
    cases E with
    | simple w0 => exact (visitor_not_plain w0 x).elim
    | @any t' b =>
      obtain ⟨sb, n, e, l, ty⟩ := hl t' b rfl
      have A := R.addr e (by rw [l]; simp)
      rw [anyWord_visitor t' A.2.1] at x
      injection x with x
      obtain ⟨rfl, rfl⟩ := tval_inj x
      refine ih (.typed t' b) ?_ hl
      rw [addr_toNat A.2.1]
      exact .typed
  | @mutRef t p v d ih =>
    intro o E hl
    refine .mutRef ?_
    cases E with
    | @mutRef _ b => exact ih (.typed t b) .typed hl
  | @string p w us x1 x2 x3 =>
    intro o E hl
    obtain ⟨b, n, rfl, sb, e, ty, N, al, hh, hc, -⟩ := blk E hl
    have hw := header_ok x1
    rw [← hc] at hw
    refine .string hh (by rw [← hw]; exact x2) (fun j u hj => ?_)
    have lj : j < lenAt r' n.ty (φ b) := by
      unfold lenAt
      rw [ty, ← hw]
      simp only [headerLen]
      rw [x2]; exact getElem?_lt hj
    have f := N.field al (by rw [ty]; simp) lj
    have g := field_ok (x3 j u hj)
    rw [ty] at f
    have hb := (raw_bound (t := n.ty) lj (by rw [ty]; simp)).1
    rw [f, g]
    rw [cells b n sb e _ (by omega)]
    rw [ty] at hb ⊢
    simp only [fieldSize] at hb ⊢
    omega
  | @bigint p w neg ls x1 x2 x4 x3 =>
    intro o E hl
    obtain ⟨b, n, rfl, sb, e, ty, N, al, hh, hc, -⟩ := blk E hl
    have hw := header_ok x1
    rw [← hc] at hw
    refine .bigint hh (by rw [← hw]; exact x2) x4 (fun j u hj => ?_)
    have lj : j < lenAt r' n.ty (φ b) := by
      unfold lenAt
      rw [ty, ← hw]
      simp only [headerLen]
      have := getElem?_lt hj
      rw [x2]
      split <;> simp only [Int.natAbs_neg, Int.natAbs_natCast] <;> exact this
    have f := N.field al (by rw [ty]; simp) lj
    have g := field_ok (x3 j u hj)
    rw [ty] at f
    have hb := (raw_bound (t := n.ty) lj (by rw [ty]; simp)).1
    rw [f, g]
    rw [cells b n sb e _ (by omega)]
    rw [ty] at hb ⊢
    simp only [fieldSize] at hb ⊢
    omega
  | @array p w ts hs x1 x2 x3 x4 ih =>
    intro o E hl
    obtain ⟨b, n, rfl, sb, e, ty, N, al, hh, hc, cl⟩ := blk E hl
    have hw := header_ok x1
    rw [← hc] at hw
    have lk : n.kids.length = ts.length := by
      rw [← N.len, lenAt, ty, ← hw]
      simp only [headerLen, ownedFields]
      exact x2
    have same : ∀ (j : Nat) v, ts[j]? = some v → ownedAt r' n.ty (φ b) j = hs j := by
      intro j v hj
      have hk : j < ownedFields n.ty (lenAt r' n.ty (φ b)) := by
        rw [N.len, lk]; exact getElem?_lt hj
      have hb := field_bound hk
      rw [owned_ok rfl (x3 j v hj)]
      unfold ownedAt
      rw [ty, cells b n sb e _ (by omega) (by omega)]
    refine .array hs hh (by rw [← hw]; exact x2) (fun j v hj => ?_) (fun j v hj => ?_)
    · rw [← same j v hj, ← ty]
      exact N.owned al (by rw [lk]; exact getElem?_lt hj)
    · have lj : j < n.kids.length := by rw [lk]; exact getElem?_lt hj
      have hkid : n.kids[j]? = some n.kids[j] := by simp
      refine ih j v hj n.kids[j] ?_ (cl _ (List.mem_of_getElem? hkid))
      rw [← same j v hj]
      exact N.kids j _ hkid
  | @object p w ts hs x1 x2 x3 x4 ih =>
    intro o E hl
    obtain ⟨b, n, rfl, sb, e, ty, N, al, hh, hc, cl⟩ := blk E hl
    have hw := header_ok x1
    rw [← hc] at hw
    have lk : n.kids.length = ts.length := by
      rw [← N.len, lenAt, ty, ← hw]
      simp only [headerLen, ownedFields]
      exact x2
    have same : ∀ (j : Nat) v, ts[j]? = some v → ownedAt r' n.ty (φ b) j = hs j := by
      intro j v hj
      have hk : j < ownedFields n.ty (lenAt r' n.ty (φ b)) := by
        rw [N.len, lk]; exact getElem?_lt hj
      have hb := field_bound hk
      rw [owned_ok rfl (x3 j v hj)]
      unfold ownedAt
      rw [ty, cells b n sb e _ (by omega) (by omega)]
    refine .object hs hh (by rw [← hw]; exact x2) (fun j v hj => ?_) (fun j v hj => ?_)
    · rw [← same j v hj, ← ty]
      exact N.owned al (by rw [lk]; exact getElem?_lt hj)
    · have lj : j < n.kids.length := by rw [lk]; exact getElem?_lt hj
      have hkid : n.kids[j]? = some n.kids[j] := by simp
      refine ih j v hj n.kids[j] ?_ (cl _ (List.mem_of_getElem? hkid))
      rw [← same j v hj]
      exact N.kids j _ hkid

end Nanvm
