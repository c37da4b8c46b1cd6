import Verif.Lemmas.Limbs
import Mathlib.Algebra.BigOperators.Group.Finset.Basic
import Mathlib.Algebra.BigOperators.Intervals
import Mathlib.Algebra.BigOperators.Ring.Finset
import Mathlib.Data.Finset.NatAntidiagonal
/-! Correctness of the schoolbook multiplication loops. -/
namespace Nanvm

theorem addToVec_ok (v : List Nat) (i add : Nat) (hv : Limbs v) (hadd : add + B ≤ B2)
    (hi : i < v.length) (h : val v + add * B ^ i < B ^ v.length) :
    ∃ v', addToVec v i add = .ok v' ∧ val v' = val v + add * B ^ i ∧ Limbs v' ∧
      v'.length = v.length := by
  induction v generalizing i add with
  | nil => simp at hi
  | cons d ds ih =>
    rw [limbs_cons] at hv
    cases i with
    | zero =>
      have h1 : ¬ d + add ≥ B2 := by have := hv.1; omega
      have hmd := Nat.mod_add_div (d + add) B
      have hmlt := Nat.mod_lt (d + add) B_pos
      have hcarry : (d + add) / B < B := by
        rw [Nat.div_lt_iff_lt_mul B_pos, ← B2_eq]; omega
      unfold addToVec
      rw [if_neg h1]
      generalize (d + add) / B = q at *
      generalize (d + add) % B = m at *
      rw [val_cons, List.length_cons, pow_succ, pow_zero, Nat.mul_one] at h
      by_cases hc : q > 0
      · rw [if_pos hc]
        have hsum : val ds + q < B ^ ds.length := by
          by_contra hcon
          have : B ^ ds.length * B ≤ (val ds + q) * B := Nat.mul_le_mul_right _ (by omega)
          nlinarith
        have hlen : 0 < ds.length := by
          by_contra h0
          have : ds = [] := List.length_eq_zero_iff.1 (by omega)
          subst this
          simp at hsum; omega
        obtain ⟨r, hr, hrv, hrl, hrlen⟩ := ih 0 q hv.2
          (by rw [B2_eq]; have hB : 2 ≤ B := by decide
              nlinarith) hlen (by simpa using hsum)
        refine ⟨m :: r, ?_, ?_, ?_, ?_⟩
        · rw [hr]; rfl
        · rw [val_cons, val_cons, hrv]
          simp only [pow_zero, Nat.mul_one]
          nlinarith
        · rw [limbs_cons]; exact ⟨hmlt, hrl⟩
        · simp [hrlen]
      · rw [if_neg hc]
        have h0 : q = 0 := by omega
        subst h0
        refine ⟨_, rfl, ?_, ?_, by simp⟩
        · rw [val_cons, val_cons]; simp only [pow_zero, Nat.mul_one]; omega
        · rw [limbs_cons]; exact ⟨hmlt, hv.2⟩
    | succ i =>
      rw [val_cons, List.length_cons, pow_succ, pow_succ] at h
      have hi' : i < ds.length := by simpa using hi
      have hsum : val ds + add * B ^ i < B ^ ds.length := by
        by_contra hcon
        have : B ^ ds.length * B ≤ (val ds + add * B ^ i) * B :=
          Nat.mul_le_mul_right _ (by omega)
        nlinarith
      obtain ⟨r, hr, hrv, hrl, hrlen⟩ := ih i add hv.2 hadd hi' hsum
      refine ⟨d :: r, ?_, ?_, ?_, ?_⟩
      · unfold addToVec; rw [hr]; rfl
      · rw [val_cons, val_cons, hrv, pow_succ]; ring
      · rw [limbs_cons]; exact ⟨hv.1, hrl⟩
      · simp [hrlen]

theorem idx_ok {l : List Nat} {i : Nat} (h : i < l.length) : idx l i = .ok (l.getD i 0) := by
  simp [idx, List.getElem?_eq_getElem h, List.getD]

theorem getD_lt {l : List Nat} (hl : Limbs l) (i : Nat) : l.getD i 0 < B := by
  by_cases h : i < l.length
  · simp only [List.getD, List.getElem?_eq_getElem h, Option.getD_some]
    exact hl _ (List.getElem_mem h)
  · simp only [List.getD, List.getElem?_eq_none (Nat.le_of_not_lt h), Option.getD_none]
    exact B_pos

theorem prod_limb_le {a b : Nat} (ha : a < B) (hb : b < B) : a * b + B ≤ B2 := by
  have : a * b ≤ (B - 1) * (B - 1) := Nat.mul_le_mul (by omega) (by omega)
  have h2 : (B - 1) * (B - 1) + B ≤ B2 := by decide
  omega

theorem mulInner_ok (l r : List Nat) (hl : Limbs l) (hr : Limbs r) (i : Nat) (js : List Nat)
    (hj : ∀ j ∈ js, j < l.length ∧ i - j < r.length) (v : List Nat) (hv : Limbs v)
    (hi : i < v.length)
    (h : val v + (js.map fun j => l.getD j 0 * r.getD (i - j) 0).sum * B ^ i < B ^ v.length) :
    ∃ v', js.foldlM (mulStep l r i) v = .ok v' ∧
      val v' = val v + (js.map fun j => l.getD j 0 * r.getD (i - j) 0).sum * B ^ i ∧
      Limbs v' ∧ v'.length = v.length := by
  induction js generalizing v with
  | nil => exact ⟨v, rfl, by simp, hv, rfl⟩
  | cons j js ih =>
    simp only [List.map_cons, List.sum_cons, Nat.add_mul] at h
    have hjj := hj j (by simp)
    obtain ⟨v1, e1, h1, l1, n1⟩ := addToVec_ok v i (l.getD j 0 * r.getD (i - j) 0) hv
      (prod_limb_le (getD_lt hl _) (getD_lt hr _)) hi (by omega)
    have hstep : mulStep l r i v j = .ok v1 := by
      simp only [mulStep, idx_ok hjj.1, idx_ok hjj.2]; exact e1
    obtain ⟨v2, e2, h2, l2, n2⟩ := ih (fun j hj' => hj j (by simp [hj'])) v1 l1 (by omega)
      (by rw [n1, h1]; omega)
    refine ⟨v2, ?_, ?_, l2, by omega⟩
    · rw [List.foldlM_cons, hstep]; exact e2
    · rw [h2, h1]; simp only [List.map_cons, List.sum_cons, Nat.add_mul]; omega

/-- the indices `j` visited for column `i` -/
def colIdx (l r : List Nat) (i : Nat) : List Nat :=
  let max := if i < l.length - 1 then i else l.length - 1
  List.range' (i - (r.length - 1)) (max + 1 - (i - (r.length - 1)))

def colSum (l r : List Nat) (i : Nat) : Nat :=
  ((colIdx l r i).map fun j => l.getD j 0 * r.getD (i - j) 0).sum

theorem mem_colIdx {l r : List Nat} (hl : l ≠ []) (hr : r ≠ []) {i j : Nat}
    (_ : i < l.length + r.length - 1) :
    j ∈ colIdx l r i ↔ j < l.length ∧ i - j < r.length ∧ j ≤ i := by
  have h1 := List.length_pos_iff.2 hl
  have h2 := List.length_pos_iff.2 hr
  unfold colIdx
  simp only [List.mem_range'_1]
  split <;> omega

theorem mulOuter_ok (l r : List Nat) (hl : Limbs l) (hr : Limbs r) (hl0 : l ≠ []) (hr0 : r ≠ [])
    (is : List Nat) (his : ∀ i ∈ is, i < l.length + r.length - 1) (v : List Nat) (hv : Limbs v)
    (hlen : v.length = l.length + r.length)
    (h : val v + (is.map fun i => colSum l r i * B ^ i).sum < B ^ v.length) :
    ∃ v', is.foldlM (mulColumn l r) v = .ok v' ∧
      val v' = val v + (is.map fun i => colSum l r i * B ^ i).sum ∧
      Limbs v' ∧ v'.length = v.length := by
  induction is generalizing v with
  | nil => exact ⟨v, rfl, by simp, hv, rfl⟩
  | cons i is ih =>
    simp only [List.map_cons, List.sum_cons] at h
    have hi := his i (by simp)
    obtain ⟨v1, e1, h1, l1, n1⟩ := mulInner_ok l r hl hr i (colIdx l r i)
      (fun j hj => by have := (mem_colIdx hl0 hr0 hi).1 hj; exact ⟨this.1, this.2.1⟩) v hv
      (by omega) (by change val v + colSum l r i * B ^ i < _; omega)
    change val v1 = val v + colSum l r i * B ^ i at h1
    obtain ⟨v2, e2, h2, l2, n2⟩ := ih (fun j hj' => his j (by simp [hj'])) v1 l1 (by omega)
      (by rw [n1, h1]; omega)
    refine ⟨v2, ?_, ?_, l2, by omega⟩
    · rw [List.foldlM_cons]
      have : mulColumn l r v i = .ok v1 := e1
      rw [this]; exact e2
    · rw [h2, h1]; simp only [List.map_cons, List.sum_cons]; omega

open Finset in
theorem val_eq_sum (l : List Nat) : val l = ∑ i ∈ range l.length, l.getD i 0 * B ^ i := by
  induction l with
  | nil => simp
  | cons d ds ih =>
    rw [List.length_cons, sum_range_succ', val_cons, ih, mul_sum]
    simp only [List.getD_cons_succ, List.getD_cons_zero, pow_zero, pow_succ]
    rw [Nat.add_comm]
    congr 1
    · apply sum_congr rfl; intros; ring
    · simp

open Finset in
theorem colSum_eq (l r : List Nat) (hl : l ≠ []) (hr : r ≠ []) (i : Nat)
    (hi : i < l.length + r.length - 1) :
    colSum l r i = ∑ p ∈ (range l.length ×ˢ range r.length) with p.1 + p.2 = i,
      l.getD p.1 0 * r.getD p.2 0 := by
  have hnd : (colIdx l r i).Nodup := by unfold colIdx; exact List.nodup_range'
  unfold colSum
  rw [← List.sum_toFinset _ hnd]
  refine sum_nbij' (fun j => (j, i - j)) (fun p => p.1) ?_ ?_ ?_ ?_ ?_
  · intro j hj
    have := (mem_colIdx hl hr hi).1 (List.mem_toFinset.1 hj)
    simp only [mem_filter, mem_product, mem_range]; omega
  · rintro ⟨a, b⟩ hp
    simp only [mem_filter, mem_product, mem_range] at hp
    rw [List.mem_toFinset, mem_colIdx hl hr hi]
    dsimp only; omega
  · intros; rfl
  · rintro ⟨a, b⟩ hp
    simp only [mem_filter, mem_product, mem_range] at hp
    simp only [Prod.mk.injEq, true_and]; omega
  · intros; rfl

open Finset in
theorem colSums_eq (l r : List Nat) (hl : l ≠ []) (hr : r ≠ []) :
    ((List.range (l.length + r.length - 1)).map fun i => colSum l r i * B ^ i).sum
      = val l * val r := by
  have h1 := List.length_pos_iff.2 hl
  have h2 := List.length_pos_iff.2 hr
  rw [← List.sum_toFinset _ List.nodup_range, val_eq_sum l, val_eq_sum r, sum_mul_sum,
    ← sum_product', List.toFinset_range]
  rw [← sum_fiberwise_of_maps_to (t := range (l.length + r.length - 1))
    (g := fun p : Nat × Nat => p.1 + p.2)]
  · apply sum_congr rfl
    intro i hi
    rw [colSum_eq l r hl hr i (mem_range.1 hi), sum_mul]
    apply sum_congr rfl
    rintro ⟨a, b⟩ hp
    simp only [mem_filter] at hp
    rw [← hp.2, pow_add]; ring
  · rintro ⟨a, b⟩ hp
    simp only [mem_product, mem_range] at hp ⊢; omega

theorem mulVec_ok {l r : List Nat} (hl : Limbs l) (hr : Limbs r) (hl0 : l ≠ []) (hr0 : r ≠ []) :
    ∃ v, mulVec l r = .ok v ∧ val v = val l * val r ∧ Limbs v ∧ Norm v := by
  have h1 := List.length_pos_iff.2 hl0
  have h2 := List.length_pos_iff.2 hr0
  have hlt : val l * val r < B ^ (l.length + r.length) := by
    rw [pow_add]; exact Nat.mul_lt_mul'' (val_lt hl) (val_lt hr)
  have e : l.length - 1 + (r.length - 1) + 1 = l.length + r.length - 1 := by omega
  obtain ⟨v, hv, hval, hlimb, -⟩ := mulOuter_ok l r hl hr hl0 hr0
    (List.range (l.length + r.length - 1)) (fun i hi => List.mem_range.1 hi)
    (List.replicate (l.length + r.length - 1 + 1) 0) (limbs_replicate _)
    (by rw [List.length_replicate]; omega)
    (by rw [colSums_eq l r hl0 hr0, val_replicate, List.length_replicate,
          show l.length + r.length - 1 + 1 = l.length + r.length by omega]; simpa using hlt)
  refine ⟨normalizeVec v, ?_, ?_, limbs_normalize hlimb, norm_normalize v⟩
  · unfold mulVec subU
    rw [if_pos (show 1 ≤ _ from h1), if_pos (show 1 ≤ _ from h2)]
    simp only [bind, Except.bind, e]
    rw [hv]; rfl
  · rw [val_normalize, hval, colSums_eq l r hl0 hr0, val_replicate]; omega

end Nanvm
