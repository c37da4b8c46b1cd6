import Verif.Spec.Double
import Mathlib.Tactic.Ring
import Mathlib.Tactic.Linarith
import Mathlib.Tactic.Positivity
import Mathlib.Tactic.FieldSimp
import Mathlib.Tactic.NormNum
namespace Nanvm

/-- the value of a magnitude split at an exponent -/
theorem ulps_split (n f : Nat) (hn : n = 0 ∨ 2 ^ 52 ≤ f) (hf : f ≤ 2 ^ 53) :
    ulps (n * 2 ^ 52 + f) = f * 2 ^ n := by
  unfold ulps
  rcases Nat.lt_or_ge f (2 ^ 52) with h | h
  · rcases hn with rfl | hn
    · have e : (0 * 2 ^ 52 + f) / 2 ^ 52 = 0 := by omega
      rw [if_pos e]; omega
    · omega
  · rcases Nat.lt_or_ge f (2 ^ 53) with h2 | h2
    · have e : (n * 2 ^ 52 + f) / 2 ^ 52 = n + 1 := by omega
      have e2 : (n * 2 ^ 52 + f) % 2 ^ 52 = f - 2 ^ 52 := by omega
      rw [e, if_neg (by omega), e2, Nat.add_sub_cancel, Nat.add_sub_cancel' h]
    · have : f = 2 ^ 53 := by omega
      subst this
      have e : (n * 2 ^ 52 + 2 ^ 53) / 2 ^ 52 = n + 2 := by omega
      have e2 : (n * 2 ^ 52 + 2 ^ 53) % 2 ^ 52 = 0 := by omega
      rw [e, if_neg (by omega), e2]
      have : n + 2 - 1 = n + 1 := by omega
      rw [this, pow_succ 2 n]; ring

/-- every magnitude is split in this way, with room for its successor -/
theorem split_exists (b : Nat) : ∃ n f, b = n * 2 ^ 52 + f ∧ (n = 0 ∨ 2 ^ 52 ≤ f) ∧ f < 2 ^ 53 := by
  rcases Nat.eq_zero_or_pos (b / 2 ^ 52) with h | h
  · exact ⟨0, b, by omega, Or.inl rfl, by omega⟩
  · exact ⟨b / 2 ^ 52 - 1, b % 2 ^ 52 + 2 ^ 52, by omega, Or.inr (by omega), by omega⟩

theorem ulps_succ_lt (b : Nat) : ulps b < ulps (b + 1) := by
  obtain ⟨n, f, rfl, hn, hf⟩ := split_exists b
  rw [ulps_split n f hn hf.le, Nat.add_assoc, ulps_split n (f + 1) (by omega) (by omega)]
  exact Nat.mul_lt_mul_of_pos_right (by omega) (by positivity)

theorem ulps_strictMono : StrictMono ulps := strictMono_nat_of_lt_succ ulps_succ_lt

theorem dval_split (n f : Nat) (hn : n = 0 ∨ 2 ^ 52 ≤ f) (hf : f ≤ 2 ^ 53) :
    dval (n * 2 ^ 52 + f) = f * 2 ^ ((n : Int) - 1074) := by
  unfold dval
  rw [ulps_split n f hn hf]
  push_cast
  rw [mul_assoc, ← zpow_natCast, ← zpow_add₀ (by norm_num)]; rfl

theorem dval_inf : dval INF = 2 ^ (1024 : Int) := by
  have h := dval_split 2046 (2 ^ 52) (by omega) (by omega)
  have e : 2046 * 2 ^ 52 + 2 ^ 52 = INF := by unfold INF; ring
  rw [e] at h
  have e2 : (((2 : Nat) ^ 52 : Nat) : ℚ) = 2 ^ (52 : Int) := by norm_num
  rw [h, e2, ← zpow_add₀ (by norm_num)]
  norm_num

theorem dval_strictMono : StrictMono dval := by
  intro a b h
  unfold dval
  have : (ulps a : ℚ) < ulps b := by exact_mod_cast ulps_strictMono h
  exact mul_lt_mul_of_pos_right this (by positivity)

theorem dval_mono {a b : Nat} (h : a ≤ b) : dval a ≤ dval b := dval_strictMono.monotone h

theorem nearest_down {x : ℚ} {b : Nat} (hb : b + 1 ≤ INF) (h0 : dval b ≤ x)
    (h : x - dval b < dval (b + 1) - x) : Nearest x b := by
  refine ⟨by omega, fun b' hb' => ?_⟩
  rw [abs_of_nonneg (sub_nonneg.2 h0)]
  rcases Nat.lt_trichotomy b' b with hlt | rfl | hgt
  · have h1 : dval b' < dval b := dval_strictMono hlt
    rw [abs_of_nonneg (by linarith)]
    refine ⟨by linarith, fun he => ?_⟩
    exfalso; linarith
  · rw [abs_of_nonneg (sub_nonneg.2 h0)]
    exact ⟨le_refl _, fun _ hne => absurd rfl hne⟩
  · have h1 : dval (b + 1) ≤ dval b' := dval_mono hgt
    rw [abs_of_nonpos (by linarith)]
    refine ⟨by linarith, fun he => ?_⟩
    exfalso; linarith

theorem nearest_up {x : ℚ} {b : Nat} (hb : b + 1 ≤ INF) (h0 : x ≤ dval (b + 1))
    (h : dval (b + 1) - x < x - dval b) : Nearest x (b + 1) := by
  refine ⟨by omega, fun b' hb' => ?_⟩
  rw [abs_of_nonpos (sub_nonpos.2 h0)]
  rcases Nat.lt_trichotomy b' (b + 1) with hlt | rfl | hgt
  · have h1 : dval b' ≤ dval b := dval_mono (by omega)
    rw [abs_of_nonneg (by linarith)]
    refine ⟨by linarith, fun he => ?_⟩
    exfalso; linarith
  · rw [abs_of_nonpos (sub_nonpos.2 h0)]
    exact ⟨le_refl _, fun _ hne => absurd rfl hne⟩
  · have h1 : dval (b + 1) < dval b' := dval_strictMono hgt
    rw [abs_of_nonpos (by linarith)]
    refine ⟨by linarith, fun he => ?_⟩
    exfalso; linarith

theorem nearest_tie {x : ℚ} {b : Nat} (hb : b + 1 ≤ INF) (h : x - dval b = dval (b + 1) - x) :
    Nearest x (if b % 2 = 0 then b else b + 1) := by
  have hlt : dval b < dval (b + 1) := dval_strictMono (by omega)
  have key : ∀ b' ≤ INF, x - dval b ≤ |x - dval b'| := by
    intro b' _
    rcases Nat.lt_or_ge b b' with h1 | h1
    · have h2 : dval (b + 1) ≤ dval b' := dval_mono h1
      rw [abs_of_nonpos (by linarith)]; linarith
    · have h2 : dval b' ≤ dval b := dval_mono h1
      rw [abs_of_nonneg (by linarith)]; linarith
  split
  · rename_i he
    refine ⟨by omega, fun b' hb' => ?_⟩
    rw [abs_of_nonneg (show 0 ≤ x - dval b by linarith)]
    exact ⟨key b' hb', fun _ _ => he⟩
  · rename_i he
    refine ⟨by omega, fun b' hb' => ?_⟩
    rw [abs_of_nonpos (show x - dval (b + 1) ≤ 0 by linarith)]
    exact ⟨by have := key b' hb'; linarith, fun _ _ => by omega⟩

theorem nearest_inf {x : ℚ} (h : 2 ^ (1024 : Int) ≤ x) : Nearest x INF := by
  refine ⟨le_refl _, fun b' hb' => ?_⟩
  have h1 : dval b' ≤ dval INF := dval_mono hb'
  rw [dval_inf]
  rw [dval_inf] at h1
  rw [abs_of_nonneg (by linarith), abs_of_nonneg (by linarith)]
  exact ⟨by linarith, fun _ _ => by unfold INF; omega⟩

/-- the nearest magnitude is unique -/
theorem nearest_unique {x : ℚ} {a b : Nat} (ha : Nearest x a) (hb : Nearest x b) : a = b := by
  wlog hab : a < b generalizing a b
  · rcases Nat.lt_trichotomy a b with h | h | h
    · exact absurd h hab
    · exact h
    · exact (this hb ha h).symm
  exfalso
  have h1 := (ha.2 b hb.1)
  have h2 := (hb.2 a ha.1)
  have he : |x - dval a| = |x - dval b| := le_antisymm h1.1 h2.1
  have ea := h1.2 he (by omega)
  have eb := h2.2 he.symm (by omega)
  -- the magnitude between them is nearer
  have hm := ha.2 (a + 1) (by have := hb.1; omega)
  have l1 : dval a < dval (a + 1) := dval_strictMono (by omega)
  have l2 : dval (a + 1) < dval b := dval_strictMono (by omega)
  have hx : x - dval a = dval b - x := by
    rcases abs_eq_abs.1 he with h | h <;> linarith
  have hpos : 0 < x - dval a := by linarith
  rw [abs_of_pos hpos] at hm
  rcases abs_cases (x - dval (a + 1)) with ⟨h, -⟩ | ⟨h, -⟩ <;> rw [h] at hm <;> linarith [hm.1]

/-- the rational `x` is known to lie in `[s·2^E, (s+1)·2^E)`, and to be at the lower end
exactly when no non-zero remainder is recorded -/
def Approx (x : ℚ) (s : Nat) (E : Int) (rem : Bool) : Prop :=
  if rem then (s : ℚ) * 2 ^ E < x ∧ x < (s + 1) * 2 ^ E else x = s * 2 ^ E

theorem Approx.lower {x : ℚ} {s : Nat} {E : Int} {r : Bool} (h : Approx x s E r) :
    (s : ℚ) * 2 ^ E ≤ x := by
  unfold Approx at h; split at h
  · exact h.1.le
  · exact h.ge

theorem Approx.upper {x : ℚ} {s : Nat} {E : Int} {r : Bool} (h : Approx x s E r) :
    x < (s + 1) * 2 ^ E := by
  unfold Approx at h; split at h
  · exact h.2
  · rw [h]
    have : (0 : ℚ) < 2 ^ E := by positivity
    nlinarith

/-- multiplying an exact significand by a power of two -/
theorem Approx.shl {x : ℚ} {s : Nat} {E : Int} (h : Approx x s E false) (k : Nat) :
    Approx x (s * 2 ^ k) (E - k) false := by
  unfold Approx at *
  simp only [Bool.false_eq_true, if_false] at *
  rw [h]
  push_cast
  rw [zpow_sub₀ (by norm_num), zpow_natCast]
  field_simp

theorem Approx.shr1 {x : ℚ} {s : Nat} {E : Int} {r : Bool} (h : Approx x s E r) :
    Approx x (s / 2) (E + 1) (if s % 2 = 1 then true else r) := by
  have hE : (0 : ℚ) < 2 ^ E := by positivity
  have e : (2 : ℚ) ^ (E + 1) = 2 ^ E * 2 := by rw [zpow_add₀ (by norm_num)]; norm_num
  have hl := h.lower
  have hu := h.upper
  have hs : (s : ℚ) = 2 * ((s / 2 : Nat) : ℚ) + ((s % 2 : Nat) : ℚ) := by
    exact_mod_cast (Nat.div_add_mod s 2).symm
  rcases Nat.mod_two_eq_zero_or_one s with h2 | h2
  · rw [h2]
    simp only [Nat.zero_ne_one, if_false]
    rw [h2] at hs
    unfold Approx at h ⊢
    rw [e]
    cases r
    · simp only [Bool.false_eq_true, if_false] at h ⊢
      rw [h, hs]; push_cast; ring
    · simp only [if_true] at h ⊢
      rw [hs] at h
      push_cast at h
      constructor <;> nlinarith [h.1, h.2]
  · rw [if_pos h2]
    rw [h2] at hs
    unfold Approx
    rw [if_pos rfl, e]
    rw [hs] at hl hu
    push_cast at hl hu
    constructor <;> nlinarith

/-- rounding a value known up to half units of the last place -/
theorem round_half {x : ℚ} {s n : Nat} {r : Bool} (h : Approx x s ((n : Int) - 1075) r)
    (hn : n = 0 ∨ 2 ^ 53 ≤ s) (hs : s < 2 ^ 54) (hb : n * 2 ^ 52 + s / 2 + 1 ≤ INF) :
    Nearest x (n * 2 ^ 52 + (if (if s % 2 = 1 ∧ r = false then s / 2 % 2 else s % 2) = 1
      then s / 2 + 1 else s / 2)) := by
  have e0 : dval (n * 2 ^ 52 + s / 2) = ((s / 2 : Nat) : ℚ) * 2 ^ ((n : Int) - 1074) :=
    dval_split n (s / 2) (by omega) (by omega)
  have e1 : dval (n * 2 ^ 52 + s / 2 + 1) = (((s / 2 : Nat) : ℚ) + 1) * 2 ^ ((n : Int) - 1074) := by
    rw [Nat.add_assoc, dval_split n (s / 2 + 1) (by omega) (by omega)]
    push_cast; rfl
  have eh : (2 : ℚ) ^ ((n : Int) - 1074) = 2 ^ ((n : Int) - 1075) * 2 := by
    have : (n : Int) - 1074 = ((n : Int) - 1075) + 1 := by ring
    rw [this, zpow_add₀ (by norm_num)]; norm_num
  rw [eh] at e0 e1
  have hl := h.lower
  have hu := h.upper
  have hp : (0 : ℚ) < 2 ^ ((n : Int) - 1075) := by positivity
  have hsq : (s : ℚ) = 2 * ((s / 2 : Nat) : ℚ) + ((s % 2 : Nat) : ℚ) := by
    exact_mod_cast (Nat.div_add_mod s 2).symm
  unfold Approx at h
  revert h
  generalize (2 : ℚ) ^ ((n : Int) - 1075) = u at *
  intro h
  rcases Nat.mod_two_eq_zero_or_one s with h2 | h2
  · rw [h2] at hsq ⊢
    simp only [Nat.zero_ne_one, false_and, if_false]
    rw [hsq] at hl hu
    push_cast at hl hu
    apply nearest_down hb
    · rw [e0]; linarith
    · rw [e0, e1]; linarith
  · rw [h2] at hsq ⊢
    rw [hsq] at hl hu h
    push_cast at hl hu h
    cases r
    · simp only [Bool.false_eq_true, if_false, and_self, if_true] at h ⊢
      have ht := nearest_tie (x := x) hb (by rw [e0, e1, h]; ring)
      have hpar : (n * 2 ^ 52 + s / 2) % 2 = s / 2 % 2 := by omega
      rw [hpar] at ht
      rcases Nat.mod_two_eq_zero_or_one (s / 2) with h3 | h3
      · rw [h3] at ht ⊢
        simpa using ht
      · rw [h3] at ht ⊢
        simp only [Nat.one_ne_zero, if_false, if_true] at ht ⊢
        rw [← Nat.add_assoc]; exact ht
    · simp only [if_true] at h
      simp only [Bool.true_eq_false, and_false, if_false, if_true]
      rw [← Nat.add_assoc]
      apply nearest_up hb
      · rw [e1]; linarith
      · rw [e0, e1]; linarith

end Nanvm
