import Verif.Model.Layout
import Mathlib.Tactic.Ring
import Mathlib.Tactic.Common
import Mathlib.Tactic.Positivity
import Mathlib.Algebra.Order.Ring.Nat
namespace Nanvm

theorem isPow2_iff (n : Nat) : isPow2 n = true ↔ ∃ k, n = 2 ^ k := by
  have := @Nat.ne_zero_and_sub_one_eq_zero_iff_isPowerOfTwo n
  unfold Nat.isPowerOfTwo at this
  rw [← this]
  simp [isPow2]

theorem pow2_dvd {a b : Nat} (ha : ∃ k, a = 2 ^ k) (hb : ∃ k, b = 2 ^ k) (h : a ≤ b) : a ∣ b := by
  obtain ⟨k, rfl⟩ := ha
  obtain ⟨l, rfl⟩ := hb
  exact Nat.pow_dvd_pow 2 ((Nat.pow_le_pow_iff_right (by norm_num)).1 h)

theorem and_high_mask (s k : Nat) (hs : s < 2 ^ 64) (hk : k ≤ 64) :
    s &&& (2 ^ 64 - 1 - (2 ^ k - 1)) = s / 2 ^ k * 2 ^ k := by
  have hp : 0 < 2 ^ k := by positivity
  have hle : 2 ^ k ≤ 2 ^ 64 := Nat.pow_le_pow_right (by norm_num) hk
  have e : 2 ^ 64 - 1 - (2 ^ k - 1) = 2 ^ 64 - (2 ^ k - 1 + 1) := by omega
  rw [e]
  apply Nat.eq_of_testBit_eq
  intro i
  rw [Nat.testBit_and, Nat.testBit_two_pow_sub_succ (by omega), Nat.testBit_two_pow_sub_one,
    Nat.testBit_mul_two_pow, Nat.testBit_div_two_pow]
  by_cases h1 : k ≤ i
  · by_cases h2 : i < 64
    · simp [h1, h2, show ¬ i < k by omega, show i - k + k = i by omega]
    · have hs0 : s.testBit i = false := by
        apply Nat.testBit_lt_two_pow
        exact lt_of_lt_of_le hs (Nat.pow_le_pow_right (by norm_num) (by omega))
      simp [h1, h2, hs0, show i - k + k = i by omega]
  · simp [h1, show i < k by omega]

theorem alignTo_eq (i k : Nat) (h : i + 2 ^ k ≤ 2 ^ 64) :
    alignTo i (2 ^ k) = .ok ((i + (2 ^ k - 1)) / 2 ^ k * 2 ^ k) := by
  have hp : 0 < 2 ^ k := by positivity
  have hk : k ≤ 64 := by
    have : 2 ^ k ≤ 2 ^ 64 := by omega
    exact (Nat.pow_le_pow_iff_right (by norm_num)).1 this
  unfold alignTo subU addU
  rw [if_pos (by omega)]
  simp only [bind, Except.bind]
  rw [if_pos (by omega)]
  simp only [pure, Except.pure]
  rw [and_high_mask _ _ (by omega) hk]

theorem alignTo_spec (i a : Nat) (ha : ∃ k, a = 2 ^ k) (h : i + a ≤ 2 ^ 64) :
    ∃ r, alignTo i a = .ok r ∧ a ∣ r ∧ i ≤ r ∧ r < i + a ∧ ∀ m, a ∣ m → i ≤ m → r ≤ m := by
  obtain ⟨k, rfl⟩ := ha
  have hp : 0 < 2 ^ k := by positivity
  refine ⟨_, alignTo_eq i k h, Dvd.intro_left _ rfl, ?_, ?_, ?_⟩
  all_goals
    have h1 := Nat.div_add_mod (i + (2 ^ k - 1)) (2 ^ k)
    have h2 := Nat.mod_lt (i + (2 ^ k - 1)) hp
    rw [mul_comm] at h1
  · omega
  · omega
  · rintro m ⟨c, rfl⟩ hm
    rw [mul_comm (2 ^ k) c] at *
    apply Nat.mul_le_mul_right
    have : (i + (2 ^ k - 1)) / 2 ^ k < c + 1 := by
      rw [Nat.div_lt_iff_lt_mul hp, Nat.add_mul]; omega
    omega

theorem fieldLayout_ok (t a : TypeInfo) (adj : Nat) (ht : ∃ k, t.align = 2 ^ k)
    (hadj : ∃ k, adj = 2 ^ k) (hle : a.align ≤ adj) (hsz : t.size + adj ≤ 2 ^ 64) :
    ∃ f, FieldLayout.alignTo t a adj = .ok f ∧ t.align ∣ f.align ∧ adj ∣ f.align ∧
      (f.align = t.align ∨ f.align = adj) ∧ adj ∣ f.size ∧ t.size ≤ f.size ∧
      f.size < t.size + adj ∧ ∀ m, adj ∣ m → t.size ≤ m → f.size ≤ m := by
  obtain ⟨r, e, h1, h2, h3, h4⟩ := alignTo_spec t.size adj hadj hsz
  refine ⟨⟨if t.align > adj then t.align else adj, r⟩, ?_, ?_, ?_, ?_, h1, h2, h3, h4⟩
  · unfold FieldLayout.alignTo
    rw [(isPow2_iff adj).2 hadj, e]
    simp only [Bool.not_true, Bool.false_eq_true, if_false, decide_eq_true hle, bind, Except.bind,
      pure, Except.pure]
  · dsimp only
    split
    · exact dvd_refl _
    · exact pow2_dvd ht hadj (by omega)
  · dsimp only
    split
    · exact pow2_dvd hadj ht (by omega)
    · exact dvd_refl _
  · dsimp only
    split <;> simp

theorem layout_ok (f : FieldLayout) (n : Nat) (h : f.size + n < 2 ^ 64) :
    f.layout n = .ok ⟨f.size + n, f.align⟩ := by
  unfold FieldLayout.layout addU; rw [if_pos h]; rfl

/-! ### arena -/

theorem alignOffset_spec (p a : Nat) (ha : 0 < a) :
    a ∣ p + alignOffset p a ∧ alignOffset p a < a ∧ ∀ m, a ∣ m → p ≤ m → p + alignOffset p a ≤ m := by
  have h1 := Nat.div_add_mod p a
  have h2 := Nat.mod_lt p ha
  unfold alignOffset
  refine ⟨?_, Nat.mod_lt _ ha, ?_⟩
  · rcases Nat.eq_zero_or_pos (p % a) with h | h
    · rw [h, Nat.sub_zero, Nat.mod_self, Nat.add_zero]; exact Nat.dvd_of_mod_eq_zero h
    · rw [Nat.mod_eq_of_lt (by omega)]
      have : p + (a - p % a) = a * (p / a + 1) := by
        rw [Nat.mul_add, Nat.mul_one]; omega
      exact ⟨_, this⟩
  · rintro m ⟨c, rfl⟩ hm
    rcases Nat.eq_zero_or_pos (p % a) with h | h
    · rw [h, Nat.sub_zero, Nat.mod_self]; omega
    · rw [Nat.mod_eq_of_lt (by omega)]
      have : p / a < c := by
        by_contra hc
        have : a * c ≤ a * (p / a) := Nat.mul_le_mul_left _ (by omega)
        omega
      have : a * (p / a + 1) ≤ a * c := Nat.mul_le_mul_left _ (by omega)
      rw [Nat.mul_add, Nat.mul_one] at this
      omega

end Nanvm
