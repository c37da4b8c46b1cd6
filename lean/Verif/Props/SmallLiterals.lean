import Verif.Props.BigFloatWell
/-!
# Property theorems C16: the literals `1e-28` to `1e-50`
-/
namespace Nanvm
open JsBig LongDiv BigFloat

/-- a division does not go well if even the reduced first digit is too large -/
theorem not_goesWell {a b : Nat} (hb : b ≤ a) (h : a < b * ((tried a b - 1) * base ^ place a b)) :
    ¬ GoesWell b a := by
  intro hg
  cases hg with
  | small hlt => omega
  | @digit _ d _ ht _ hle _ =>
    have hd : tried a b - 1 ≤ d := by
      by_cases hc : LowBefore a (b * (tried a b * base ^ place a b))
      · exact (ht.1 hc).ge
      · have := ht.2 hc; omega
    have := Nat.mul_le_mul_left b (Nat.mul_le_mul_right (base ^ place a b) hd)
    omega

theorem small_first_digit : ∀ n < 51, 28 ≤ n → ∀ k < 200, 5 ^ n * 2 ^ 54 ≤ 2 ^ k →
    2 ^ k < 2 * (5 ^ n * 2 ^ 54) →
    2 ^ k < 5 ^ n * ((tried (2 ^ k) (5 ^ n) - 1) * base ^ place (2 ^ k) (5 ^ n)) := by
  decide +kernel

/-- **C16**: the literals `1e-28` to `1e-50` are all out of reach of the code.  For each of them the
division of the scaled significand by the power of five never gives the right quotient: it does not end,
or the quotient is too large. -/
theorem C16_small_violated (n : Nat) (h1 : 28 ≤ n) (h2 : n ≤ 50) :
    (∀ a, Scaled 1 (5 ^ n) a → ¬ GoesWell (5 ^ n) a) ∧
    ∀ (x y : JsBig), x.Canon → y.Canon → y.toInt = 5 ^ n → (∃ a : Nat, x.toInt = a ∧ Scaled 1 (5 ^ n) a) →
      ∀ fuel q r, divMod fuel x y = .ok (q, r) → (x.toInt.tdiv y.toInt).natAbs < q.toInt.natAbs := by
  have key : ∀ a, Scaled 1 (5 ^ n) a → 5 ^ n ≤ a ∧ ¬ GoesWell (5 ^ n) a := by
    rintro a ⟨k, rfl, ha, hk⟩
    rw [one_mul] at *
    have hle : 5 ^ n ≤ 2 ^ k := le_trans (Nat.le_mul_of_pos_right _ (by norm_num)) ha
    have hlt : 2 ^ k < 2 * (5 ^ n * 2 ^ 54) := by
      rcases hk with rfl | hk
      · have : 1 < 5 ^ n := Nat.one_lt_pow (by omega) (by norm_num)
        omega
      · exact hk
    have hk200 : k < 200 := by
      have h5 : 5 ^ n ≤ 5 ^ 50 := Nat.pow_le_pow_right (by norm_num) h2
      have : 2 ^ k < 2 ^ 200 := lt_of_lt_of_le hlt (le_trans (Nat.mul_le_mul_left 2
        (Nat.mul_le_mul_right (2 ^ 54) h5)) (by norm_num))
      exact (Nat.pow_lt_pow_iff_right (by norm_num)).1 this
    exact ⟨hle, not_goesWell hle (small_first_digit n (by omega) h1 k hk200 ha hlt)⟩
  refine ⟨fun a ha => (key a ha).2, ?_⟩
  rintro x y hx hy ey ⟨a, ex, ha⟩ fuel q r e
  obtain ⟨k1, k2⟩ := key a ha
  have ey' : y.toInt.natAbs = 5 ^ n := by rw [ey]; exact_mod_cast Int.natAbs_natCast (5 ^ n)
  refine (C05_right_iff_partial x y hx hy (by rw [ey]; positivity) ?_).2 ?_ fuel q r e
  · rw [ey', ex, Int.natAbs_natCast]; exact k1
  · rw [ey', ex, Int.natAbs_natCast]; exact k2

/-- the operands for `1e-30` -/
example : ∃ a : Nat, (new .pos [0, 2 ^ 60]).toInt = a ∧ Scaled 1 (5 ^ 30) a :=
  ⟨2 ^ 124, by decide +kernel, 124, by norm_num, by norm_num, .inr (by norm_num)⟩

end Nanvm
