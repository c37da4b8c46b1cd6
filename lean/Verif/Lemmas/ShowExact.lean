import Verif.Spec.Json
import Verif.Lemmas.Double
import Verif.Lemmas.TokNum
import Verif.Model.Serializer
import Mathlib.Tactic.FieldSimp
/-!
# A function that prints doubles

It prints the exact value with as few fraction digits as possible.  It shows that the contract
`PrintsDoubles` can be met; the Rust library prints fewer digits.
-/
namespace Nanvm
namespace Ser
open Tok NumLit

/-- the last `k` digits of a number -/
def fixed : Nat → Nat → Text
  | 0, _ => []
  | k + 1, n => fixed k (n / 10) ++ [Nat.digitChar (n % 10)]

theorem digitChar_num : ∀ d < 10, isDigit (Nat.digitChar d) = true ∧ digitNum (Nat.digitChar d) = d ∧
    (0 < d → isDigit19 (Nat.digitChar d) = true) := by decide

theorem fixed_digits (k n : Nat) : AllDigits (fixed k n) := by
  induction k generalizing n with
  | zero => intro c hc; cases hc
  | succ k ih =>
    intro c hc
    rcases List.mem_append.1 hc with hc | hc
    · exact ih _ c hc
    · rw [List.mem_singleton] at hc
      subst hc
      exact (digitChar_num _ (Nat.mod_lt _ (by decide))).1

theorem fixed_length (k n : Nat) : (fixed k n).length = k := by
  induction k generalizing n with
  | zero => rfl
  | succ k ih => simp [fixed, ih]

theorem decVal_append (a b : Text) : decVal (a ++ b) = decVal a * 10 ^ b.length + decVal b := by
  induction b using List.reverseRecOn with
  | nil => simp [decVal]
  | append_singleton b c ih =>
    rw [← List.append_assoc, decVal_snoc, ih, decVal_snoc, List.length_append, List.length_singleton,
      pow_succ]
    ring

theorem decVal_fixed (k n : Nat) : decVal (fixed k n) = n % 10 ^ k := by
  induction k generalizing n with
  | zero => simp [fixed, decVal, Nat.mod_one]
  | succ k ih =>
    rw [fixed, decVal_snoc, ih, (digitChar_num _ (Nat.mod_lt _ (by decide))).2.1, pow_succ,
      Nat.mul_comm (10 ^ k) 10, Nat.mod_mul]
    ring

theorem decimal_eq (n : Nat) : decimal n =
    if n < 10 then [Nat.digitChar n] else decimal (n / 10) ++ [Nat.digitChar (n % 10)] :=
  Nat.toDigits_eq_if (by decide)

theorem decimal_lit (n : Nat) : decVal (decimal n) = n ∧
    (n = 0 → decimal n = ['0']) ∧
    (0 < n → ∃ c cs, decimal n = c :: cs ∧ isDigit19 c = true ∧ AllDigits cs) := by
  induction n using Nat.strong_induction_on with
  | _ n ih =>
    rw [decimal_eq]
    split
    · rename_i h
      obtain ⟨h1, h2, h3⟩ := digitChar_num n h
      refine ⟨?_, ?_, fun h0 => ⟨_, [], rfl, h3 h0, by intro c hc; cases hc⟩⟩
      · have := decVal_snoc [] (Nat.digitChar n)
        simpa [decVal_nil, h2] using this
      · rintro rfl; rfl
    · rename_i h
      obtain ⟨i1, -, i3⟩ := ih (n / 10) (by omega)
      obtain ⟨h1, h2, -⟩ := digitChar_num (n % 10) (by omega)
      refine ⟨?_, fun h0 => by omega, fun _ => ?_⟩
      · rw [decVal_snoc, i1, h2]; omega
      · obtain ⟨c, cs, e, h5, h6⟩ := i3 (by omega)
        refine ⟨c, cs ++ [Nat.digitChar (n % 10)], by rw [e]; rfl, h5, allDigits_snoc h6 h1⟩

theorem decimal_intPart (n : Nat) : IntPart (decimal n) := by
  rcases Nat.eq_zero_or_pos n with h | h
  · exact .inl ((decimal_lit n).2.1 h)
  · exact .inr ((decimal_lit n).2.2 h)

theorem decimal_length (n k : Nat) (hk : 0 < k) (h : n < 10 ^ k) : (decimal n).length ≤ k :=
  (Nat.length_toDigits_le_iff (by decide) hk).2 h

/-- `u / 2^1074` has `k` fraction digits -/
def fits (u k : Nat) : Bool := u * 10 ^ k % 2 ^ 1074 = 0

/-- the number of fraction digits -/
def places (u : Nat) : Nat := ((List.range 1074).find? (fits u)).getD 1074

theorem places_fits (u : Nat) : u * 10 ^ places u % 2 ^ 1074 = 0 ∧ places u ≤ 1074 := by
  unfold places
  cases h : (List.range 1074).find? (fits u) with
  | none =>
    refine ⟨?_, le_refl _⟩
    have : (10 : Nat) ^ 1074 = 2 ^ 1074 * 5 ^ 1074 := by rw [← Nat.mul_pow]
    rw [Option.getD_none, this, Nat.mul_left_comm, Nat.mul_mod_right]
  | some k =>
    have h1 := List.find?_some h
    have h2 := List.mem_of_find?_eq_some h
    rw [List.mem_range] at h2
    simp only [fits, decide_eq_true_eq] at h1
    exact ⟨h1, h2.le⟩

/-- fewer places do if they are enough -/
theorem places_le {u k : Nat} (h : fits u k = true) (hk : k < 1074) : places u ≤ k := by
  unfold places
  cases h' : (List.range 1074).find? (fits u) with
  | none =>
    rw [List.find?_eq_none] at h'
    exact absurd h (h' k (by simpa using hk))
  | some j =>
    rw [List.find?_range_eq_some] at h'
    by_contra hc
    have := h'.2.2 k (by simpa using hc)
    rw [h] at this
    cases this

/-- the digits as one number -/
def digitsOf (u : Nat) : Nat := u * 10 ^ places u / 2 ^ 1074

/-- the literal of a double -/
def exactLit (bits : Nat) : NumLit :=
  let u := ulps (bits % 2 ^ 63)
  ⟨decide (2 ^ 63 ≤ bits), decimal (digitsOf u / 10 ^ places u),
    if places u = 0 then none else some (fixed (places u) (digitsOf u)), none⟩

/-- prints the exact value of a double -/
def showExact (bits : Nat) : Text := (exactLit bits).text

theorem ulps_lt {b : Nat} (h : b ≤ INF) : ulps b ≤ 2 ^ 2098 := by
  have := ulps_strictMono.monotone h
  have e : ulps INF = 2 ^ 2098 := by
    have h1 := ulps_split 2046 (2 ^ 52) (.inr (le_refl _)) (by norm_num)
    have e2 : 2046 * 2 ^ 52 + 2 ^ 52 = INF := by unfold INF; norm_num
    rw [e2] at h1
    rw [h1, ← pow_add]
  omega

theorem nearest_self {b : Nat} (h : b ≤ INF) : Nearest (dval b) b := by
  refine ⟨h, fun b' _ => ⟨by simp, fun e hne => ?_⟩⟩
  rw [sub_self, abs_zero] at e
  have : dval b = dval b' := by
    have := abs_eq_zero.1 e.symm
    linarith
  exact absurd (dval_strictMono.injective this).symm hne

theorem exactLit_mant (bits : Nat) :
    (exactLit bits).mant = digitsOf (ulps (bits % 2 ^ 63)) ∧
    (exactLit bits).expo = -(places (ulps (bits % 2 ^ 63)) : Int) := by
  simp only [mant, expo, exactLit]
  generalize ulps (bits % 2 ^ 63) = u
  by_cases hp : places u = 0
  · simp [hp, (decimal_lit _).1]
  · simp only [hp, if_false, Option.getD_some]
    rw [decVal_append, decVal_fixed, fixed_length, (decimal_lit _).1]
    refine ⟨?_, by simp⟩
    rw [Nat.mul_comm]
    exact Nat.div_add_mod _ _

theorem cross {d u p a : ℚ} (hp : p ≠ 0) (ha : a ≠ 0) (h : d * a = u * p) :
    d * p⁻¹ = u * a⁻¹ := by
  field_simp
  rw [h, mul_comm]

theorem exactLit_value (bits : Nat) : (exactLit bits).value = dval (bits % 2 ^ 63) := by
  rw [NumLit.value, (exactLit_mant bits).1, (exactLit_mant bits).2, dval]
  generalize ulps (bits % 2 ^ 63) = u
  have h1 : digitsOf u * 2 ^ 1074 = u * 10 ^ places u := by
    rw [digitsOf]
    exact Nat.div_mul_cancel (Nat.dvd_of_mod_eq_zero (places_fits u).1)
  have h2 : (digitsOf u : ℚ) * 2 ^ 1074 = u * 10 ^ places u := by exact_mod_cast h1
  rw [zpow_neg, zpow_natCast, zpow_neg]
  have h3 : (2 : ℚ) ^ (1074 : Int) = 2 ^ 1074 := by
    rw [← zpow_natCast]; rfl
  rw [h3]
  exact cross (by positivity) (by positivity) h2

theorem exactLit_valid (bits : Nat) : (exactLit bits).Valid := by
  refine ⟨⟨decimal_intPart _, ?_, ?_⟩, ?_⟩
  · intro ds h
    simp only [exactLit] at h
    split at h
    · cases h
    · rename_i hp
      rw [← Option.some.inj h]
      refine ⟨?_, fixed_digits _ _⟩
      intro e
      have := fixed_length (places (ulps (bits % 2 ^ 63))) (digitsOf (ulps (bits % 2 ^ 63)))
      generalize places (ulps (bits % 2 ^ 63)) = k at *
      rw [e] at this
      exact hp this.symm
  · intro e h; cases h
  · intro e h; cases h

theorem exactLit_length (bits : Nat) (h : bits % 2 ^ 63 < INF) : (exactLit bits).text.length < 2 ^ 56 := by
  have hu := ulps_lt h.le
  simp only [NumLit.text, exactLit]
  generalize ulps (bits % 2 ^ 63) = u at *
  have h1 : digitsOf u / 10 ^ places u ≤ u := by
    rw [digitsOf, Nat.div_div_eq_div_mul, Nat.mul_comm (2 ^ 1074)]
    calc u * 10 ^ places u / (10 ^ places u * 2 ^ 1074) ≤ u * 10 ^ places u / 10 ^ places u := by
          apply Nat.div_le_div_left
          · exact Nat.le_mul_of_pos_right _ (by positivity)
          · positivity
      _ = u := Nat.mul_div_cancel _ (by positivity)
  have h2 : digitsOf u / 10 ^ places u < 10 ^ 2098 :=
    lt_of_le_of_lt (h1.trans hu) (Nat.pow_lt_pow_left (by norm_num) (by norm_num))
  have h3 := decimal_length _ 2098 (by norm_num) h2
  have h4 := (places_fits u).2
  have h5 : (signText (decide (2 ^ 63 ≤ bits))).length ≤ 1 := by unfold signText; split <;> simp
  have h6 : (fracText (if places u = 0 then none else some (fixed (places u) (digitsOf u)))).length ≤
      1075 := by
    split
    · simp [fracText]
    · simp [fracText, fixed_length]; omega
  simp only [List.length_append, expText, List.length_nil]
  have h7 : 1 + 2098 + 1075 < 2 ^ 56 := by norm_num
  omega

/-- the contract can be met -/
theorem showExact_prints : PrintsDoubles showExact := by
  intro bits ⟨h1, h2⟩
  refine ⟨exactLit bits, exactLit_valid bits, rfl, exactLit_length bits h2, rfl,
    bits % 2 ^ 63, ?_, ?_⟩
  · rw [exactLit_value]; exact nearest_self h2.le
  · simp only [exactLit, decide_eq_true_eq]
    split <;> omega

/-- a multiple of `2^-27` is printed with at most 27 fraction digits -/
theorem exactLit_places (bits : Nat) (h : ulps (bits % 2 ^ 63) % 2 ^ 1047 = 0) :
    -27 ≤ (exactLit bits).expo := by
  rw [(exactLit_mant bits).2]
  generalize ulps (bits % 2 ^ 63) = u at *
  have : places u ≤ 27 := by
    refine places_le ?_ (by norm_num)
    obtain ⟨k, hk⟩ := Nat.dvd_of_mod_eq_zero h
    rw [hk, fits, decide_eq_true_eq]
    have e : 2 ^ 1047 * k * 10 ^ 27 = 2 ^ 1074 * (k * 5 ^ 27) := by
      have e1 : (10 : Nat) ^ 27 = 2 ^ 27 * 5 ^ 27 := by rw [← Nat.mul_pow]
      have e2 : (2 : Nat) ^ 1074 = 2 ^ 1047 * 2 ^ 27 := by rw [← Nat.pow_add]
      rw [e1, e2]
      generalize (2 : Nat) ^ 1047 = a
      ring
    rw [e, Nat.mul_mod_right]
  omega

end Ser
end Nanvm
