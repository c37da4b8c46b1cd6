import Verif.Props.BigNumbers
import Verif.Props.JsBigint
/-!
# Property theorems C68: conversion of machine integers
-/
namespace Nanvm

/-- The full property: every `u64` and every `i64` is converted to the canonical form of its value. -/
def ConversionsExact : Prop :=
  (∀ n < 2 ^ 64, val (BigUint.fromU64 n) = n ∧ UCanon (BigUint.fromU64 n)) ∧
  (∀ n < 2 ^ 64, (BInt.fromU64 n).toInt = n ∧ (BInt.fromU64 n).Canon) ∧
  (∀ n : Int, -2 ^ 63 ≤ n → n < 2 ^ 63 → ∃ c, BInt.fromI64 n = .ok c ∧ c.toInt = n ∧ c.Canon)

/-- `BigUint::from_u64`: the value is right for every number, the form exactly for the numbers other
than zero. -/
theorem C68_from_u64_partial (n : Nat) (h : n < 2 ^ 64) :
    val (BigUint.fromU64 n) = n ∧ (UCanon (BigUint.fromU64 n) ↔ n ≠ 0) := by
  refine ⟨by simp [BigUint.fromU64, val_cons], fun hc h0 => ?_, fun h0 => ?_⟩
  · subst h0; exact absurd hc (by decide)
  · rw [BigUint.fromU64]
    exact ⟨by rw [limbs_cons]; exact ⟨by rw [B_eq]; exact h, by simp⟩, by simpa [Norm] using h0⟩

/-- `BigInt::from_u64`, likewise -/
theorem C68_int_from_u64_partial (n : Nat) (h : n < 2 ^ 64) :
    (BInt.fromU64 n).toInt = n ∧ ((BInt.fromU64 n).Canon ↔ n ≠ 0) :=
  ⟨by simp [BInt.fromU64, BInt.toInt, val_cons, signed],
    fun hc => (C68_from_u64_partial n h).2.1 hc.1,
    fun h0 => ⟨(C68_from_u64_partial n h).2.2 h0, fun _ => rfl⟩⟩

/-- `BigInt::from_i64`: every number except `i64::MIN` has the right value, and the right form unless
it is zero. -/
theorem C68_from_i64_partial (n : Int) (h1 : -2 ^ 63 < n) (h2 : n < 2 ^ 63) :
    ∃ c, BInt.fromI64 n = .ok c ∧ c.toInt = n ∧ (c.Canon ↔ n ≠ 0) := by
  have key : ∀ (s : Sign) (m : Nat), m < 2 ^ 64 → ((⟨s, [m]⟩ : BInt).Canon ↔ m ≠ 0) := by
    intro s m hm
    refine ⟨fun hc => (C68_from_u64_partial m hm).2.1 hc.1,
      fun h0 => ⟨(C68_from_u64_partial m hm).2.2 h0, fun e => ?_⟩⟩
    cases e
  unfold BInt.fromI64
  by_cases h : n < 0
  · simp only [h, if_true, Sign.toInt]
    rw [if_neg (by omega)]
    refine ⟨_, rfl, ?_, (key _ _ (by omega)).trans (by omega)⟩
    simp only [BInt.toInt, signed, val_cons, val_nil]; omega
  · simp only [h, if_false, Sign.toInt]
    rw [if_neg (by omega)]
    refine ⟨_, rfl, ?_, (key _ _ (by omega)).trans (by omega)⟩
    simp only [BInt.toInt, signed, val_cons, val_nil]; omega

/-- `from_i64(i64::MIN)` overflows in `n * sign`. -/
theorem C68_from_i64_min_violated : BInt.fromI64 (-2 ^ 63) = .error (.panic .overflow) := by
  decide +kernel

/-- `from_u64(0)` differs from `ZERO` and is not `is_zero`. -/
theorem C68_from_u64_zero_violated :
    val (BigUint.fromU64 0) = 0 ∧ BigUint.isZero (BigUint.fromU64 0) = false ∧
      ¬ UCanon (BigUint.fromU64 0) := by decide

theorem C68_violated : ¬ ConversionsExact := fun h =>
  C68_from_u64_zero_violated.2.2 (h.1 0 (by decide)).2

example : BigUint.fromU64 7 = [7] ∧ UCanon [7] ∧ (-2 ^ 63 : Int) < -5 ∧
    BInt.fromI64 (-5) = .ok ⟨.neg, [5]⟩ ∧ BInt.fromU64 9 = ⟨.pos, [9]⟩ := by decide +kernel

/-- `js_bigint::from_u64` tests for zero: both signs, every number -/
theorem C68_js_from_u64 (s : Sign) (n : Nat) (h : n < 2 ^ 64) :
    (JsBig.fromU64 s n).toInt = signed s n ∧ (JsBig.fromU64 s n).Canon := by
  exact ⟨fromU64_toInt s n, fromU64_canon (by rw [B_eq]; exact h)⟩

end Nanvm
