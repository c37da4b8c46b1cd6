import Verif.Props.Division
import Verif.Lemmas.DivExact
/-!
# Property theorems C11, C15: exactly when the division of `big_uint.rs` is right

`Spec/LongDivision.lean` says what long division is, how the code guesses the digits of the quotient,
and in which two ways a guess can be bad.  The first bad guess from the top decides.
-/
namespace Nanvm
open LongDiv

/-! ## C11 -/

/-- What the division does, for all operands: if no guess is bad it is right; if the first bad guess
overshoots, the remainder is 0 and the quotient has the digits of the right one above that position,
one less than the guess there and 0 below; if the first bad guess sticks it never ends. -/
theorem C11_exact_partial (a b : List Nat) (ha : UCanon a) (hb : UCanon b) (h0 : b ≠ []) :
    ((∀ i, ¬ Overshoots (val a) (val b) i ∧ ¬ Sticks (val a) (val b) i) →
      ∃ q r, (∀ fuel, a.length < fuel → BigUint.divMod fuel a b = .ok (q, r)) ∧ UCanon q ∧ UCanon r ∧
        val q = val a / val b ∧ val r = val a % val b) ∧
    (∀ i, Overshoots (val a) (val b) i → FineAbove (val a) (val b) i →
      ∃ q, (∀ fuel, a.length < fuel → BigUint.divMod fuel a b = .ok (q, [])) ∧ UCanon q ∧
        val q = val a / (val b * base ^ (i + 1)) * base ^ (i + 1) + (guess (val a) (val b) i - 1) * base ^ i) ∧
    (∀ i, ¬ Overshoots (val a) (val b) i → Sticks (val a) (val b) i → FineAbove (val a) (val b) i →
      ∀ fuel, BigUint.divMod fuel a b = .error .fuel) := by
  have hbd := bounded (a := a) ha.1 hb.1 hb.2 h0
  have h := divMod_outcome ha.1 ha.2 hb.1 hb.2 h0
  refine ⟨fun hf => ?_, fun i ho hf => ?_, fun i ho hs hf => ?_⟩
  · rw [outcome_fine hbd hf] at h
    obtain ⟨q, r, e, h1, h2, h3, h4, h5, h6⟩ := h
    exact ⟨q, r, e, ⟨h1, h2⟩, ⟨h3, h4⟩, h5, h6⟩
  · rw [outcome_over hbd ho hf] at h
    obtain ⟨q, r, e, h1, h2, h3, h4, h5, h6⟩ := h
    obtain rfl : r = [] := val_inj h3 (by simp [Limbs]) h4 (by simp [Norm]) h6
    exact ⟨q, e, ⟨h1, h2⟩, h5⟩
  · rw [outcome_stuck hbd ho hs hf] at h
    exact h

/-- The quotient after an overshooting guess is too large. -/
theorem C11_overshoot_partial (a b i : Nat) (hb : 0 < b) (ho : Overshoots a b i) :
    a / b < a / (b * base ^ (i + 1)) * base ^ (i + 1) + (guess a b i - 1) * base ^ i := by
  have hB : 0 < B ^ i := by have := B_pos; positivity
  unfold Overshoots at ho
  have h1 := div_add (a := a) (n := i + 1) hb i (by omega)
  rw [show i + 1 - i = 1 by omega, pow_one] at h1
  have h2 := div_add (a := a) (n := i) hb 0 (by omega)
  simp only [pow_zero, Nat.mul_one, Nat.sub_zero] at h2
  have h3 : a % (b * B ^ i) / b < B ^ i :=
    Nat.div_lt_of_lt_mul (Nat.mod_lt _ (Nat.mul_pos hb hB))
  have hd : digit a b i = a % (b * B ^ (i + 1)) / (b * B ^ i) := rfl
  rw [base_eq, ← h2, ← h1, ← hd]
  calc (a / (b * B ^ (i + 1)) * B + digit a b i) * B ^ i + a % (b * B ^ i) / b
      < (a / (b * B ^ (i + 1)) * B + digit a b i) * B ^ i + B ^ i := by omega
    _ = a / (b * B ^ (i + 1)) * B ^ (i + 1) + (digit a b i + 1) * B ^ i := by ring
    _ ≤ _ := Nat.add_le_add_left (Nat.mul_le_mul_right _ (by omega)) _

/-- **C11**, exactly: the division gives the quotient and the remainder if and only if no guess is
bad. -/
theorem C11_right_iff_partial (a b : List Nat) (ha : UCanon a) (hb : UCanon b) (h0 : b ≠ []) :
    (∃ fuel q r, BigUint.divMod fuel a b = .ok (q, r) ∧ val q = val a / val b ∧ val r = val a % val b) ↔
      ∀ i, ¬ Overshoots (val a) (val b) i ∧ ¬ Sticks (val a) (val b) i := by
  obtain ⟨h1, h2, h3⟩ := C11_exact_partial a b ha hb h0
  have hbpos : 0 < val b := val_pos hb.2 h0
  constructor
  · rintro ⟨fuel, q, r, e, hq, hr⟩
    rcases three (bounded (a := a) ha.1 hb.1 hb.2 h0) with h | ⟨i, ho, hf⟩ | ⟨i, ho, hs, hf⟩
    · exact h
    · exfalso
      obtain ⟨q', e', -, hq'⟩ := h2 i ho hf
      have hlt := C11_overshoot_partial (val a) (val b) i hbpos ho
      -- more fuel does not change a result
      have := divMod_mono (show fuel ≤ fuel + a.length + 1 by omega) e
      rw [e' _ (by omega)] at this
      cases this
      omega
    · rw [h3 i ho hs hf] at e; cases e
  · intro h
    obtain ⟨q, r, e, -, -, hq, hr⟩ := h1 h
    exact ⟨a.length + 1, q, r, e _ (by omega), hq, hr⟩

/-- **C11**, exactly: the division never ends if and only if the first bad guess sticks. -/
theorem C11_stuck_iff_partial (a b : List Nat) (ha : UCanon a) (hb : UCanon b) (h0 : b ≠ []) :
    (∀ fuel, BigUint.divMod fuel a b = .error .fuel) ↔
      ∃ i, ¬ Overshoots (val a) (val b) i ∧ Sticks (val a) (val b) i ∧ FineAbove (val a) (val b) i := by
  obtain ⟨h1, h2, h3⟩ := C11_exact_partial a b ha hb h0
  constructor
  · intro h
    rcases three (bounded (a := a) ha.1 hb.1 hb.2 h0) with hf | ⟨i, ho, hf⟩ | hs
    · obtain ⟨q, r, e, -⟩ := h1 hf
      have := e (a.length + 1) (by omega)
      rw [h] at this
      cases this
    · obtain ⟨q, e, -⟩ := h2 i ho hf
      have := e (a.length + 1) (by omega)
      rw [h] at this
      cases this
    · exact hs
  · rintro ⟨i, ho, hs, hf⟩
    exact h3 i ho hs hf

/-- It ends after at most as many iterations as the dividend has limbs. -/
theorem C11_iterations_partial (a b : List Nat) (ha : UCanon a) (hb : UCanon b) (h0 : b ≠ []) :
    (∀ fuel, BigUint.divMod fuel a b = .error .fuel) ∨
      ∃ x, ∀ fuel, a.length < fuel → BigUint.divMod fuel a b = .ok x := by
  obtain ⟨h1, h2, h3⟩ := C11_exact_partial a b ha hb h0
  rcases three (bounded (a := a) ha.1 hb.1 hb.2 h0) with hf | ⟨i, ho, hf⟩ | ⟨i, ho, hs, hf⟩
  · obtain ⟨q, r, e, -⟩ := h1 hf
    exact .inr ⟨_, e⟩
  · obtain ⟨q, e, -⟩ := h2 i ho hf
    exact .inr ⟨_, e⟩
  · exact .inl (h3 i ho hs hf)

/-! ## C15 -/

/-- **C15**, exactly: the quotient is right if and only if no guess for the magnitudes is bad; then
the remainder has the right magnitude.  It never ends if and only if the first bad guess sticks. -/
theorem C15_right_iff_partial (a b : BInt) (ha : a.Canon) (hb : b.Canon) (h0 : b.toInt ≠ 0) :
    ((∃ fuel q r, BInt.divMod fuel a b = .ok (q, r) ∧ q.toInt = a.toInt.tdiv b.toInt ∧
        r.toInt.natAbs = (a.toInt.tmod b.toInt).natAbs) ↔
      ∀ i, ¬ Overshoots a.toInt.natAbs b.toInt.natAbs i ∧ ¬ Sticks a.toInt.natAbs b.toInt.natAbs i) ∧
    ((∀ fuel, BInt.divMod fuel a b = .error .fuel) ↔
      ∃ i, ¬ Overshoots a.toInt.natAbs b.toInt.natAbs i ∧ Sticks a.toInt.natAbs b.toInt.natAbs i ∧
        FineAbove a.toInt.natAbs b.toInt.natAbs i) := by
  have hnat : ∀ s n, (signed s n).natAbs = n := by intro s n; cases s <;> simp [signed]
  have h0' : b.value ≠ [] := by
    intro h; apply h0; unfold BInt.toInt; rw [h]; cases b.sign <;> rfl
  have hbz : b.isZero = false := by
    unfold BInt.isZero BigUint.isZero; simpa using h0'
  have hbpos : 0 < val b.value := val_pos hb.1.2 h0'
  have hrun (fuel : Nat) : BInt.divMod fuel a b = (BigUint.divMod fuel a.value b.value).map fun x =>
      (⟨if a.sign = b.sign then .pos else .neg, x.1⟩, ⟨if a.sign = b.sign then .pos else .neg, x.2⟩) := by
    unfold BInt.divMod
    rw [hbz]
    simp only [Bool.false_eq_true, if_false]
    cases BigUint.divMod fuel a.value b.value <;> rfl
  have hA : a.toInt.natAbs = val a.value := by unfold BInt.toInt; rw [hnat]
  have hB : b.toInt.natAbs = val b.value := by unfold BInt.toInt; rw [hnat]
  rw [hA, hB, ← C11_right_iff_partial a.value b.value ha.1 hb.1 h0',
    ← C11_stuck_iff_partial a.value b.value ha.1 hb.1 h0']
  have htd : a.toInt.tdiv b.toInt =
      signed (if a.sign = b.sign then .pos else .neg) (val a.value / val b.value) := by
    unfold BInt.toInt; rw [tdiv_signed]
  have htm : (a.toInt.tmod b.toInt).natAbs = val a.value % val b.value := by
    unfold BInt.toInt; rw [tmod_signed, hnat]
  rw [htd, htm]
  refine ⟨⟨?_, ?_⟩, ?_⟩
  · rintro ⟨fuel, q, r, e, hq, hr⟩
    rw [hrun] at e
    cases hu : BigUint.divMod fuel a.value b.value with
    | error x => rw [hu] at e; cases e
    | ok x =>
      rw [hu] at e
      obtain ⟨x, y⟩ := x
      cases e
      refine ⟨fuel, x, y, hu, ?_, ?_⟩
      · have := congrArg Int.natAbs hq
        unfold BInt.toInt at this
        rwa [hnat, hnat] at this
      · unfold BInt.toInt at hr
        rwa [hnat] at hr
  · rintro ⟨fuel, q, r, e, hq, hr⟩
    refine ⟨fuel, _, _, by rw [hrun, e]; rfl, ?_, ?_⟩
    · unfold BInt.toInt; rw [hq]
    · unfold BInt.toInt; rw [hnat, hr]
  · refine forall_congr' fun fuel => ?_
    rw [hrun]
    cases BigUint.divMod fuel a.value b.value with
    | error x =>
      simp only [Except.map]
      constructor <;> intro h <;> cases h <;> rfl
    | ok x =>
      simp only [Except.map]
      constructor <;> intro h <;> cases h

/-! ## Cases -/

/-- divisors whose other limbs are 0 are never guessed wrong: the case of `C11_divmod_partial` -/
example (a d k : Nat) (hd : leading (d * base ^ k) = d * base ^ k) (hp : 0 < d) (i : Nat) :
    ¬ Overshoots a (d * base ^ k) i ∧ ¬ Sticks a (d * base ^ k) i := by
  unfold Overshoots Sticks digit guess
  rw [hd]
  refine ⟨by omega, fun h => ?_⟩
  have := Nat.mod_lt a (show 0 < d * base ^ k * base ^ i by unfold base; positivity)
  omega

/-- all three happen: `7·2^128 + 5` by `2·2^64 + 3` is right, `5·2^64` by `2·2^64 - 1` overshoots, and
`2^128` by `2^64 + 1` sticks -/
example : ¬ Overshoots (7 * 2 ^ 128 + 5) (2 * 2 ^ 64 + 3) 0 ∧ Overshoots (5 * 2 ^ 64) (2 * 2 ^ 64 - 1) 0 ∧
    Sticks (2 ^ 128) (2 ^ 64 + 1) 1 ∧ ¬ Overshoots (2 ^ 128) (2 ^ 64 + 1) 1 := by
  have h (n : Nat) (h1 : 2 ^ 64 ≤ n) (h2 : n < 2 ^ 128) : leading n = n / 2 ^ 64 * 2 ^ 64 := by
    have : Nat.log base n = 1 := (Nat.log_eq_iff (.inr ⟨by decide, by omega⟩)).2
      ⟨by unfold base; omega, by unfold base; omega⟩
    unfold leading
    rw [this]; rfl
  unfold Overshoots Sticks digit guess
  rw [h _ (by norm_num) (by norm_num), h _ (by norm_num) (by norm_num), h _ (by norm_num) (by norm_num)]
  decide +kernel

end Nanvm
