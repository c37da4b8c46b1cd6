import Verif.Props.Division
import Verif.Lemmas.LowDivision
/-!
# Property theorems C05: exactly when the division of `js_bigint.rs` is right

`Spec/LowDivision.lean` says on numbers how the code guesses and corrects the digits of the quotient.
-/
namespace Nanvm
open JsBig LongDiv

theorem goesWell_self {b : Nat} (h1 : 0 < leading b) (h2 : leading b ≤ b) (h3 : b < 2 * leading b) :
    GoesWell b b := by
  have hq : b / leading b = 1 := Nat.div_eq_of_lt_le (by omega) (by omega)
  have hp : place b b = 0 := by unfold place; rw [hq]; exact Nat.log_one_right _
  have ht : tried b b = 1 := by unfold tried; rw [hp, pow_zero, Nat.mul_one]; exact hq
  have hn : ¬ LowBefore b (b * (tried b b * base ^ place b b)) := by
    rw [ht, hp]
    simp only [pow_zero, Nat.mul_one]
    rintro ⟨k, -, h⟩
    exact lt_irrefl _ h
  refine .digit (d := 1) le_rfl ⟨fun h => absurd h hn, fun _ => ht.symm⟩ Nat.one_pos ?_ ?_
  · rw [hp]; simp
  · rw [hp]; simp only [pow_zero, Nat.mul_one, Nat.sub_self]; exact .small (by omega)

/-- If every digit that is taken goes well, the division ends with the right quotient and a remainder of
the right magnitude. -/
theorem C05_goes_well_partial (a b : JsBig) (ha : a.Canon) (hb : b.Canon) (h0 : b.toInt ≠ 0)
    (hab : b.toInt.natAbs ≤ a.toInt.natAbs) (h : GoesWell b.toInt.natAbs a.toInt.natAbs) :
    ∃ q r, (∀ fuel, a.toInt.natAbs < fuel → divMod fuel a b = .ok (q, r)) ∧ q.Canon ∧ r.Canon ∧
      q.toInt = a.toInt.tdiv b.toInt ∧ r.toInt.natAbs = (a.toInt.tmod b.toInt).natAbs := by
  have hdm : ∃ x, ∀ fuel, a.toInt.natAbs < fuel → divMod fuel a b = .ok x ∧
      x.1.toInt.natAbs = a.toInt.natAbs / b.toInt.natAbs := by
    have hbpos : 0 < val b.items := by rw [← natAbs_toInt]; omega
    have hbz : b.isZero = false := by
      rw [Bool.eq_false_iff, ne_eq, isZero_iff]; exact ne_nil_of_val_pos hbpos
    have hnat : ∀ s n, (signed s n).natAbs = n := by intro s n; cases s <;> simp [signed]
    rw [natAbs_toInt, natAbs_toInt] at *
    unfold divMod
    rw [hbz]
    simp only [Bool.false_eq_true, if_false]
    rcases cmpVec_cases ha.limbs hb.limbs ha.norm hb.norm with ⟨hc, hv⟩ | ⟨hc, hv⟩ | ⟨hc, hv⟩
    · omega
    · rw [hc]
      refine ⟨_, fun fuel _ => ⟨rfl, ?_⟩⟩
      rw [fromU64_toInt, hnat, hv, Nat.div_self hbpos]
    · rw [hc]
      obtain ⟨q, r, e, hq, -⟩ := goesWell_loop (divisor hb.limbs hb.norm (ne_nil_of_val_pos hbpos)) h
        a.items [] rfl ha.limbs ha.norm (by simp [Limbs]) (by simp [Norm])
      refine ⟨(new (mulSign a b) q, new (mulSign a b) r), fun fuel hf => ⟨?_, ?_⟩⟩
      · simp only [e fuel hf]; rfl
      · rw [new_toInt, hnat, hq]; simp
  obtain ⟨⟨q, r⟩, hx⟩ := hdm
  have hf := hx (a.toInt.natAbs + 1) (by omega)
  rcases C05_outcome_partial a b ha hb h0 hab (a.toInt.natAbs + 1) with e | ⟨q', r', e, cq, cr, -⟩
  · rw [hf.1] at e; cases e
  · rw [hf.1] at e
    cases e
    obtain ⟨e1, e2⟩ := (C05_too_large_partial a b ha hb h0 hab _ q r hf.1).2 (by
      rw [hf.2]
      exact (Int.natAbs_tdiv a.toInt b.toInt))
    exact ⟨q, r, fun fuel h => (hx fuel h).1, cq, cr, e1, e2⟩

/-- The division gives the right quotient exactly if every digit that is taken goes well; otherwise it
never ends, or the quotient is too large. -/
theorem C05_right_iff_partial (a b : JsBig) (ha : a.Canon) (hb : b.Canon) (h0 : b.toInt ≠ 0)
    (hab : b.toInt.natAbs ≤ a.toInt.natAbs) :
    ((∃ fuel q r, divMod fuel a b = .ok (q, r) ∧ q.toInt = a.toInt.tdiv b.toInt) ↔
      GoesWell b.toInt.natAbs a.toInt.natAbs) ∧
    (¬ GoesWell b.toInt.natAbs a.toInt.natAbs → ∀ fuel q r, divMod fuel a b = .ok (q, r) →
      (a.toInt.tdiv b.toInt).natAbs < q.toInt.natAbs) := by
  have key : ∀ fuel q r, divMod fuel a b = .ok (q, r) → q.toInt = a.toInt.tdiv b.toInt →
      GoesWell b.toInt.natAbs a.toInt.natAbs := by
    intro fuel q r e hq
    have hbpos : 0 < val b.items := by rw [← natAbs_toInt]; omega
    have hbz : b.isZero = false := by
      rw [Bool.eq_false_iff, ne_eq, isZero_iff]; exact ne_nil_of_val_pos hbpos
    have hD := divisor hb.limbs hb.norm (ne_nil_of_val_pos hbpos)
    have hnat : ∀ s n, (signed s n).natAbs = n := by intro s n; cases s <;> simp [signed]
    have hq' : q.toInt.natAbs = a.toInt.natAbs / b.toInt.natAbs := by
      rw [hq]; exact Int.natAbs_tdiv a.toInt b.toInt
    rw [natAbs_toInt a, natAbs_toInt b] at *
    unfold divMod at e
    rw [hbz] at e
    simp only [Bool.false_eq_true, if_false] at e
    rcases cmpVec_cases ha.limbs hb.limbs ha.norm hb.norm with ⟨hc, hv⟩ | ⟨hc, hv⟩ | ⟨hc, hv⟩
    · omega
    · rw [hv]; exact goesWell_self hD.pos hD.le hD.lt
    · rw [hc] at e
      simp only at e
      cases hl : divLoop b.items fuel a.items [] with
      | error x => rw [hl] at e; cases e
      | ok x =>
        obtain ⟨q', r'⟩ := x
        rw [hl] at e
        cases e
        refine loop_goesWell hD fuel a.items [] q' r' ha.limbs ha.norm (by simp [Limbs]) (by simp [Norm])
          hl ?_
        rw [new_toInt, hnat] at hq'
        rw [hq']; simp
  refine ⟨⟨fun ⟨fuel, q, r, e, hq⟩ => key fuel q r e hq, fun h => ?_⟩, fun h fuel q r e => ?_⟩
  · obtain ⟨q, r, e, -, -, hq, -⟩ := C05_goes_well_partial a b ha hb h0 hab h
    exact ⟨_, q, r, e _ (Nat.lt_succ_self _), hq⟩
  · obtain ⟨h1, h2⟩ := C05_too_large_partial a b ha hb h0 hab fuel q r e
    rcases Nat.lt_or_eq_of_le h1 with h3 | h3
    · exact h3
    · exact absurd (key fuel q r e (h2 h3).1) h

/-- a division by a number of two limbs that goes well: `(5·2^128 + 2·2^64 + 7) / (2·2^64 + 1)` -/
example : GoesWell (2 * 2 ^ 64 + 1) (5 * 2 ^ 128 + 2 * 2 ^ 64 + 7) := by
  have h := (C05_right_iff_partial (new .pos [7, 2, 5]) (new .pos [1, 2]) (by decide) (by decide)
    (by decide) (by decide)).1.1 ⟨20, new .pos [2 ^ 63 - 1, 2], new .pos [2 ^ 63 + 8, 1], by decide +kernel⟩
  have e1 : (new .pos [7, 2, 5]).toInt.natAbs = 5 * 2 ^ 128 + 2 * 2 ^ 64 + 7 := by decide +kernel
  have e2 : (new .pos [1, 2]).toInt.natAbs = 2 * 2 ^ 64 + 1 := by decide +kernel
  rwa [e1, e2] at h

/-- and one that does not: `2^64 / (2^63 + 1)` -/
example : ¬ GoesWell (2 ^ 63 + 1) (2 ^ 64) := by
  intro h
  have e1 : (new .pos [0, 1]).toInt.natAbs = 2 ^ 64 := by decide +kernel
  have e2 : (new .pos [2 ^ 63 + 1]).toInt.natAbs = 2 ^ 63 + 1 := by decide +kernel
  rw [← e1, ← e2] at h
  obtain ⟨fuel, q, r, e, -⟩ := (C05_right_iff_partial (new .pos [0, 1]) (new .pos [2 ^ 63 + 1]) (by decide)
    (by decide) (by decide) (by decide)).1.2 h
  rw [C05_termination_violated] at e
  cases e

end Nanvm
