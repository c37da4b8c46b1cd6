import Verif.Props.BigNumbers
import Verif.Lemmas.DivAny
/-!
# Property theorems C05, C11, C15: division by any divisor

The division loops can fail for divisors of several limbs.  These theorems say what remains true
for all divisors: no panic, and what can be wrong about a result.
-/
namespace Nanvm
open JsBig

/-! ## C05 -/

/-- Proved part, for every divisor: the loop does not end, or the result satisfies
`|q|·|b| + |r| = |a| + k·2^(64 L)` for some `k ≥ 0`, where `2^(64 L)` is larger than the divisor.  The
remainder is smaller than the divisor and the quotient has the right sign.  Missing: `k = 0` and the
end of the loop, which fail for some divisors (`C05_quotient_violated`,
`C05_termination_violated`). -/
theorem C05_outcome_partial (a b : JsBig) (ha : a.Canon) (hb : b.Canon) (h0 : b.toInt ≠ 0)
    (hab : b.toInt.natAbs ≤ a.toInt.natAbs) (fuel : Nat) :
    divMod fuel a b = .error .fuel ∨
    ∃ q r, divMod fuel a b = .ok (q, r) ∧ q.Canon ∧ r.Canon ∧
      r.toInt.natAbs < b.toInt.natAbs ∧
      q.toInt = a.toInt.sign * b.toInt.sign * q.toInt.natAbs ∧
      ∃ L k, b.toInt.natAbs < 2 ^ (64 * L) ∧
        q.toInt.natAbs * b.toInt.natAbs + r.toInt.natAbs = a.toInt.natAbs + k * 2 ^ (64 * L) := by
  have hbpos : 0 < val b.items := by rw [← natAbs_toInt]; omega
  have hapos : 0 < val a.items := by rw [natAbs_toInt, natAbs_toInt] at hab; omega
  have hb0 : b.items ≠ [] := ne_nil_of_val_pos hbpos
  have hbz : b.isZero = false := by
    rw [Bool.eq_false_iff, ne_eq, isZero_iff]; exact hb0
  have hnat : ∀ s n, (signed s n).natAbs = n := by intro s n; cases s <;> simp [signed]
  have hsig : ∀ n : Nat, signed (mulSign a b) n = a.toInt.sign * b.toInt.sign * (n : Int) := by
    intro n
    have hs : ∀ s m, 0 < m → (signed s m).sign = if s = .pos then 1 else -1 := by
      intro s m hm
      cases s
      · simp only [signed, if_true]; exact Int.sign_eq_one_of_pos (by omega)
      · simp only [signed, reduceCtorEq, if_false]; exact Int.sign_eq_neg_one_of_neg (by omega)
    rw [toInt_eq_signed a, toInt_eq_signed b, hs _ _ hapos, hs _ _ hbpos]
    unfold mulSign
    cases a.sign <;> cases b.sign <;> simp [signed]
  have hL : val b.items < 2 ^ (64 * b.items.length) := by
    rw [← Bpow]; exact val_lt hb.limbs
  unfold divMod
  rw [hbz]
  simp only [Bool.false_eq_true, if_false]
  rw [natAbs_toInt, natAbs_toInt] at hab
  rcases cmpVec_cases ha.limbs hb.limbs ha.norm hb.norm with ⟨hc, hv⟩ | ⟨hc, hv⟩ | ⟨hc, hv⟩
  · omega
  · rw [hc]
    refine .inr ⟨_, _, rfl, fromU64_canon (by decide), zero_canon, ?_, ?_,
      b.items.length, 0, ?_, ?_⟩
    · rw [zero_toInt, natAbs_toInt]; exact hbpos
    · rw [fromU64_toInt, hnat]; exact hsig 1
    · rw [natAbs_toInt]; exact hL
    · rw [zero_toInt, fromU64_toInt, hnat, natAbs_toInt, natAbs_toInt, hv]; simp
  · rw [hc]
    rcases JsBig.divLoop_any hb.limbs hb.norm hb0 fuel a.items [] ha.limbs ha.norm
      (by simp [Limbs]) (by simp [Norm]) with e | ⟨q, r, e, lq, nq, lr, nr, hlt, k, hval⟩
    · left; simp only [e]; rfl
    · right
      refine ⟨new (mulSign a b) q, new (mulSign a b) r, by simp only [e]; rfl, new_canon lq nq,
        new_canon lr nr, ?_, ?_, b.items.length, k, ?_, ?_⟩
      · rw [new_toInt, hnat, natAbs_toInt]; exact hlt
      · rw [new_toInt, hnat]; exact hsig _
      · rw [natAbs_toInt]; exact hL
      · rw [new_toInt, hnat, new_toInt, hnat, natAbs_toInt, natAbs_toInt, ← Bpow]
        simp only [val_nil, Nat.mul_zero, Nat.add_zero] at hval
        rw [Nat.mul_comm (val q)]; omega

theorem tdiv_eq_sign (x y : Int) :
    x.tdiv y = x.sign * y.sign * ((x.natAbs / y.natAbs : Nat) : Int) := by
  have h : ∀ n m : Nat, (n : Int).tdiv m = ((n / m : Nat) : Int) := fun n m => by simp [Int.tdiv]
  rcases Nat.eq_zero_or_pos x.natAbs with h0 | h0
  · have : x = 0 := by omega
    subst this; simp
  rcases Nat.eq_zero_or_pos y.natAbs with h1 | h1
  · have : y = 0 := by omega
    subst this; simp
  rcases Int.eq_nat_or_neg x with ⟨n, rfl | rfl⟩ <;> rcases Int.eq_nat_or_neg y with ⟨m, rfl | rfl⟩ <;>
    simp only [Int.natAbs_neg, Int.natAbs_natCast] at h0 h1 ⊢ <;>
    simp only [Int.neg_tdiv, Int.tdiv_neg, h, Int.sign_neg, Int.sign_natCast_of_ne_zero
      (Nat.pos_iff_ne_zero.1 h0), Int.sign_natCast_of_ne_zero (Nat.pos_iff_ne_zero.1 h1)] <;> ring

/-- A quotient is never too small, and a right quotient comes with a remainder of the right
magnitude. -/
theorem C05_too_large_partial (a b : JsBig) (ha : a.Canon) (hb : b.Canon) (h0 : b.toInt ≠ 0)
    (hab : b.toInt.natAbs ≤ a.toInt.natAbs) (fuel : Nat) (q r : JsBig)
    (h : divMod fuel a b = .ok (q, r)) :
    (a.toInt.tdiv b.toInt).natAbs ≤ q.toInt.natAbs ∧
    ((a.toInt.tdiv b.toInt).natAbs = q.toInt.natAbs →
      q.toInt = a.toInt.tdiv b.toInt ∧ r.toInt.natAbs = (a.toInt.tmod b.toInt).natAbs) := by
  rcases C05_outcome_partial a b ha hb h0 hab fuel with e | ⟨q', r', e, -, -, hr, hq, L, k, hL, hk⟩
  · rw [e] at h; cases h
  rw [e] at h; cases h
  have hbpos : 0 < b.toInt.natAbs := by omega
  have hdv : (a.toInt.tdiv b.toInt).natAbs = a.toInt.natAbs / b.toInt.natAbs := by
    rw [Int.natAbs_tdiv]; rfl
  have hmd : (a.toInt.tmod b.toInt).natAbs = a.toInt.natAbs % b.toInt.natAbs := by
    rw [Int.natAbs_tmod]
  rw [hdv, hmd, tdiv_eq_sign]
  generalize a.toInt.natAbs = A at *
  generalize b.toInt.natAbs = D at *
  generalize q.toInt.natAbs = Q at *
  generalize r.toInt.natAbs = R at *
  have hdm := Nat.div_add_mod A D
  have hml := Nat.mod_lt A hbpos
  refine ⟨?_, ?_⟩
  · have h1 : A / D * D < (Q + 1) * D := by
      rw [Nat.add_mul, Nat.one_mul, Nat.mul_comm (A / D)]
      generalize k * 2 ^ (64 * L) = K at hk
      omega
    have := Nat.lt_of_mul_lt_mul_right h1
    omega
  · intro e
    rw [← e, Nat.mul_comm (A / D)] at hk
    have hk0 : k = 0 := by
      by_contra hne
      have : 2 ^ (64 * L) ≤ k * 2 ^ (64 * L) := Nat.le_mul_of_pos_left _ (by omega)
      generalize k * 2 ^ (64 * L) = K at *
      generalize 2 ^ (64 * L) = N at *
      omega
    subst hk0
    exact ⟨by rw [hq, ← e], by omega⟩

example : (new .neg [1, 2, 3]).Canon ∧ (new .pos [7, 2 ^ 64 - 1]).Canon ∧
    (new .pos [7, 2 ^ 64 - 1]).toInt ≠ 0 ∧
    (new .pos [7, 2 ^ 64 - 1]).toInt.natAbs ≤ (new .neg [1, 2, 3]).toInt.natAbs ∧
    divMod 10 (new .pos [0, 5]) (new .pos [B - 1, 1]) = .ok (new .pos [4, 3], new .pos [4]) := by
  decide +kernel

/-! ## C11 -/

/-- Proved part, for every divisor: either the loop never ends, or it ends within `val a + 1`
iterations.  Then the remainder is smaller than the divisor, and the result is right, or the
remainder is 0 and the quotient is too large, but only by the factor `1 + 1/t` where `t` is the top limb
of the divisor (so it is at most twice as large).  Missing: the last two cases are excluded only for the
divisors of `C11_divmod_partial`. -/
theorem C11_outcome_partial (a b : List Nat) (ha : UCanon a) (hb : UCanon b) (h0 : b ≠ []) :
    (∀ fuel, BigUint.divMod fuel a b = .error .fuel) ∨
    ∃ q r, (∀ fuel, val a < fuel → BigUint.divMod fuel a b = .ok (q, r)) ∧ UCanon q ∧ UCanon r ∧
      val r < val b ∧
      (val a = val q * val b + val r ∨ val r = 0 ∧ val a < val q * val b ∧
        b.getLast h0 * (val q * val b) ≤ (b.getLast h0 + 1) * val a) := by
  have hbpos : 0 < val b := val_pos hb.2 h0
  have hbz : BigUint.isZero b = false := by simpa [BigUint.isZero] using h0
  unfold BigUint.divMod BigUint.cmp
  rw [hbz]
  simp only [Bool.false_eq_true, if_false]
  rcases cmpVec_cases ha.1 hb.1 ha.2 hb.2 with ⟨hc, hv⟩ | ⟨hc, hv⟩ | ⟨hc, hv⟩
  · rw [hc]
    exact .inr ⟨[], a, fun _ _ => rfl, by decide, ha, hv, .inl (by simp)⟩
  · rw [hc]
    exact .inr ⟨[1], [], fun _ _ => rfl, by decide, by decide, by simpa using hbpos,
      .inl (by simp [val_cons, hv])⟩
  · rw [hc]
    rcases BigUint.divLoop_any hb.1 hb.2 h0 (val a + 1) a [] (by omega) ha.1 ha.2
      (by simp [Limbs]) (by simp [Norm]) with e | ⟨q, r, e, lq, nq, lr, nr, hlt, hval⟩
    · exact .inl e
    · refine .inr ⟨q, r, fun fuel hf => e fuel (by omega), ⟨lq, nq⟩, ⟨lr, nr⟩, hlt, ?_⟩
      simp only [val_nil, Nat.mul_zero, Nat.add_zero] at hval
      rw [Nat.mul_comm (val q), Nat.add_mul, Nat.one_mul]
      omega

/-- A quotient is never too small and never more than twice as large as it should be. -/
theorem C11_twice_partial (a b : List Nat) (ha : UCanon a) (hb : UCanon b) (h0 : b ≠ []) (fuel : Nat)
    (hf : val a < fuel) (q r : List Nat) (h : BigUint.divMod fuel a b = .ok (q, r)) :
    val a / val b ≤ val q ∧ val q * val b ≤ 2 * val a := by
  have hbpos : 0 < val b := val_pos hb.2 h0
  have ht : 0 < b.getLast h0 := Nat.pos_of_ne_zero fun e => hb.2 (by
    rw [List.getLast?_eq_some_getLast h0, e])
  rcases C11_outcome_partial a b ha hb h0 with e | ⟨q', r', e, -, -, hlt, hval⟩
  · rw [e] at h; cases h
  rw [e fuel hf] at h; cases h
  rcases hval with hval | ⟨-, h1, h2⟩
  · rw [hval]
    refine ⟨le_of_eq ?_, by omega⟩
    rw [Nat.mul_comm, Nat.mul_add_div hbpos, Nat.div_eq_of_lt hlt, Nat.add_zero]
  · refine ⟨Nat.div_le_of_le_mul (by rw [Nat.mul_comm]; omega), ?_⟩
    refine Nat.le_of_mul_le_mul_left (h2.trans ?_) ht
    rw [Nat.add_mul, Nat.one_mul, Nat.mul_left_comm, Nat.two_mul]
    exact Nat.add_le_add_left (Nat.le_mul_of_pos_left _ ht) _

/-- A remainder that is not 0 shows that the quotient and the remainder are right. -/
theorem C11_nonzero_remainder_partial (a b : List Nat) (ha : UCanon a) (hb : UCanon b)
    (h0 : b ≠ []) (fuel : Nat) (hf : val a < fuel) (q r : List Nat)
    (h : BigUint.divMod fuel a b = .ok (q, r)) (hr : r ≠ []) :
    val q = val a / val b ∧ val r = val a % val b := by
  rcases C11_outcome_partial a b ha hb h0 with e | ⟨q', r', e, -, cr, hlt, hval⟩
  · rw [e] at h; cases h
  rw [e fuel hf] at h; cases h
  have hrpos : 0 < val r := val_pos cr.2 hr
  have hbpos : 0 < val b := val_pos hb.2 h0
  have hval : val a = val q * val b + val r := by omega
  rw [hval, Nat.mul_comm, Nat.mul_add_div hbpos, Nat.mul_add_mod, Nat.div_eq_of_lt hlt,
    Nat.mod_eq_of_lt hlt]
  omega

/-- `5·2^64 / (2·2^64 - 1)` is 2, not 4. -/
example : UCanon [0, 5] ∧ UCanon [B - 1, 1] ∧
    BigUint.divMod 20 [0, 5] [B - 1, 1] = .ok ([4], []) := by decide +kernel

/-- `(7·2^128 + 5) / (2·2^64 + 3)`, a divisor of two limbs: the remainder is not 0. -/
example : UCanon [5, 0, 7] ∧ UCanon [3, 2] ∧
    BigUint.divMod 20 [5, 0, 7] [3, 2] = .ok ([9223372036854775802, 3], [9223372036854775831, 1]) := by
  decide +kernel

/-! ## C15 -/

/-- Proved part, for every divisor: either the division never ends, or the remainder is smaller than
the divisor, and quotient and remainder have the right magnitude, or the remainder is 0 and the
quotient is too large, but at most twice as large. -/
theorem C15_outcome_partial (a b : BInt) (ha : a.Canon) (hb : b.Canon) (h0 : b.toInt ≠ 0) :
    (∀ fuel, BInt.divMod fuel a b = .error .fuel ∧ BInt.div fuel a b = .error .fuel) ∨
    ∃ q r, (∀ fuel, a.toInt.natAbs < fuel →
        BInt.divMod fuel a b = .ok (q, r) ∧ BInt.div fuel a b = .ok q) ∧
      r.toInt.natAbs < b.toInt.natAbs ∧
      (q.toInt = a.toInt.tdiv b.toInt ∧ r.toInt.natAbs = (a.toInt.tmod b.toInt).natAbs ∨
        r.toInt = 0 ∧ a.toInt.natAbs < q.toInt.natAbs * b.toInt.natAbs ∧
          q.toInt.natAbs * b.toInt.natAbs ≤ 2 * a.toInt.natAbs) := by
  have hnat : ∀ s n, (signed s n).natAbs = n := by intro s n; cases s <;> simp [signed]
  have h0' : b.value ≠ [] := by
    intro h; apply h0; unfold BInt.toInt; rw [h]; cases b.sign <;> rfl
  have hbz : b.isZero = false := by
    unfold BInt.isZero BigUint.isZero; simpa using h0'
  have hbpos : 0 < val b.value := val_pos hb.1.2 h0'
  unfold BInt.toInt BInt.divMod BInt.div
  rw [hbz]
  simp only [Bool.false_eq_true, if_false]
  rcases C11_outcome_partial a.value b.value ha.1 hb.1 h0' with e | ⟨q, r, e, -, -, hlt, hval⟩
  · exact .inl fun fuel => by rw [e]; exact ⟨rfl, rfl⟩
  · refine .inr ⟨⟨if a.sign = b.sign then .pos else .neg, q⟩,
      ⟨if a.sign = b.sign then .pos else .neg, r⟩, ?_, ?_, ?_⟩
    · intro fuel hf
      rw [hnat] at hf
      rw [e fuel hf]; exact ⟨rfl, rfl⟩
    · rw [hnat, hnat]; exact hlt
    · rw [hnat, tdiv_signed, tmod_signed, hnat, hnat, hnat, hnat]
      rcases hval with h | ⟨h1, h2, -⟩
      · left
        rw [h, Nat.mul_comm, Nat.mul_add_div hbpos, Nat.mul_add_mod, Nat.div_eq_of_lt hlt,
          Nat.mod_eq_of_lt hlt]
        simp
      · right
        refine ⟨?_, h2, ?_⟩
        · rw [h1]; split <;> rfl
        · exact (C11_twice_partial a.value b.value ha.1 hb.1 h0' _ (Nat.lt_succ_self _) q r
            (e _ (Nat.lt_succ_self _))).2

example : BInt.Canon ⟨.neg, [5, 0, 7]⟩ ∧ BInt.Canon ⟨.pos, [3, 2]⟩ ∧
    BInt.toInt ⟨.pos, [3, 2]⟩ ≠ 0 := by decide +kernel

end Nanvm
