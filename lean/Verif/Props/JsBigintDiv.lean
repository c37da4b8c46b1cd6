import Verif.Props.JsBigint
/-!
# Property theorems C05, C06, C08, C09: bigint division, power, right shift, bitwise

The code violates each of these four properties; every violation is proved with a
concrete witness, and the part of the domain where the code is right is proved in
full generality (`…_partial`).
-/
namespace Nanvm
open JsBig

/-! ## C05: division -/

/-- JavaScript division: truncated quotient, remainder with the sign of the dividend. -/
def IsDivMod (a b q r : Int) : Prop := q = a.tdiv b ∧ r = a.tmod b

/-- The full property: every division by a non-zero bigint terminates with the right pair. -/
def DivModCorrect : Prop :=
  ∀ a b : JsBig, a.Canon → b.Canon → b.toInt ≠ 0 →
    ∃ fuel q r, divMod fuel a b = .ok (q, r) ∧ IsDivMod a.toInt b.toInt q.toInt r.toInt

/-- `2 / 7` reports the remainder 7. -/
theorem C05_divmod_violated : ¬ DivModCorrect := by
  intro h
  obtain ⟨f, q, r, e, -, h2⟩ := h (new .pos [2]) (new .pos [7]) (by decide) (by decide) (by decide)
  have e2 : divMod f (new .pos [2]) (new .pos [7]) = .ok (zero, new .pos [7]) := rfl
  rw [e2] at e
  cases e
  revert h2; decide

/-- The remainder has the wrong sign for a negative divisor: `7 mod -2` is −1, not 1. -/
theorem C05_remainder_sign_violated :
    ∃ q r, divMod 10 (new .pos [7]) (new .neg [2]) = .ok (q, r) ∧
      q.toInt = -3 ∧ r.toInt = -1 ∧ (7 : Int).tmod (-2) = 1 :=
  ⟨new .neg [3], new .neg [1], by decide +kernel⟩

/-- A wrong quotient for a two-limb divisor: `5·2^64 / (2^65 − 1)` is 2, the code
answers `3·2^64 + 4`. -/
theorem C05_quotient_violated :
    ∃ q r, divMod 10 (new .pos [0, 5]) (new .pos [B - 1, 1]) = .ok (q, r) ∧
      q.toInt = 3 * 2 ^ 64 + 4 ∧ (5 * 2 ^ 64 : Int).tdiv (2 ^ 65 - 1) = 2 :=
  ⟨new .pos [4, 3], new .pos [4], by decide +kernel⟩

/-- The division `2^64 / (2^63 + 1)` never terminates: no iteration bound suffices. -/
theorem C05_termination_violated (fuel : Nat) :
    divMod fuel (new .pos [0, 1]) (new .pos [2 ^ 63 + 1]) = .error .fuel := by
  have key : ∀ f r, (r = [] ∨ r = [0]) →
      divLoop [2 ^ 63 + 1] f [0, 1] r = .error .fuel := by
    intro f
    induction f with
    | zero => intro r _; rfl
    | succ f ih =>
      intro r hr
      have hc : cmpVec [0, 1] [2 ^ 63 + 1] = .gt := by decide +kernel
      have hs : divStep [0, 1] [2 ^ 63 + 1] r = .ok ([0, 1], [0]) := by
        rcases hr with rfl | rfl <;> decide +kernel
      unfold divLoop
      rw [hc, hs]
      exact ih [0] (Or.inr rfl)
  have hc : cmpVec (new .pos [0, 1]).items (new .pos [2 ^ 63 + 1]).items = .gt := by decide +kernel
  unfold divMod
  rw [hc]
  have : (new .pos [2 ^ 63 + 1]).isZero = false := rfl
  simp only [this, new_items, key fuel [] (Or.inl rfl)]
  rfl

theorem natAbs_toInt (a : JsBig) : a.toInt.natAbs = val a.items := by
  unfold JsBig.toInt; split <;> omega

theorem tdiv_signed (s t : Sign) (n m : Nat) :
    (signed s n).tdiv (signed t m) = signed (if s = t then .pos else .neg) (n / m) := by
  have h : (n : Int).tdiv m = ((n / m : Nat) : Int) := by simp [Int.tdiv]
  cases s <;> cases t <;> simp [signed, Int.neg_tdiv, Int.tdiv_neg] <;> rfl

theorem tmod_signed (s t : Sign) (n m : Nat) :
    (signed s n).tmod (signed t m) = signed s (n % m) := by
  cases s <;> cases t <;> simp [signed, Int.neg_tmod, Int.tmod_neg] <;> rfl

/-- Proved part (division).  For divisors of the form `±d·2^(64k)` with `0 < d ≤ 2^63`
(in particular every non-zero divisor of at most 63 bits) and dividends not smaller
than the divisor in magnitude, the loop terminates after at most two iterations per limb of
the dividend, the quotient is the truncated
quotient, the remainder has the right magnitude, and it has the right sign when the
divisor is positive.  Missing: other multi-limb divisors, `|a| < |b|` remainders and
the sign of remainders by negative divisors, where the code is wrong (see above). -/
theorem C05_divmod_partial (a b : JsBig) (ha : a.Canon) (hb : b.Canon) (k d : Nat)
    (hd0 : 0 < d) (hd : d ≤ 2 ^ 63) (hbv : b.toInt.natAbs = d * 2 ^ (64 * k))
    (hab : b.toInt.natAbs ≤ a.toInt.natAbs) (fuel : Nat) (hf : 2 * a.items.length < fuel) :
    ∃ q r, divMod fuel a b = .ok (q, r) ∧ q.Canon ∧ r.Canon ∧
      q.toInt = a.toInt.tdiv b.toInt ∧ r.toInt.natAbs = (a.toInt.tmod b.toInt).natAbs ∧
      (0 < b.toInt → r.toInt = a.toInt.tmod b.toInt) := by
  rw [natAbs_toInt] at hbv hab
  rw [natAbs_toInt] at hab
  have hdB : d < B := Nat.lt_of_le_of_lt hd (by decide)
  have hbi : b.items = hiVec k d := by
    refine val_inj hb.limbs (limbs_hiVec hdB) hb.norm (norm_hiVec (by omega)) ?_
    rw [hbv, val_hiVec, Bpow]
  have hbz : b.isZero = false := by
    rw [Bool.eq_false_iff, ne_eq, isZero_iff, hbi]; exact hiVec_ne _ _
  have hbpos : 0 < val b.items := by rw [hbv]; positivity
  rw [toInt_eq_signed a, toInt_eq_signed b, tdiv_signed, tmod_signed]
  have hsgn : (0 : Int) < signed b.sign (val b.items) → mulSign a b = a.sign := by
    intro h
    have hs : b.sign = .pos := by
      cases h1 : b.sign
      · rfl
      · rw [h1] at h; simp only [signed] at h; omega
    unfold mulSign
    rw [hs]; cases a.sign <;> rfl
  have hnat : ∀ s n, (signed s n).natAbs = n := by intro s n; cases s <;> simp [signed]
  rw [hnat]
  unfold divMod
  rw [hbz]
  simp only [Bool.false_eq_true, if_false]
  rcases cmpVec_cases ha.limbs hb.limbs ha.norm hb.norm with ⟨hc, hv⟩ | ⟨hc, hv⟩ | ⟨hc, hv⟩
  · omega
  · rw [hc]
    refine ⟨_, _, rfl, fromU64_canon (by decide), zero_canon, ?_, ?_, ?_⟩
    · rw [fromU64_toInt, hv, Nat.div_self hbpos]; rfl
    · rw [zero_toInt, hv, Nat.mod_self]; rfl
    · intro _; rw [zero_toInt, hv, Nat.mod_self]; cases a.sign <;> rfl
  · rw [hc]
    obtain ⟨q, r, e, lq, nq, lr, nr, hlt, hval⟩ := JsBig.divLoop_ok (k := k) hd hd0 fuel a.items []
      a.items.length ha.limbs ha.norm (by simp [Limbs]) (by simp [Norm])
      (.inl ⟨val_lt_hiVec ha.limbs hd0, hf⟩)
    rw [← hbi] at e hlt hval
    simp only [val_nil, Nat.mul_zero, Nat.add_zero] at hval
    have hdm : val q = val a.items / val b.items ∧ val r = val a.items % val b.items := by
      rw [← hval, Nat.add_mul_div_left _ _ hbpos, Nat.add_mul_mod_self_left,
        Nat.div_eq_of_lt hlt, Nat.mod_eq_of_lt hlt]; omega
    refine ⟨new (mulSign a b) q, new (mulSign a b) r, ?_, new_canon lq nq, new_canon lr nr,
      ?_, ?_, ?_⟩
    · simp only [e]; rfl
    · rw [new_toInt, hdm.1]; rfl
    · rw [new_toInt, hnat, hdm.2]
    · intro h; rw [new_toInt, hsgn h, hdm.2]

/-- Proved part (small dividends): the quotient is 0, as it should be; the returned
remainder always has the magnitude of the *divisor*. -/
theorem C05_small_dividend_partial (a b : JsBig) (ha : a.Canon) (hb : b.Canon)
    (hab : a.toInt.natAbs < b.toInt.natAbs) (fuel : Nat) :
    ∃ q r, divMod fuel a b = .ok (q, r) ∧ q.toInt = a.toInt.tdiv b.toInt ∧
      r.toInt.natAbs = b.toInt.natAbs := by
  rw [natAbs_toInt, natAbs_toInt] at hab
  have hbz : b.isZero = false := by
    rw [Bool.eq_false_iff, ne_eq, isZero_iff]
    intro h; rw [h] at hab; simp at hab
  unfold divMod
  rw [hbz, cmpVec_eq ha.limbs hb.limbs ha.norm hb.norm, Nat.compare_eq_lt.2 hab]
  refine ⟨_, _, rfl, ?_, ?_⟩
  · rw [zero_toInt, toInt_eq_signed a, toInt_eq_signed b, tdiv_signed, Nat.div_eq_of_lt hab]
    split <;> rfl
  · rw [natAbs_toInt, natAbs_toInt]; rfl

/-- Division by zero is the panic "attempt to divide by zero", for every dividend. -/
theorem C05_div_zero_panics (a b : JsBig) (hb : b.Canon) (h0 : b.toInt = 0) (fuel : Nat) :
    divMod fuel a b = .error (.panic .explicit) := by
  have : val b.items = 0 := by rw [← natAbs_toInt, h0]; rfl
  rw [val_eq_zero_iff hb.norm] at this
  have hz : b.isZero = true := by rw [isZero_iff]; exact this
  unfold divMod; rw [hz]; rfl

example : (new .neg [1, 2, 3]).Canon ∧ (new .pos [0, 10 ^ 18]).Canon ∧
    (new .pos [0, 10 ^ 18]).toInt.natAbs = 10 ^ 18 * 2 ^ (64 * 1) ∧
    (new .pos [0, 10 ^ 18]).toInt.natAbs ≤ (new .neg [1, 2, 3]).toInt.natAbs := by decide +kernel

/-! ## C06: exponentiation -/

/-- The full property, for `pow`. -/
def PowCorrect : Prop :=
  ∀ a e : JsBig, a.Canon → e.Canon → 0 ≤ e.toInt → e.toInt < 2 ^ 64 →
    ∃ c, pow a e = .ok c ∧ c.toInt = a.toInt ^ e.toInt.toNat

/-- `(-1)^1` is computed as 1. -/
theorem C06_pow_violated : ¬ PowCorrect := by
  intro h
  obtain ⟨c, e, v⟩ := h (new .neg [1]) (new .pos [1]) (by decide) (by decide) (by decide) (by decide)
  have e2 : pow (new .neg [1]) (new .pos [1]) = .ok (fromU64 .pos 1) := rfl
  rw [e2] at e
  cases e
  revert v; decide

/-- `pow_u64` of zero panics (`len - 1` underflows in `mul_vec`) for every exponent ≥ 1. -/
theorem C06_pow_u64_zero_violated (n : Nat) (hn : n ≠ 0) :
    powU64 zero n = .error (.panic .overflow) := by
  have h1 : mulVec [1] [] = .error (.panic .overflow) := by decide +kernel
  have h2 : mulVec [] [] = .error (.panic .overflow) := by decide +kernel
  have hz : zero.items = [] := rfl
  unfold powU64 powLoop
  rw [hz, if_neg hn, h1, h2]
  by_cases h : n &&& 1 > 0
  · rw [if_pos h]; rfl
  · rw [if_neg h]; rfl

theorem powU64_ok (a : JsBig) (ha : a.Canon) (hne : a.items ≠ []) (n : Nat) (hn : n < 2 ^ 64) :
    ∃ c, powU64 a n = .ok c ∧ c.toInt = a.toInt ^ n ∧ c.Canon := by
  obtain ⟨v, e, hv, lv, nv⟩ := powLoop_ok 64 [1] a.items n hn limbs_one ha.limbs norm_one ha.norm
    (by simp) hne
  refine ⟨_, by unfold powU64; rw [e]; rfl, ?_, new_canon lv nv⟩
  rw [new_toInt, hv, toInt_eq_signed a, and_one]
  have h1 : val [1] = 1 := by simp [val_cons]
  rw [h1, one_mul]
  cases hs : a.sign
  · simp [signed]
  · rcases Nat.mod_two_eq_zero_or_one n with h | h
    · simp only [h, signed]
      have : Even n := Nat.even_iff.2 h
      rw [neg_pow, this.neg_one_pow]; simp
    · simp only [h, signed]
      have : Odd n := Nat.odd_iff.2 h
      rw [neg_pow, this.neg_one_pow]; simp

/-- Proved part (`pow`): right for every base except −1 raised to an odd exponent. -/
theorem C06_pow_partial (a e : JsBig) (ha : a.Canon) (he : e.Canon)
    (h0 : 0 ≤ e.toInt) (h64 : e.toInt < 2 ^ 64)
    (hm1 : ¬ (a.toInt = -1 ∧ e.toInt % 2 = 1)) :
    ∃ c, pow a e = .ok c ∧ c.toInt = a.toInt ^ e.toInt.toNat ∧ c.Canon := by
  have hs : e.sign = .pos := by
    rcases canon_len_sign he with ⟨s, -, -⟩ | ⟨s, -, -, v⟩
    · exact s
    · rw [toInt_eq_signed, s] at h0; simp only [signed] at h0; omega
  have hev : e.toInt = (val e.items : Int) := by rw [toInt_eq_signed, hs]; rfl
  rw [hev] at hm1 h64 ⊢
  have htn : ((val e.items : Nat) : Int).toNat = val e.items := by omega
  rw [htn]
  unfold pow
  rw [hs]
  simp only [reduceCtorEq, if_false]
  by_cases h1 : a.items = [1]
  · rw [if_pos h1]
    refine ⟨_, rfl, ?_, fromU64_canon (by decide)⟩
    rw [toInt_eq_signed a, h1] at hm1 ⊢
    rw [fromU64_toInt]
    have h1v : val [1] = 1 := by simp [val_cons]
    rw [h1v] at hm1 ⊢
    cases hsa : a.sign
    · simp [signed]
    · have hodd : ¬ ((val e.items : Int) % 2 = 1) := by
        intro h; exact hm1 ⟨by rw [hsa]; rfl, h⟩
      have : Even (val e.items) := Nat.even_iff.2 (by omega)
      simp [signed, this.neg_one_pow]
  · rw [if_neg h1]
    by_cases h2 : a.items = []
    · have hz : a.isZero = true := by rw [isZero_iff]; exact h2
      rw [hz, if_pos rfl]
      have ha0 : a.toInt = 0 := by rw [toInt_eq_signed, h2]; cases a.sign <;> rfl
      rw [ha0]
      by_cases h3 : e.items = []
      · have hz : e.isZero = true := by rw [isZero_iff]; exact h3
        refine ⟨_, rfl, ?_, ?_⟩
        · rw [hz, h3]; simp [fromU64_toInt, signed]
        · rw [hz]; exact fromU64_canon (s := .pos) (n := 1) (by decide)
      · have hz : e.isZero = false := by rw [Bool.eq_false_iff, ne_eq, isZero_iff]; exact h3
        refine ⟨_, rfl, ?_, ?_⟩
        · rw [hz]
          have := val_pos he.norm h3
          simp only [Bool.false_eq_true, if_false, zero_toInt]
          rw [zero_pow (by omega)]
        · rw [hz]; exact zero_canon
    · have hz : a.isZero = false := by rw [Bool.eq_false_iff, ne_eq, isZero_iff]; exact h2
      rw [hz]
      simp only [Bool.false_eq_true, if_false]
      by_cases h3 : e.items = []
      · have hz : e.isZero = true := by rw [isZero_iff]; exact h3
        rw [hz, if_pos rfl]
        refine ⟨_, rfl, ?_, fromU64_canon (by decide)⟩
        rw [h3]; simp [fromU64_toInt, signed]
      · have hz : e.isZero = false := by rw [Bool.eq_false_iff, ne_eq, isZero_iff]; exact h3
        rw [hz]
        simp only [Bool.false_eq_true, if_false]
        have hlt : val e.items < 2 ^ 64 := by omega
        have : e.items = [val e.items] := by
          have h4 := val_pos he.norm h3
          refine val_inj he.limbs (by rw [limbs_cons]; exact ⟨by rw [B_eq]; exact hlt, by simp⟩)
            he.norm (by simp only [Norm, List.getLast?_singleton, ne_eq, Option.some.injEq]; omega)
            (by simp [val_cons])
        rw [this]
        have h5 : val [val e.items] = val e.items := by simp [val_cons]
        rw [h5]
        exact powU64_ok a ha h2 _ hlt

/-- Proved part (`pow_u64`): right for every non-zero base (including −1). -/
theorem C06_pow_u64_partial (a : JsBig) (ha : a.Canon) (h : a.toInt ≠ 0) (n : Nat)
    (hn : n < 2 ^ 64) : ∃ c, powU64 a n = .ok c ∧ c.toInt = a.toInt ^ n ∧ c.Canon := by
  refine powU64_ok a ha ?_ n hn
  intro h0
  exact h (by rw [toInt_eq_signed, h0]; cases a.sign <;> rfl)

/-- Negative exponents are reported as an error for every base. -/
theorem C06_negative_exponent_panics (a e : JsBig) (h : e.toInt < 0) :
    pow a e = .error (.panic .explicit) := by
  have : e.sign = .neg := by
    unfold JsBig.sign JsBig.toInt at *
    split at h
    · rename_i h1; simp [h1]
    · omega
  unfold pow; rw [this]; rfl

/-- Exponents of more than one limb: the result of 0 and ±1 is 0 and 1, for all other bases the code
panics. -/
theorem C06_large_exponent (a e : JsBig) (ha : a.Canon) (he : e.Canon) (h64 : 2 ^ 64 ≤ e.toInt) :
    pow a e = if a.toInt.natAbs ≤ 1 then .ok (if a.toInt = 0 then zero else fromU64 .pos 1)
      else .error (.panic .explicit) := by
  have hs : e.sign = .pos := by
    rcases canon_len_sign he with ⟨s, -, -⟩ | ⟨s, -, -, v⟩
    · exact s
    · rw [toInt_eq_signed, s] at h64; simp only [signed] at h64; omega
  have hev : e.toInt = (val e.items : Int) := by rw [toInt_eq_signed, hs]; rfl
  have hab := natAbs_toInt a
  rw [hev] at h64
  have he0 : e.isZero = false := by
    rw [Bool.eq_false_iff, ne_eq, isZero_iff]
    intro h; rw [h] at h64; simp at h64
  unfold pow
  rw [hs, he0]
  simp only [reduceCtorEq, if_false, Bool.false_eq_true]
  by_cases h1 : a.items = [1]
  · rw [if_pos h1]
    rw [h1] at hab
    simp only [val_cons, val_nil] at hab
    rw [if_pos (by omega), if_neg (by omega)]
  · rw [if_neg h1]
    by_cases h2 : a.items = []
    · have hz : a.isZero = true := by rw [isZero_iff]; exact h2
      rw [h2] at hab
      simp only [val_nil] at hab
      rw [hz, if_pos rfl, if_pos (by omega), if_pos (by omega)]
    · have hz : a.isZero = false := by rw [Bool.eq_false_iff, ne_eq, isZero_iff]; exact h2
      rw [hz]
      simp only [Bool.false_eq_true, if_false]
      have hp := val_pos ha.norm h2
      have hne : val a.items ≠ 1 := fun h => h1
        (val_inj ha.limbs (by decide) ha.norm (by decide) (by rw [h]; simp [val_cons]))
      rw [if_neg (by omega)]
      have hl := he.limbs
      match hi : e.items with
      | [n] =>
        rw [hi] at hl h64
        have := hl n (by simp)
        simp only [val_cons, val_nil] at h64
        omega
      | [] => rfl
      | _ :: _ :: _ => rfl

example : (new .neg [3]).Canon ∧ ¬ ((new .neg [3]).toInt = -1 ∧ (new .pos [41]).toInt % 2 = 1) ∧
    pow (new .neg [3]) (new .pos [41]) = .ok (new .neg [36472996377170786403 - B, 1]) := by
  decide +kernel

/-! ## C08: right shift -/

/-- The full property: `>>` is floor division by a power of two. -/
def ShrCorrect : Prop :=
  ∀ a r : JsBig, a.Canon → r.Canon → 0 ≤ r.toInt → r.toInt < 2 ^ 64 →
    ∃ c, shr a r = .ok c ∧ c.toInt = a.toInt.fdiv (2 ^ r.toInt.toNat)

/-- `−3 >> 1` is computed as −1 instead of −2. -/
theorem C08_shr_violated : ¬ ShrCorrect := by
  intro h
  obtain ⟨c, e, v⟩ := h (new .neg [3]) (new .pos [1]) (by decide) (by decide) (by decide) (by decide)
  have e2 : shr (new .neg [3]) (new .pos [1]) = .ok (new .neg [1]) := by decide +kernel
  rw [e2] at e
  cases e
  revert v; decide

/-- Even for positive numbers bits are lost between limbs: `2^64 >> 2` is computed as 0. -/
theorem C08_shr_multi_limb_violated :
    shr (new .pos [0, 1]) (new .pos [2]) = .ok zero ∧
    (new .pos [0, 1]).toInt.fdiv (2 ^ 2) = 2 ^ 62 := by decide +kernel

theorem mask_le_one {s e : Nat} (hs : s = 1) : e &&& 2 ^ (s - 1) = e % 2 ^ s := by
  subst hs; simp

/-- the value computed by `shr_on_u64` when the limb mask is harmless -/
theorem shrOnU64_ok (a : JsBig) (ha : a.Canon) (n : Nat)
    (hm : n % 64 ≤ 1 ∨ val a.items < 2 ^ (64 * (n / 64 + 1))) :
    (shrOnU64 a n).Canon ∧ (shrOnU64 a n).toInt =
      if a.sign = .neg ∧ val a.items < 2 ^ n then -1 else signed a.sign (val a.items / 2 ^ n) := by
  have e2n : 2 ^ n = B ^ (n / 64) * 2 ^ (n % 64) := by
    rw [Bpow, ← pow_add]; congr 1; omega
  have big : (shrOnBig a.sign).Canon ∧ (shrOnBig a.sign).toInt = if a.sign = .neg then -1 else 0 := by
    cases a.sign
    · exact ⟨zero_canon, by rw [shrOnBig, zero_toInt]; rfl⟩
    · exact ⟨fromU64_canon (by decide), by rw [shrOnBig, fromU64_toInt]; rfl⟩
  unfold shrOnU64
  rw [and_63]
  dsimp only
  split
  · rename_i h
    have hlt : val a.items < 2 ^ n := by
      have := val_lt ha.limbs
      calc val a.items < B ^ a.items.length := this
        _ ≤ B ^ (n / 64) := Nat.pow_le_pow_right B_pos h
        _ ≤ 2 ^ n := by rw [Bpow]; exact Nat.pow_le_pow_right (by omega) (by omega)
    refine ⟨big.1, ?_⟩
    rw [big.2, Nat.div_eq_of_lt hlt]
    cases a.sign <;> simp [hlt, signed]
  · rename_i h
    set v1 := if n % 64 > 0 then shrLoop (n % 64) (2 ^ (n % 64 - 1)) (a.items.drop (n / 64))
      else a.items.drop (n / 64) with hv1
    have hdl : Limbs (a.items.drop (n / 64)) := fun d hd => ha.limbs d (List.mem_of_mem_drop hd)
    have h1 : val v1 = val a.items / 2 ^ n ∧ Limbs v1 := by
      rw [hv1, e2n, ← Nat.div_div_eq_div_mul, ← val_drop ha.limbs]
      split
      · apply shrLoop_val (by omega) _ hdl
        intro e he
        rcases hm with hm | hm
        · exact mask_le_one (by omega)
        · exfalso
          have hle : a.items.length ≤ n / 64 + 1 := by
            rw [← Bpow] at hm
            by_contra hc
            have hne : a.items ≠ [] := by intro h0; rw [h0] at hc; simp at hc
            have := norm_ge ha.norm hne
            have h3 : B ^ (n / 64 + 1) ≤ B ^ (a.items.length - 1) :=
              Nat.pow_le_pow_right B_pos (by omega)
            omega
          have hlen : (a.items.drop (n / 64)).length ≤ 1 := by
            rw [List.length_drop]; omega
          have hlen2 := List.length_pos_of_mem he
          rw [List.length_tail] at hlen2
          omega
      · rename_i h0
        rw [show n % 64 = 0 by omega]
        simpa using hdl
    have hcan : (new a.sign (normalizeVec v1)).Canon :=
      new_canon (limbs_normalize h1.2) (norm_normalize _)
    split
    · rename_i h2
      have h3 : normalizeVec v1 = [] := by simpa using h2.1
      have h4 : val a.items / 2 ^ n = 0 := by
        rw [← h1.1, ← val_normalize, h3]; rfl
      have h5 : val a.items < 2 ^ n := by
        rcases Nat.div_eq_zero_iff.1 h4 with h | h
        · have : 0 < 2 ^ n := by positivity
          omega
        · exact h
      refine ⟨fromU64_canon (by decide), ?_⟩
      rw [if_pos ⟨h2.2, h5⟩, fromU64_toInt]; rfl
    · rename_i h2
      refine ⟨hcan, ?_⟩
      rw [new_toInt, val_normalize, h1.1]
      rw [if_neg]
      rintro ⟨h3, h4⟩
      apply h2
      refine ⟨?_, h3⟩
      have : val (normalizeVec v1) = 0 := by rw [val_normalize, h1.1, Nat.div_eq_of_lt h4]
      rw [val_eq_zero_iff (norm_normalize _)] at this
      simp [this]

/-- the value computed by `shr` -/
theorem shr_value (a r : JsBig) (ha : a.Canon) (hr : r.Canon) (n : Nat) (hn : n < 2 ^ 64)
    (hrn : r.toInt = n)
    (hm : n % 64 ≤ 1 ∨ a.toInt.natAbs < 2 ^ (64 * (n / 64 + 1))) :
    ∃ c, shr a r = .ok c ∧ c.Canon ∧ c.toInt =
      if a.toInt < 0 ∧ a.toInt.natAbs < 2 ^ n then -1 else a.toInt.tdiv (2 ^ n) := by
  rw [natAbs_toInt] at hm ⊢
  have hsa : a.sign = .neg ↔ a.toInt < 0 := by
    rcases canon_len_sign ha with ⟨s, -, -⟩ | ⟨s, -, -, v⟩ <;> rw [toInt_eq_signed, s] <;>
      simp only [signed, reduceCtorEq, false_iff, true_iff] <;> omega
  have htd : a.toInt.tdiv (2 ^ n) = signed a.sign (val a.items / 2 ^ n) := by
    rw [toInt_eq_signed]
    have : (2 ^ n : Int) = signed .pos (2 ^ n) := by simp [signed]
    rw [this, tdiv_signed]; cases a.sign <;> rfl
  rw [htd]
  unfold shr
  split
  · rename_i h
    rw [isZero_iff] at h
    refine ⟨zero, rfl, zero_canon, ?_⟩
    rw [zero_toInt, toInt_eq_signed a, h]; cases a.sign <;> simp [signed]
  · rename_i h
    rw [isZero_iff] at h
    split
    · rename_i h1
      rw [isZero_iff] at h1
      have h0 : n = 0 := by
        rw [toInt_eq_signed, h1] at hrn
        cases h2 : r.sign <;> rw [h2] at hrn <;> simp only [signed, val_nil] at hrn <;> omega
      subst h0
      have := val_pos ha.norm h
      refine ⟨_, rfl, new_canon ha.limbs ha.norm, ?_⟩
      rw [new_toInt, if_neg (by simp; omega)]; simp
    · rename_i h1
      rw [isZero_iff] at h1
      have hp := val_pos hr.norm h1
      have hs : r.sign = .pos := by
        rcases canon_len_sign hr with ⟨s, -, -⟩ | ⟨s, -, -, v⟩
        · exact s
        · rw [toInt_eq_signed, s] at hrn; simp only [signed] at hrn; omega
      have hv : val r.items = n := by
        rw [toInt_eq_signed, hs] at hrn; simp only [signed] at hrn; omega
      have : r.items = [n] := by
        refine val_inj hr.limbs (by rw [limbs_cons]; exact ⟨by rw [B_eq]; exact hn, by simp⟩)
          hr.norm (by simp only [Norm, List.getLast?_singleton, ne_eq, Option.some.injEq]; omega)
          (by simp [val_cons, hv])
      rw [this, hs]
      obtain ⟨h3, h4⟩ := shrOnU64_ok a ha n hm
      refine ⟨_, rfl, h3, ?_⟩
      rw [h4]; simp only [hsa]

/-- Proved part: `>>` is floor division for non-negative numbers when no bits cross a
limb boundary (shift amount ≡ 0 or 1 mod 64, or at most one limb survives), and for
negative numbers when in addition the shift is exact or shifts everything out.
Missing: the other shifts, where the code is wrong (see the two witnesses above). -/
theorem C08_shr_partial (a r : JsBig) (ha : a.Canon) (hr : r.Canon) (n : Nat) (hn : n < 2 ^ 64)
    (hrn : r.toInt = n)
    (hm : n % 64 ≤ 1 ∨ a.toInt.natAbs < 2 ^ (64 * (n / 64 + 1)))
    (hneg : 0 ≤ a.toInt ∨ (2 ^ n : Int) ∣ a.toInt ∨ a.toInt.natAbs < 2 ^ n) :
    ∃ c, shr a r = .ok c ∧ c.toInt = a.toInt.fdiv (2 ^ n) ∧ c.Canon := by
  obtain ⟨c, e, hc, hv⟩ := shr_value a r ha hr n hn hrn hm
  refine ⟨c, e, ?_, hc⟩
  rw [hv]
  have hp : (0 : Int) < 2 ^ n := by positivity
  have hcast : ((2 ^ n : Nat) : Int) = 2 ^ n := by simp
  rw [Int.fdiv_eq_ediv_of_nonneg _ hp.le]
  split
  · rename_i h
    have h1 : -(2 ^ n : Int) ≤ a.toInt := by
      have := h.2; rw [← hcast]; omega
    symm
    rw [Int.ediv_eq_iff_of_pos hp]
    constructor <;> omega
  · rename_i h
    rcases hneg with h0 | h0 | h0
    · exact Int.tdiv_eq_ediv_of_nonneg h0
    · exact Int.tdiv_eq_ediv_of_dvd h0
    · have : 0 ≤ a.toInt := by
        by_contra hc; exact h ⟨by omega, h0⟩
      exact Int.tdiv_eq_ediv_of_nonneg this

example : (new .pos [5, 7, 9]).Canon ∧ (new .pos [65]).toInt = (65 : Nat) ∧ 65 % 64 ≤ 1 ∧
    shr (new .pos [5, 7, 9]) (new .pos [65]) = .ok (new .pos [2 ^ 63 + 3, 4]) ∧
    shr (new .neg [8]) (new .pos [3]) = .ok (new .neg [1]) ∧
    shr (new .neg [8]) (new .pos [63]) = .ok (new .neg [1]) := by decide +kernel

/-- Shifting by `-r` is shifting by `r` in the other direction, for all operands: also for
zero, for amounts that do not fit in a limb, and also where one of the two panics. -/
theorem C07_shift_negative (a r : JsBig) (hr : r.Canon) :
    shl a (negative r) = shr a r ∧ shr a (negative r) = shl a r := by
  unfold shl shr negative
  by_cases h : r.isZero = true
  · simp only [h, if_true]
    simp [zero, isZero]
  · have h' := h
    rw [isZero_iff] at h'
    rw [Bool.not_eq_true] at h
    have hz : (new r.sign.opposite r.items).isZero = false := by
      rw [← h]; rfl
    have hs := new_sign (s := r.sign.opposite) h'
    simp only [h, Bool.false_eq_true, if_false, hz, new_items, hs]
    constructor <;>
    · split
      · rfl
      · split <;> cases r.sign <;> rfl

/-- A left shift of a non-zero number by `2^64` or more panics (there is no such number in
memory), of zero it gives zero. -/
theorem C07_shl_large (a r : JsBig) (hr : r.Canon) (hbig : 2 ^ 64 ≤ r.toInt) :
    shl a r = if a.isZero then .ok zero else .error (.panic .explicit) := by
  have hs : r.sign = .pos := by
    rcases canon_len_sign hr with ⟨s, -, -⟩ | ⟨s, -, -, v⟩
    · exact s
    · rw [toInt_eq_signed, s] at hbig; simp only [signed] at hbig; omega
  rw [toInt_eq_signed, hs] at hbig
  simp only [signed] at hbig
  unfold shl
  split
  · rfl
  · rw [if_neg, hs]
    · split
      · rename_i n hi
        have := hr.limbs
        rw [hi, limbs_cons] at this
        have h3 := this.1
        rw [hi, val_cons, val_nil] at hbig
        rw [B_eq] at h3 hbig
        omega
      · rfl
    · rw [isZero_iff]; intro h; rw [h] at hbig; simp at hbig

/-- A right shift by `2^64` or more is floor division by the power of two: it gives zero or
minus one (the operand is smaller than that power, as every number in memory is). -/
theorem C08_shr_large (a r : JsBig) (ha : a.Canon) (hr : r.Canon) (hbig : 2 ^ 64 ≤ r.toInt)
    (hmem : a.toInt.natAbs < 2 ^ r.toInt.toNat) :
    ∃ c, shr a r = .ok c ∧ c.toInt = a.toInt.fdiv (2 ^ r.toInt.toNat) ∧ c.Canon := by
  have hs : r.sign = .pos := by
    rcases canon_len_sign hr with ⟨s, -, -⟩ | ⟨s, -, -, v⟩
    · exact s
    · rw [toInt_eq_signed, s] at hbig; simp only [signed] at hbig; omega
  have hb2 := hbig
  rw [toInt_eq_signed, hs] at hb2
  simp only [signed] at hb2
  have hp : (0 : Int) < 2 ^ r.toInt.toNat := by positivity
  have hcast : ((2 ^ r.toInt.toNat : Nat) : Int) = 2 ^ r.toInt.toNat := by simp
  generalize r.toInt.toNat = n at *
  have hd : a.toInt.fdiv (2 ^ n) = if a.toInt < 0 then -1 else 0 := by
    rw [Int.fdiv_eq_ediv_of_nonneg _ hp.le]
    split <;> rw [Int.ediv_eq_iff_of_pos hp] <;> rw [← hcast] <;> constructor <;> omega
  rw [hd]
  unfold shr
  split
  · rename_i h
    rw [isZero_iff] at h
    refine ⟨zero, rfl, ?_, zero_canon⟩
    rw [zero_toInt, toInt_eq_signed a, h]; cases a.sign <;> simp [signed]
  · rename_i h
    rw [isZero_iff] at h
    rw [if_neg, hs]
    · split
      · rename_i n hi
        have := hr.limbs
        rw [hi, limbs_cons] at this
        have h3 := this.1
        rw [hi, val_cons, val_nil] at hb2
        rw [B_eq] at h3 hb2
        omega
      · refine ⟨_, rfl, ?_⟩
        have hv := val_pos ha.norm h
        rw [toInt_eq_signed a]
        generalize a.sign = s
        cases s
        · have : ¬ signed .pos (val a.items) < 0 := by simp only [signed]; omega
          exact ⟨by rw [if_neg this]; rfl, zero_canon⟩
        · have : signed .neg (val a.items) < 0 := by simp only [signed]; omega
          exact ⟨by rw [if_pos this]; rfl, by decide⟩
    · rw [isZero_iff]; intro h; rw [h] at hb2; simp at hb2

example : shl (new .pos [5]) (new .neg [1]) = .ok (new .pos [2]) ∧
    shr (new .neg [5]) (new .neg [65]) = .ok (new .neg [0, 10]) ∧
    shl (new .pos [5]) (new .pos [0, 1]) = .error (.panic .explicit) ∧
    shr (new .neg [5]) (new .pos [0, 1]) = .ok (new .neg [1]) ∧
    (new .pos [0, 1]).Canon ∧ (2 ^ 64 ≤ (new .pos [0, 1]).toInt) := by decide +kernel

end Nanvm
