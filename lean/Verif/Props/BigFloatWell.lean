import Verif.Props.BigFloatAny
import Verif.Props.DivisionLow
/-!
# Property theorems C16: literals whose division by a power of five goes well

Below `10^-27` the division by a power of five can go wrong.  It is right if every guessed digit of the
quotient is (`Spec/LowDivision.lean`), and then so is the double.
-/
namespace Nanvm
open JsBig LongDiv

namespace BigFloat

/-- `a` is `m` shifted left just so far that it has 54 bits more than `b` -/
def Scaled (m b a : Nat) : Prop :=
  ∃ k, a = m * 2 ^ k ∧ b * 2 ^ 54 ≤ a ∧ (k = 0 ∨ a < 2 * (b * 2 ^ 54))

theorem toBin_goesWell (b : BigFloat) (m n : Nat) (hm : Is b.sig m) (h0 : 0 < m) (hrem : b.rem = false)
    (hlog : m.log2 < 2 ^ 59) (hn : b.exp = -n) (hn0 : 0 < n) (hn2 : n ≤ 2 ^ 59)
    (hwell : ∀ a, Scaled m (5 ^ n) a → GoesWell (5 ^ n) a) :
    ∃ b' s, (∀ fuel, m * 2 ^ (3 * n + 54) + 3 * n + 200 ≤ fuel → toBin fuel 54 b = .ok b') ∧ Is b'.sig s ∧ 0 < s ∧ s < 2 ^ 54 ∧
      b'.sign = b.sign ∧ (b'.rem = true → 2 ^ 53 ≤ s) ∧ -2 ^ 62 ≤ b'.exp ∧ b'.exp ≤ 2 ^ 62 ∧
      Approx (m * 10 ^ b.exp) s b'.exp b'.rem := by
  have hz : b.sig.isZero = false := hm.isZero_false h0
  have hmN : m < 2 ^ (m.log2 + 1) := Nat.lt_log2_self
  have h5 : Is (fromU64 .pos 5) 5 := is_fromU64 5 (by norm_num)
  have h5ne : (fromU64 .pos 5).items ≠ [] := by decide
  have hi : i64 (-b.exp) = .ok (n : Int) := by
    rw [hn, neg_neg]; exact i64_ok (by omega) (by omega)
  obtain ⟨p, ep, vp, cp⟩ := powU64_ok _ h5.1 h5ne n (by omega)
  have hp : Is p (5 ^ n) := ⟨cp, by rw [vp, h5.2]; push_cast; ring⟩
  obtain ⟨mn, emn, hmn⟩ := is_pow2 54 (by norm_num)
  obtain ⟨c, ec, vc, cc⟩ := C02_mul_exact p mn cp hmn.1
  have hc : Is c (5 ^ n * 2 ^ 54) := ⟨cc, by rw [vc, hp.2, hmn.2]; push_cast; ring⟩
  have h5n0 : 0 < 5 ^ n := by positivity
  have hinc : ∀ fuel, 3 * n + 54 < fuel → _ := fun fuel hf =>
    incLoop_ok hc (3 * n + 54) fuel m b hm h0
      (by
        calc 5 ^ n * 2 ^ 54 ≤ 8 ^ n * 2 ^ 54 :=
              Nat.mul_le_mul_right _ (Nat.pow_le_pow_left (by norm_num) n)
          _ = 2 ^ (3 * n + 54) := by rw [Nat.pow_add, Nat.pow_mul]
          _ ≤ m * 2 ^ (3 * n + 54) := Nat.le_mul_of_pos_left _ h0)
      (by omega) (by push_cast; omega) (by omega)
  obtain ⟨k, b1, e1, hk, hs1, hexp1, hsg1, hr1, hge, hlt⟩ := hinc (3 * n + 55) (by omega)
  have hge' : 5 ^ n ≤ m * 2 ^ k := le_trans (Nat.le_mul_of_pos_right _ (by norm_num)) hge
  have hgw := hwell (m * 2 ^ k) ⟨k, rfl, hge, hlt⟩
  obtain ⟨q, r, ed, qc, rc, qv, rv⟩ := C05_goes_well_partial b1.sig p hs1.1 cp
    (by rw [hp.2]; exact_mod_cast h5n0.ne')
    (by rw [hp.2, hs1.2, Int.natAbs_natCast, Int.natAbs_natCast]; exact hge')
    (by rw [hp.2, hs1.2, Int.natAbs_natCast, Int.natAbs_natCast]; exact hgw)
  rw [hs1.2, hp.2] at qv rv
  rw [hs1.2, Int.natAbs_natCast] at ed
  have hq : Is q (m * 2 ^ k / 5 ^ n) := ⟨qc, by rw [qv]; rfl⟩
  have hrz : r.isZero = true ↔ m * 2 ^ k % 5 ^ n = 0 := by
    have : r.toInt.natAbs = m * 2 ^ k % 5 ^ n := by rw [rv]; rfl
    rw [← this, isZero_iff, ← val_eq_zero_iff rc.norm, natAbs_toInt]
  have hqge : 2 ^ 54 ≤ m * 2 ^ k / 5 ^ n := by
    rw [Nat.le_div_iff_mul_le h5n0, mul_comm]; exact hge
  have hx : Approx (m * 10 ^ b.exp) (m * 2 ^ k / 5 ^ n) b1.exp (b.rem || !r.isZero) := by
    have hdm := Nat.div_add_mod (m * 2 ^ k) (5 ^ n)
    have hlt := Nat.mod_lt (m * 2 ^ k) h5n0
    have he : (2 : ℚ) ^ b1.exp = 1 / (2 ^ n * 2 ^ k) := by
      rw [hexp1, hn, zpow_sub₀ (by norm_num), zpow_neg, zpow_natCast, zpow_natCast]
      field_simp
    have hxe : (m * 10 ^ b.exp : ℚ) = (m * 2 ^ k : Nat) / (5 ^ n : Nat) * (1 / (2 ^ n * 2 ^ k)) := by
      rw [hn, zpow_neg, zpow_natCast, show (10 : ℚ) = 5 * 2 by norm_num, mul_pow]
      push_cast
      field_simp
    clear ed hinc hgw hwell e1 hmN
    generalize m * 2 ^ k / 5 ^ n = Q at *
    generalize m * 2 ^ k % 5 ^ n = R at *
    rw [hrem, hxe]
    unfold Approx
    rw [he]
    have hpos : (0 : ℚ) < 1 / (2 ^ n * 2 ^ k) := by positivity
    generalize (1 : ℚ) / (2 ^ n * 2 ^ k) = u at *
    have h5q : (0 : ℚ) < (5 ^ n : Nat) := by exact_mod_cast h5n0
    rw [← hdm]
    cases hR : r.isZero
    · have hR0 : R ≠ 0 := by
        intro h; rw [hrz.2 h] at hR; cases hR
      simp only [Bool.not_false, Bool.or_true, if_true]
      have hRq : (0 : ℚ) < R := by exact_mod_cast Nat.pos_of_ne_zero hR0
      have hRq2 : (R : ℚ) < (5 ^ n : Nat) := by exact_mod_cast hlt
      constructor
      · apply mul_lt_mul_of_pos_right _ hpos
        rw [lt_div_iff₀ h5q]; push_cast at *; nlinarith
      · apply mul_lt_mul_of_pos_right _ hpos
        rw [div_lt_iff₀ h5q]; push_cast at *; nlinarith
    · have hR0 : R = 0 := hrz.1 hR
      subst hR0
      simp only [Bool.not_true, Bool.or_false, Bool.false_eq_true, if_false]
      congr 1
      rw [div_eq_iff h5q.ne']; push_cast; ring
  obtain ⟨k', s', b2, e2, hk', hs2, hexp2, hsg2, ha2, hlt2, hge2, hs20⟩ :=
    decrease_ok 54 (m.log2 + 2) (by norm_num) (by norm_num) (m * 10 ^ b.exp) (m.log2 + 200) _
      ⟨q, b.sign, b1.exp, b.rem || !r.isZero⟩ hq (by omega)
      (by
        rcases hlt with hlt | hlt
        · subst hlt
          calc m * 2 ^ 0 / 5 ^ n ≤ m := by simpa using Nat.div_le_self m (5 ^ n)
            _ < 2 ^ (m.log2 + 1) := hmN
            _ ≤ 2 ^ (54 + (m.log2 + 2)) := Nat.pow_le_pow_right (by norm_num) (by omega)
        · have : m * 2 ^ k / 5 ^ n < 2 ^ 55 := by
            rw [Nat.div_lt_iff_lt_mul h5n0]
            calc m * 2 ^ k < 2 * (5 ^ n * 2 ^ 54) := hlt
              _ = 2 ^ 55 * 5 ^ n := by ring
          exact lt_of_lt_of_le this (Nat.pow_le_pow_right (by norm_num) (by omega)))
      (by omega) (by dsimp only; omega) (by dsimp only; push_cast; omega) hx
  refine ⟨b2, s', ?_, hs2, hs20, hlt2, hsg2, ?_,
    by dsimp only at *; omega, by dsimp only at *; omega, ha2⟩
  · intro fuel hf
    have hk2 : m * 2 ^ k ≤ m * 2 ^ (3 * n + 54) :=
      Nat.mul_le_mul_left _ (Nat.pow_le_pow_right (by norm_num) hk)
    have hm2 : m ≤ m * 2 ^ (3 * n + 54) := Nat.le_mul_of_pos_right _ (by positivity)
    have hml : m.log2 ≤ m := Nat.log2_le_self m
    generalize m * 2 ^ (3 * n + 54) = X at hf hk2 hm2
    have hf1 : 3 * n + 55 ≤ fuel := by omega
    have hf2 : m * 2 ^ k < fuel := by omega
    have hf3 : m.log2 + 200 ≤ fuel := by omega
    unfold toBin
    rw [hz, if_neg (by simp), if_neg (by omega)]
    dsimp only
    rw [if_neg (by omega)]
    simp only [hi, bind, Except.bind, Int.toNat_natCast, ep, emn, ec, increaseTo, hz,
      Bool.false_eq_true, if_false, incLoop_more hf1 e1, ed fuel hf2]
    exact decrease_more hf3 e2
  · intro h
    rcases hge2 with ⟨hk0, rfl⟩ | h'
    · have : s' = m * 2 ^ k / 5 ^ n := by
        have a := hs2.2; have b := hq.2
        dsimp only at a; rw [b] at a; exact_mod_cast a.symm
      omega
    · exact h'

/-- a number whose division goes well is converted -/
theorem toF64_goesWell (b : BigFloat) (m n : Nat) (him : Is b.sig m) (h0 : 0 < m) (hrem : b.rem = false)
    (hlog : m.log2 < 2 ^ 59) (hn : b.exp = -n) (hn0 : 0 < n) (hn2 : n ≤ 2 ^ 59)
    (hwell : ∀ a, Scaled m (5 ^ n) a → GoesWell (5 ^ n) a) :
    ∃ bits, (∀ fuel, m * 2 ^ (3 * n + 54) + 3 * n + 200 ≤ fuel → toF64 fuel b = .ok bits) ∧
      (¬ (2 ^ (-1075 : Int) < (m : ℚ) * 10 ^ b.exp ∧ (m : ℚ) * 10 ^ b.exp < 2 ^ (-1074 : Int)) →
        IsNearestDouble (b.sign = .neg) (m * 10 ^ b.exp) bits) := by
  obtain ⟨b', s, e, his, hs0, hs54, hsg, hr, hb1, hb2, ha⟩ :=
    toBin_goesWell b m n him h0 hrem hlog hn hn0 hn2 hwell
  obtain ⟨bits, e', hn, -⟩ := f64Bits_ok b' s _ his hs0 ha hr hb1 hb2 54 (by norm_num) hs54 200
    (by omega)
  rw [hsg] at hn
  refine ⟨bits, fun fuel hf => ?_, hn⟩
  unfold toF64
  rw [e fuel hf]
  exact f64Bits_more (le_trans (Nat.le_add_left _ _) hf) e'

/-- Proved part of C16, for every negative exponent: if every digit of the quotient by the power of five
goes well, the literal is converted to the nearest double.  Missing: literals for which a digit goes
wrong (`C16_termination_violated`), and the band below the smallest subnormal (`C17_band_flushed`). -/
theorem C16_goes_well_partial (b : BigFloat) (hc : b.sig.Canon) (hs : 0 < b.sig.toInt)
    (hrem : b.rem = false) (hlog : b.sig.toInt.toNat.log2 < 2 ^ 59)
    (he1 : -2 ^ 59 ≤ b.exp) (he2 : b.exp < 0)
    (hband : ¬ (2 ^ (-1075 : Int) < (b.sig.toInt : ℚ) * 10 ^ b.exp ∧
      (b.sig.toInt : ℚ) * 10 ^ b.exp < 2 ^ (-1074 : Int)))
    (hwell : ∀ a, Scaled b.sig.toInt.toNat (5 ^ b.exp.natAbs) a → GoesWell (5 ^ b.exp.natAbs) a) :
    DecimalCorrect b := by
  obtain ⟨m, hm⟩ : ∃ m : Nat, b.sig.toInt = m := ⟨b.sig.toInt.toNat, by omega⟩
  have him : Is b.sig m := ⟨hc, hm⟩
  rw [hm, Int.toNat_natCast] at hlog hwell
  rw [hm] at hband
  push_cast at hband
  obtain ⟨bits, e, hn⟩ := toF64_goesWell b m b.exp.natAbs him (by omega) hrem hlog (by omega) (by omega)
    (by omega) hwell
  exact ⟨bits, ⟨_, fun fuel hf => e fuel hf⟩, by rw [hm]; exact_mod_cast hn hband⟩

/-- the division for `1e-53` goes well -/
theorem well_53 : ∀ a, Scaled 1 (5 ^ 53) a → GoesWell (5 ^ 53) a := by
  have hg : GoesWell (5 ^ 53) (2 ^ 178) := by
    have h := (C05_right_iff_partial (new .pos [0, 0, 2 ^ 50]) (new .pos [1475612373555897461, 601853107621011204]) (by decide) (by decide)
      (by decide) (by decide)).1.1 ⟨20, new .pos [34508731733952818], new .pos [8093322922342384678, 564040951459484876], by decide +kernel⟩
    have e1 : (new .pos [0, 0, 2 ^ 50]).toInt.natAbs = 2 ^ 178 := by decide +kernel
    have e2 : (new .pos [1475612373555897461, 601853107621011204]).toInt.natAbs = 5 ^ 53 := by decide +kernel
    rwa [e1, e2] at h
  rintro a ⟨k, rfl, h1, h2⟩
  rw [one_mul] at *
  have hk : k = 178 := by
    have l : 177 < k := by
      by_contra hc
      have := Nat.pow_le_pow_right (n := 2) (by norm_num) (Nat.le_of_not_lt hc)
      have := le_trans h1 this
      norm_num at this
    have u : k < 179 := by
      by_contra hc
      have := Nat.pow_le_pow_right (n := 2) (by norm_num) (Nat.le_of_not_lt hc)
      rcases h2 with h2 | h2
      · omega
      · have := lt_of_le_of_lt this h2
        norm_num at this
    omega
  rw [hk]
  exact hg

/-- the literal `1e-53`, whose division by `5^53` goes well -/
example : DecimalCorrect ⟨new .pos [1], .pos, -53, false⟩ := by
  have e : (new .pos [1]).toInt = 1 := by decide
  have e' : (-53 : Int).natAbs = 53 := by decide
  refine C16_goes_well_partial _ (by decide) (by decide) rfl (by decide) (by norm_num) (by norm_num) ?_ ?_
  · dsimp only
    rw [e]
    rintro ⟨-, h⟩
    have : (2 : ℚ) ^ (-1074 : Int) ≤ 2 ^ (-200 : Int) := zpow_le_zpow_right₀ (by norm_num) (by norm_num)
    have : (2 : ℚ) ^ (-200 : Int) ≤ 10 ^ (-53 : Int) := by norm_num
    simp only [Int.cast_one, one_mul] at h
    linarith
  · dsimp only
    rw [e, e']
    exact well_53

end BigFloat
end Nanvm
