import Verif.Lemmas.BigFloat
import Mathlib.Tactic.IntervalCases
/-!
# Property theorems C16 and C17: conversion to doubles
-/
namespace Nanvm
open JsBig BigFloat

/-! ## C17: binary big floats -/

/-- What a binary big float says about the number `x` it stands for: the significand and
exponent give the number exactly, or (with `non_zero_reminder`) up to one unit from below. -/
def BigFloat.Denotes (b : BigFloat) (x : ℚ) : Prop :=
  ∃ s : Nat, b.sig.toInt = s ∧
    if b.rem then (s : ℚ) * 2 ^ b.exp < x ∧ x < (s + 1) * 2 ^ b.exp ∧ 2 ^ 53 ≤ s
    else x = s * 2 ^ b.exp

/-- no `i64` exponent overflow can happen -/
def BigFloat.Small (b : BigFloat) : Prop :=
  -2 ^ 62 ≤ b.exp ∧ b.exp ≤ 2 ^ 62 ∧ b.sig.toInt.toNat.log2 < 2 ^ 61

/-- the loops of `f` terminate, with result `a` -/
def Yields {α : Type} (f : Nat → Res α) (a : α) : Prop := ∃ F, ∀ fuel ≥ F, f fuel = .ok a

/-- Full claim of C17. -/
def BinToDoubleCorrect : Prop :=
  ∀ (b : BigFloat) (x : ℚ), b.sig.Canon → b.Small → b.Denotes x →
    ∃ bits, Yields (fun fuel => f64Bits fuel b) bits ∧ IsNearestDouble (b.sign = .neg) x bits

theorem nearest_zero {x : ℚ} (h0 : 0 ≤ x) (h : x ≤ 2 ^ (-1075 : Int)) : Nearest x 0 := by
  have e0 : dval 0 = 0 := by unfold dval ulps; norm_num
  have e1 : dval (0 + 1) = 2 ^ (-1075 : Int) * 2 := by
    have := dval_split 0 1 (Or.inl rfl) (by norm_num)
    rw [Nat.zero_mul] at this
    rw [this]
    have : ((0 : Nat) : Int) - 1074 = -1075 + 1 := by norm_num
    rw [this, zpow_add₀ (by norm_num), zpow_one]; norm_num
  rcases lt_or_eq_of_le h with h | h
  · refine nearest_down (b := 0) (by unfold INF; omega) (by rw [e0]; exact h0) ?_
    rw [e0, e1]; linarith
  · have := nearest_tie (x := x) (b := 0) (by unfold INF; omega) (by rw [e0, e1, h]; ring)
    exact this

theorem ite_bounds (s c : Nat) : s / 2 ≤ (if c = 1 then s / 2 + 1 else s / 2) ∧
    (if c = 1 then s / 2 + 1 else s / 2) ≤ s / 2 + 1 := by split <;> omega

/-- conversion of a positive binary big float -/
theorem f64Bits_ok (b : BigFloat) (s : Nat) (x : ℚ) (hs : Is b.sig s) (h0 : 0 < s)
    (hx : Approx x s b.exp b.rem) (hr : b.rem = true → 2 ^ 53 ≤ s)
    (he1 : -2 ^ 62 ≤ b.exp) (he2 : b.exp ≤ 2 ^ 62) (N : Nat) (hN : N ≤ 2 ^ 61) (hsz : s < 2 ^ N)
    (fuel : Nat) (hf : N + 54 ≤ fuel) :
    ∃ bits, f64Bits fuel b = .ok bits ∧
      (¬ (2 ^ (-1075 : Int) < x ∧ x < 2 ^ (-1074 : Int)) → IsNearestDouble (b.sign = .neg) x bits) ∧
      (2 ^ (-1075 : Int) < x ∧ x < 2 ^ (-1074 : Int) → bits = if b.sign = .neg then 2 ^ 63 else 0) := by
  obtain ⟨k1, b1, e1, hk1, hs1, he1', hsg1, hr1, hge1, hlt1⟩ :=
    increase_ok (52 + 1) 53 (by norm_num) fuel s b hs h0
      (by rw [show 52 + 1 = 53 from rfl]; exact Nat.le_mul_of_pos_left _ h0) (by omega) (by push_cast; omega) (by omega)
  have hx1 : Approx x (s * 2 ^ k1) b1.exp b1.rem := by
    rw [he1', hr1]
    rcases hlt1 with hlt1 | hlt1
    · subst hlt1; simpa using hx
    · cases hb : b.rem
      · rw [hb] at hx; exact hx.shl k1
      · have h53 := hr hb
        have : k1 = 0 := by
          by_contra hc
          have : 2 ^ 1 ≤ 2 ^ k1 := Nat.pow_le_pow_right (by omega) (by omega)
          have := Nat.mul_le_mul h53 this
          norm_num at this hlt1; omega
        subst this; rw [hb] at hx; simpa using hx
  have hs1pos : 0 < s * 2 ^ k1 := by positivity
  have hk1' : (2 : Nat) ^ k1 ≤ 2 ^ 53 := Nat.pow_le_pow_right (by omega) hk1
  obtain ⟨k2, s2, b2, e2, hk2, hs2, he2', hsg2, hx2, hlt2, hge2, hpos2⟩ :=
    decrease_ok (52 + 2) N (by norm_num) (by norm_num) x fuel (s * 2 ^ k1) b1 hs1 hs1pos
      (by
        calc s * 2 ^ k1 < 2 ^ N * 2 ^ k1 := Nat.mul_lt_mul_of_pos_right hsz (by positivity)
          _ ≤ 2 ^ N * 2 ^ (52 + 2) := Nat.mul_le_mul_left _ (Nat.pow_le_pow_right (by omega) (by omega))
          _ = 2 ^ (52 + 2 + N) := by rw [← pow_add, Nat.add_comm])
      (by omega) (by omega) (by push_cast; omega) hx1
  have hge : 2 ^ 53 ≤ s2 := by
    rcases hge2 with ⟨-, hb⟩ | h
    · have := hs2.2; rw [hb, hs1.2] at this
      have : s * 2 ^ k1 = s2 := by exact_mod_cast this
      rw [← this]; exact hge1
    · exact h
  have hlt : s2 < 2 ^ 54 := hlt2
  have hexp1 : -2 ^ 63 + 60 ≤ b2.exp := by omega
  have hexp2 : b2.exp < 2 ^ 63 - 60 := by push_cast at *; omega
  have hsign : b2.sign = b.sign := by rw [hsg2, hsg1]
  have hneg : (if b.sign = .neg then 1 <<< 63 else 0 : Nat) = if (decide (b.sign = .neg)) then 1 <<< 63 else 0 := by
    cases b.sign <;> rfl
  unfold f64Bits
  rw [hs.isZero_false h0]
  simp only [Bool.false_eq_true, if_false]
  rw [e1]
  simp only [bind, Except.bind]
  rw [e2]
  dsimp only
  rw [i64_ok (x := b2.exp + 52) (by omega) (by omega)]
  dsimp only
  rw [i64_ok (x := b2.exp + 52 + 1) (by omega) (by omega)]
  dsimp only
  generalize hE : b2.exp + 52 + 1 = E
  have hb2 : b2.exp = E - 53 := by omega
  have q1 : ((2 : ℚ) ^ E) ≤ x := by
    refine le_trans ?_ hx2.lower
    have : ((2 ^ 53 : Nat) : ℚ) ≤ s2 := by exact_mod_cast hge
    have e : ((2 : ℚ) ^ E) = ((2 ^ 53 : Nat) : ℚ) * 2 ^ b2.exp := by
      have : E = 53 + b2.exp := by omega
      rw [this, zpow_add₀ (by norm_num)]; norm_num
    rw [e]
    exact mul_le_mul_of_nonneg_right this (by positivity)
  have q2 : x < ((2 : ℚ) ^ (E + 1)) := by
    refine lt_of_lt_of_le hx2.upper ?_
    have : ((s2 + 1 : Nat) : ℚ) ≤ ((2 ^ 54 : Nat) : ℚ) := by exact_mod_cast hlt
    push_cast at this
    have e : ((2 : ℚ) ^ (E + 1)) = ((2 ^ 54 : Nat) : ℚ) * 2 ^ b2.exp := by
      have : E + 1 = 54 + b2.exp := by omega
      rw [this, zpow_add₀ (by norm_num)]; norm_num
    rw [e]
    push_cast
    exact mul_le_mul_of_nonneg_right this (by positivity)
  have nob : -1074 ≤ E → 2 ^ (-1075 : Int) < x ∧ x < 2 ^ (-1074 : Int) →
      ∀ P : Prop, P := by
    intro h hb P
    have : (2 : ℚ) ^ (-1074 : Int) ≤ x := le_trans (zpow_le_zpow_right₀ (by norm_num) h) q1
    exact absurd hb.2 (not_lt.2 this)
  rw [hneg]
  split
  · -- normal numbers
    rename_i hr'
    obtain ⟨n, hn⟩ : ∃ n : Nat, E = (n : Int) - 1022 := ⟨(E + 1022).toNat, by omega⟩
    have hn2 : n ≤ 2045 := by omega
    rw [getFracRound_ok b2 s2 hs2 (by omega) (by omega)]
    have hnear := round_half (x := x) (s := s2) (n := n) (r := b2.rem)
      (by rw [show (n : Int) - 1075 = b2.exp by omega]; exact hx2) (Or.inr hge) hlt
      (by unfold INF; omega)
    revert hnear
    generalize hfr : (if (if s2 % 2 = 1 ∧ b2.rem = false then s2 / 2 % 2 else s2 % 2) = 1
      then s2 / 2 + 1 else s2 / 2) = fr
    intro hnear
    have hfr1 : 2 ^ 52 ≤ fr := by have := ite_bounds s2 (if s2 % 2 = 1 ∧ b2.rem = false then s2 / 2 % 2 else s2 % 2); omega
    have hfr2 : fr ≤ 2 ^ 53 := by have := ite_bounds s2 (if s2 % 2 = 1 ∧ b2.rem = false then s2 / 2 % 2 else s2 % 2); omega
    refine ⟨_, rfl, fun _ => ⟨n * 2 ^ 52 + fr, hnear, ?_⟩, fun hb => nob (by omega) hb _⟩
    rw [← or_sign _ _ (by omega), Nat.or_assoc]
    congr 1
    have hmask : ∀ f : Nat, f &&& (1 <<< 52 - 1) = f % 2 ^ 52 := by
      intro f
      have : (1 <<< 52 - 1 : Nat) = 2 ^ 52 - 1 := by rfl
      rw [this, Nat.and_two_pow_sub_one_eq_mod]
    have hor : ∀ a f : Nat, f < 2 ^ 52 → a * 2 ^ 52 ||| f = a * 2 ^ 52 + f := by
      intro a f hf
      have := Nat.two_pow_add_eq_or_of_lt hf a
      rw [Nat.mul_comm]; exact this.symm
    by_cases hcarry : fr = 2 ^ 53
    · rw [if_pos (by rw [hcarry]; rfl)]
      dsimp only
      rw [hmask, Nat.shiftLeft_eq]
      have h1 : (E + 1 + 1023).toNat = n + 2 := by omega
      rw [h1]
      have h2 : fr / 2 % 2 ^ 52 = 0 := by omega
      rw [h2, Nat.or_zero]; omega
    · rw [if_neg (by intro h; exact hcarry (by rw [h]; rfl))]
      dsimp only
      rw [hmask, Nat.shiftLeft_eq]
      have h1 : (E + 1023).toNat = n + 1 := by omega
      rw [h1, Nat.mod_eq_of_lt (by omega), hor _ _ (by omega)]
      omega
  · rename_i hr'
    split
    · -- subnormal numbers
      rename_i hsub
      obtain ⟨p, hp⟩ : ∃ p : Nat, (E + 1076) = (p : Int) := ⟨(E + 1076).toNat, by omega⟩
      have hp1 : 2 ≤ p := by omega
      have hp2 : p ≤ 53 := by omega
      have hpt : (E + 1076).toNat = p := by omega
      rw [hpt]
      obtain ⟨k3, s3, b3, e3, hk3, hs3, he3, hsg3, hx3, hlt3, hge3, hpos3⟩ :=
        decrease_ok p (54 - p) (by omega) (by omega) x fuel s2 b2 hs2 hpos2
          (by rw [show p + (54 - p) = 54 by omega]; exact hlt) (by omega) (by omega) (by omega) hx2
      have hp54 : (2 : Nat) ^ p ≤ 2 ^ 53 := Nat.pow_le_pow_right (by omega) hp2
      have hge3' : 2 ^ (p - 1) ≤ s3 := by
        rcases hge3 with ⟨-, hb⟩ | h
        · exfalso
          have := hs3.2; rw [hb, hs2.2] at this
          have : s2 = s3 := by exact_mod_cast this
          omega
        · exact h
      -- the exponent is determined by the bounds on the value
      have hk : k3 = 54 - p := by
        have hl2 := hx2.lower
        have hu2 := hx2.upper
        have hl3 := hx3.lower
        have hu3 := hx3.upper
        rw [he3] at hl3 hu3
        have hle : k3 ≤ 54 - p := hk3
        by_contra hc
        have hlt' : k3 + 1 ≤ 54 - p := by omega
        -- x ≥ 2^53·2^exp but x < 2^p·2^(exp+k3) ≤ 2^53·2^exp
        have q1 : ((2 : ℚ) ^ (53 : Int)) * 2 ^ b2.exp ≤ x := by
          refine le_trans ?_ hl2
          apply mul_le_mul_of_nonneg_right _ (by positivity)
          have : ((2 ^ 53 : Nat) : ℚ) ≤ s2 := by exact_mod_cast hge
          have e : ((2 : ℚ) ^ (53 : Int)) = ((2 ^ 53 : Nat) : ℚ) := by norm_num
          rw [e]; exact this
        have q2 : x < ((2 : ℚ) ^ (p : Int)) * 2 ^ (b2.exp + k3) := by
          refine lt_of_lt_of_le hu3 ?_
          apply mul_le_mul_of_nonneg_right _ (by positivity)
          have : ((s3 + 1 : Nat) : ℚ) ≤ ((2 ^ p : Nat) : ℚ) := by exact_mod_cast hlt3
          push_cast at this
          rw [zpow_natCast]; exact this
        rw [← zpow_add₀ (by norm_num)] at q1 q2
        have q3 := lt_of_le_of_lt q1 q2
        rw [zpow_lt_zpow_iff_right₀ (by norm_num)] at q3
        omega
      rw [e3]
      dsimp only
      rw [getFracRound_ok b3 s3 hs3 hpos3 (by omega)]
      have hnear := round_half (x := x) (s := s3) (n := 0) (r := b3.rem)
        (by rw [show ((0 : Nat) : Int) - 1075 = b3.exp by omega]; exact hx3) (Or.inl rfl) (by omega)
        (by unfold INF; clear hf hsz; omega)
      rw [Nat.zero_mul, Nat.zero_add] at hnear
      refine ⟨_, rfl, fun _ => ⟨_, hnear, ?_⟩, fun hb => nob (by omega) hb _⟩
      rw [← or_sign _ _ (by have := ite_bounds s3 (if s3 % 2 = 1 ∧ b3.rem = false then s3 / 2 % 2 else s3 % 2); omega)]
    · rename_i hsub
      split
      · -- overflow
        rename_i hov
        refine ⟨_, rfl, fun _ => ⟨INF, nearest_inf (le_trans (zpow_le_zpow_right₀ (by norm_num) (by omega)) q1), ?_⟩,
          fun hb => nob (by omega) hb _⟩
        rw [← or_sign _ _ (by unfold INF; omega)]; rfl
      · -- underflow
        rename_i hun
        have hE : E ≤ -1075 := by omega
        have hx0 : 0 ≤ x := le_trans (by positivity) q1
        refine ⟨_, rfl, fun hband => ?_, fun _ => ?_⟩
        · have hle : x ≤ 2 ^ (-1075 : Int) := by
            by_contra hc
            apply hband
            refine ⟨not_le.1 hc, lt_of_lt_of_le q2 (zpow_le_zpow_right₀ (by norm_num) (by omega))⟩
          refine ⟨0, nearest_zero hx0 hle, ?_⟩
          rw [← or_sign _ _ (by norm_num), Nat.or_zero]
        · cases b.sign <;> rfl

theorem denotes_approx {b : BigFloat} {x : ℚ} (hc : b.sig.Canon) (hd : b.Denotes x) :
    ∃ s, Is b.sig s ∧ Approx x s b.exp b.rem ∧ (b.rem = true → 2 ^ 53 ≤ s) := by
  obtain ⟨s, hs, h⟩ := hd
  refine ⟨s, ⟨hc, hs⟩, ?_, ?_⟩
  · unfold Approx
    split at h
    · rename_i hr; rw [if_pos hr]; exact ⟨h.1, h.2.1⟩
    · rename_i hr; rw [if_neg hr]; exact h
  · intro hr; rw [hr] at h; exact h.2.2

theorem isNearestDouble_unique {neg : Bool} {x : ℚ} {a b : Nat} (ha : IsNearestDouble neg x a)
    (hb : IsNearestDouble neg x b) : a = b := by
  obtain ⟨a', ha, rfl⟩ := ha
  obtain ⟨b', hb, rfl⟩ := hb
  rw [nearest_unique ha hb]

theorem yields_unique {α : Type} {f : Nat → Res α} {a b : α} (ha : Yields f a) (hb : Yields f b) :
    a = b := by
  obtain ⟨F, ha⟩ := ha
  obtain ⟨G, hb⟩ := hb
  have h1 := ha (max F G) (le_max_left _ _)
  rw [hb (max F G) (le_max_right _ _)] at h1
  cases h1; rfl

theorem f64Bits_zero (b : BigFloat) (h : Is b.sig 0) (fuel : Nat) :
    f64Bits fuel b = .ok (if b.sign = .neg then 2 ^ 63 else 0) := by
  unfold f64Bits
  have : b.sig.isZero = true := h.isZero.2 rfl
  rw [this]
  cases b.sign <;> rfl

theorem approx_zero {x : ℚ} {E : Int} (h : Approx x 0 E false) : x = 0 := by
  unfold Approx at h
  simpa using h

/-- Proved part of C17: every value outside the open band `(2^-1075, 2^-1074)` is rounded to
the nearest double, ties to even, including subnormal results, underflow and overflow.
Missing: that band, see `C17_band_flushed`. -/
theorem C17_to_f64_partial (b : BigFloat) (x : ℚ) (hc : b.sig.Canon) (hsm : b.Small)
    (hd : b.Denotes x) (hband : ¬ (2 ^ (-1075 : Int) < x ∧ x < 2 ^ (-1074 : Int))) :
    ∃ bits, Yields (fun fuel => f64Bits fuel b) bits ∧ IsNearestDouble (b.sign = .neg) x bits := by
  obtain ⟨s, hs, hx, hr⟩ := denotes_approx hc hd
  have hlog : s.log2 < 2 ^ 61 := by have := hsm.2.2; rw [hs.2] at this; simpa using this
  rcases Nat.eq_zero_or_pos s with h0 | h0
  · subst h0
    have hrf : b.rem = false := by
      cases h : b.rem
      · rfl
      · exact absurd (hr h) (by norm_num)
    rw [hrf] at hx
    refine ⟨_, ⟨0, fun fuel _ => f64Bits_zero b hs fuel⟩, 0, ?_, ?_⟩
    · rw [approx_zero hx]; exact nearest_zero (le_refl _) (by positivity)
    · cases b.sign <;> rfl
  · have key := f64Bits_ok b s x hs h0 hx hr hsm.1 hsm.2.1 (s.log2 + 1) (by omega) Nat.lt_log2_self
    obtain ⟨bits, e, hn, -⟩ := key (2 ^ 62) (by omega)
    refine ⟨bits, ⟨2 ^ 62, fun fuel hf => ?_⟩, hn hband⟩
    obtain ⟨bits', e', hn', -⟩ := key fuel (by omega)
    dsimp only
    rw [e', isNearestDouble_unique (hn' hband) (hn hband)]

/-- In the band the code always answers ±0, which is never the nearest double. -/
theorem C17_band_flushed (b : BigFloat) (x : ℚ) (hc : b.sig.Canon) (hsm : b.Small)
    (hd : b.Denotes x) (hband : 2 ^ (-1075 : Int) < x ∧ x < 2 ^ (-1074 : Int)) :
    Yields (fun fuel => f64Bits fuel b) (if b.sign = .neg then 2 ^ 63 else 0) ∧
    ¬ IsNearestDouble (b.sign = .neg) x (if b.sign = .neg then 2 ^ 63 else 0) := by
  obtain ⟨s, hs, hx, hr⟩ := denotes_approx hc hd
  have hlog : s.log2 < 2 ^ 61 := by have := hsm.2.2; rw [hs.2] at this; simpa using this
  have hxpos : 0 < x := lt_trans (by positivity) hband.1
  constructor
  · rcases Nat.eq_zero_or_pos s with h0 | h0
    · subst h0
      exact ⟨0, fun fuel _ => f64Bits_zero b hs fuel⟩
    · refine ⟨2 ^ 62, fun fuel hf => ?_⟩
      obtain ⟨bits, e, -, hz⟩ := f64Bits_ok b s x hs h0 hx hr hsm.1 hsm.2.1 (s.log2 + 1) (by omega)
        Nat.lt_log2_self fuel (by omega)
      dsimp only
      rw [e, hz hband]
  · rintro ⟨m, hm, e⟩
    have hm0 : m = 0 := by
      cases hsn : b.sign <;> simp [hsn] at e <;> omega
    subst hm0
    have e0 : dval 0 = 0 := by unfold dval ulps; norm_num
    have e1 : dval (0 + 1) = 2 ^ (-1074 : Int) := by
      have := dval_split 0 1 (Or.inl rfl) (by norm_num)
      rw [Nat.zero_mul] at this
      rw [this]; norm_num
    have e2 : (2 : ℚ) ^ (-1074 : Int) = 2 ^ (-1075 : Int) * 2 := by
      have : (-1074 : Int) = -1075 + 1 := by norm_num
      rw [this, zpow_add₀ (by norm_num), zpow_one]
    have h1 : Nearest x (0 + 1) := by
      apply nearest_up (by unfold INF; omega)
      · rw [e1]; exact hband.2.le
      · rw [e0, e1, e2]; linarith [hband.1]
    exact absurd (nearest_unique hm h1) (by norm_num)

/-- The code violates C17: `3·2^-1076` becomes 0 instead of `2^-1074`. -/
theorem C17_to_f64_violated : ¬ BinToDoubleCorrect := by
  intro h
  have hc : (new .pos [3]).Canon := by decide
  have hv : (new .pos [3]).toInt = 3 := by decide
  have hd : (BigFloat.mk (new .pos [3]) .pos (-1076) false).Denotes (3 * 2 ^ (-1076 : Int)) :=
    ⟨3, hv, by simp⟩
  have hsm : (BigFloat.mk (new .pos [3]) .pos (-1076) false).Small := by
    refine ⟨by norm_num, by norm_num, ?_⟩
    rw [hv]; decide +kernel
  have hp : (0 : ℚ) < 2 ^ (-1076 : Int) := by positivity
  have e1 : (2 : ℚ) ^ (-1075 : Int) = 2 ^ (-1076 : Int) * 2 := by
    have : (-1075 : Int) = -1076 + 1 := by norm_num
    rw [this, zpow_add₀ (by norm_num), zpow_one]
  have e2 : (2 : ℚ) ^ (-1074 : Int) = 2 ^ (-1076 : Int) * 4 := by
    have : (-1074 : Int) = -1076 + 2 := by norm_num
    rw [this, zpow_add₀ (by norm_num)]; norm_num
  obtain ⟨hy, hn⟩ := C17_band_flushed _ _ hc hsm hd
    ⟨by rw [e1]; linarith, by rw [e2]; linarith⟩
  obtain ⟨bits, hy', hn'⟩ := h _ _ hc hsm hd
  rw [yields_unique hy' hy] at hn'
  exact hn hn'

example : (BigFloat.mk (new .pos [2 ^ 53 + 1]) .neg (-53) true).Small ∧
    (BigFloat.mk (new .pos [2 ^ 53 + 1]) .neg (-53) true).Denotes (1 + 3 / 2 ^ 54) ∧
    f64Bits 100 ⟨new .pos [2 ^ 53 + 1], .neg, -53, true⟩ = .ok 0xBFF0000000000001 := by
  refine ⟨⟨by norm_num, by norm_num, by decide +kernel⟩, ⟨2 ^ 53 + 1, by decide, ?_⟩, by decide +kernel⟩
  norm_num

/-! ## C16: decimal literals -/

/-- Full claim of C16 for the literal with sign, significand and decimal exponent of `b`. -/
def DecimalCorrect (b : BigFloat) : Prop :=
  ∃ bits, Yields (fun fuel => toF64 fuel b) bits ∧
    IsNearestDouble (b.sign = .neg) (b.sig.toInt * 10 ^ b.exp) bits

/-- the loops only gain from more fuel -/
theorem incLoop_mono {min : JsBig} {r : BigFloat} : ∀ (f : Nat) (b : BigFloat),
    incLoop min f b = .ok r → ∀ g ≥ f, incLoop min g b = .ok r := by
  intro f
  induction f with
  | zero => intro b h; cases h
  | succ f ih =>
    intro b h g hg
    obtain ⟨g, rfl⟩ : ∃ g', g = g' + 1 := ⟨g - 1, by omega⟩
    unfold incLoop at h ⊢
    split at h
    · exact h
    · exact h
    · cases h1 : shlOnU64 b.sig 1 with
      | error e => rw [h1] at h; cases h
      | ok c =>
        rw [h1] at h
        cases h2 : i64 (b.exp - 1) with
        | error e => rw [h2] at h; cases h
        | ok e =>
          rw [h2] at h
          exact ih _ h g (by omega)

/-- The literal `1e-55` makes the conversion loop forever. -/
theorem C16_termination_violated (fuel bits : Nat) :
    toF64 fuel ⟨new .pos [1], .pos, -55, false⟩ ≠ .ok bits := by
  intro h
  have hp : powU64 (fromU64 .pos 5) 55 =
      .ok (new .pos [18443565265187884909, 15046327690525280101]) := by decide +kernel
  have hm : pow2 54 = .ok (new .pos [18014398509481984]) := by decide +kernel
  have hmm : mul (new .pos [18443565265187884909, 15046327690525280101])
      (new .pos [18014398509481984]) =
      .ok (new .pos [15798627492815699968, 15672523598944129139, 14693679385278593]) := by
    decide +kernel
  have hinc : incLoop (new .pos [15798627492815699968, 15672523598944129139, 14693679385278593])
      300 ⟨new .pos [1], .pos, -55, false⟩ =
      .ok ⟨new .pos [0, 0, 18014398509481984], .pos, -237, false⟩ := by decide +kernel
  have hcyc : ∀ f, divLoop [18443565265187884909, 15046327690525280101] f
      [1102175024028408913, 16848745622424903676] [22085588309729803] = .error .fuel := by
    intro f
    induction f with
    | zero => rfl
    | succ f ih =>
      have hc : cmpVec [1102175024028408913, 16848745622424903676]
        [18443565265187884909, 15046327690525280101] = .gt := by decide +kernel
      have hs : divStep [1102175024028408913, 16848745622424903676]
        [18443565265187884909, 15046327690525280101] [22085588309729803] =
        .ok ([1102175024028408913, 16848745622424903676], [22085588309729803]) := by decide +kernel
      unfold divLoop
      rw [hc, hs]
      exact ih
  have hdiv : divMod fuel (new .pos [0, 0, 18014398509481984])
      (new .pos [18443565265187884909, 15046327690525280101]) = .error .fuel := by
    have hc : cmpVec (new .pos [0, 0, 18014398509481984]).items
      (new .pos [18443565265187884909, 15046327690525280101]).items = .gt := by decide +kernel
    have hz : (new .pos [18443565265187884909, 15046327690525280101]).isZero = false := rfl
    unfold divMod
    rw [hc]
    simp only [hz, new_items]
    cases fuel with
    | zero => rfl
    | succ f =>
      have hc : cmpVec [0, 0, 18014398509481984]
        [18443565265187884909, 15046327690525280101] = .gt := by decide +kernel
      have hs : divStep [0, 0, 18014398509481984]
        [18443565265187884909, 15046327690525280101] [] =
        .ok ([1102175024028408913, 16848745622424903676], [22085588309729803]) := by decide +kernel
      unfold divLoop
      rw [hc, hs]
      simp only [bind, Except.bind, hcyc f]
      rfl
  have e55 : i64 (- (-55)) = .ok 55 := by decide
  have hz : (new .pos [1]).isZero = false := rfl
  unfold toF64 toBin at h
  simp only [hz, Bool.false_eq_true, if_false, e55] at h
  rw [if_neg (by norm_num), if_neg (by norm_num)] at h
  simp only [bind, Except.bind, show (55 : Int).toNat = 55 from rfl, hp, hm, hmm, increaseTo, hz,
    Bool.false_eq_true, if_false] at h
  cases hi : incLoop (new .pos [15798627492815699968, 15672523598944129139, 14693679385278593])
      fuel ⟨new .pos [1], .pos, -55, false⟩ with
  | error e => rw [hi] at h; cases h
  | ok r =>
    have h1 := incLoop_mono _ _ hi (max fuel 300) (le_max_left _ _)
    rw [incLoop_mono _ _ hinc (max fuel 300) (le_max_right _ _)] at h1
    cases h1
    rw [hi] at h
    simp only [hdiv] at h
    cases h

/-- The sign of a zero literal is lost: `-0.0` becomes `+0`. -/
theorem C16_negative_zero_violated :
    Yields (fun fuel => toF64 fuel ⟨JsBig.zero, .neg, -1, false⟩) 0 ∧
    ¬ DecimalCorrect ⟨JsBig.zero, .neg, -1, false⟩ := by
  have hy : Yields (fun fuel => toF64 fuel ⟨JsBig.zero, .neg, -1, false⟩) 0 := ⟨0, fun _ _ => rfl⟩
  refine ⟨hy, ?_⟩
  rintro ⟨bits, hy', m, -, e⟩
  rw [yields_unique hy' hy] at e
  simp at e
  omega

theorem toBin_ok (b : BigFloat) (m N : Nat) (hm : Is b.sig m) (h0 : 0 < m) (hrem : b.rem = false)
    (hN : N ≤ 2 ^ 59) (hmN : m < 2 ^ N) (he1 : -27 ≤ b.exp) (he2 : b.exp ≤ 2 ^ 59)
    (fuel : Nat) (hf : N + 3 * b.exp.toNat + 200 ≤ fuel) :
    ∃ b' s, toBin fuel 54 b = .ok b' ∧ Is b'.sig s ∧ 0 < s ∧ s < 2 ^ 54 ∧ b'.sign = b.sign ∧
      (b'.rem = true → 2 ^ 53 ≤ s) ∧ -2 ^ 62 ≤ b'.exp ∧ b'.exp ≤ 2 ^ 62 ∧
      Approx (m * 10 ^ b.exp) s b'.exp b'.rem := by
  have hz : b.sig.isZero = false := hm.isZero_false h0
  have hN0 : 0 < N := by
    rcases Nat.eq_zero_or_pos N with h | h
    · subst h; simp at hmN; omega
    · exact h
  -- scaling an exact value to 54 bits
  have scale : ∀ (c : BigFloat) (s K : Nat), Is c.sig s → 0 < s → c.rem = false → c.sign = b.sign →
      c.exp = b.exp → 0 ≤ b.exp → s < 2 ^ K → 0 < K → K ≤ N + 3 * b.exp.toNat →
      (m * 10 ^ b.exp : ℚ) = s * 2 ^ b.exp →
      ∃ b' s, (do let r ← increase fuel 54 c; decrease fuel 54 r) = .ok b' ∧ Is b'.sig s ∧ 0 < s ∧
      s < 2 ^ 54 ∧ b'.sign = b.sign ∧
      (b'.rem = true → 2 ^ 53 ≤ s) ∧ -2 ^ 62 ≤ b'.exp ∧ b'.exp ≤ 2 ^ 62 ∧
      Approx (m * 10 ^ b.exp) s b'.exp b'.rem := by
    intro c s K hs hs0 hr hsg hexp hpos hsK hK0 hK hx
    obtain ⟨k, b1, e1, hk, hs1, hexp1, hsg1, hr1, hge, hlt⟩ :=
      increase_ok 54 54 (by norm_num) fuel s c hs hs0 (Nat.le_mul_of_pos_left _ hs0) (by omega)
        (by rw [hexp]; push_cast; omega) (by rw [hexp]; omega)
    have ha : Approx (m * 10 ^ b.exp) s c.exp false := by
      unfold Approx; rw [hexp]; simpa using hx
    obtain ⟨k', s', b2, e2, hk', hs2, hexp2, hsg2, ha2, hlt2, hge2, hs20⟩ :=
      decrease_ok 54 K (by norm_num) (by norm_num) (m * 10 ^ b.exp) fuel _ b1 hs1
        (Nat.mul_pos hs0 (Nat.two_pow_pos k))
        (by
          rcases hlt with hlt | hlt
          · subst hlt
            calc s * 2 ^ 0 < 2 ^ K := by simpa using hsK
              _ ≤ 2 ^ (54 + K) := Nat.pow_le_pow_right (by norm_num) (by omega)
          · calc s * 2 ^ k < 2 * 2 ^ 54 := hlt
              _ = 2 ^ (54 + 1) := by norm_num
              _ ≤ 2 ^ (54 + K) := Nat.pow_le_pow_right (by norm_num) (by omega))
        (by omega) (by rw [hexp1, hexp]; omega) (by rw [hexp1, hexp]; omega)
        (by rw [hr1, hr, hexp1]; exact ha.shl k)
    refine ⟨b2, s', ?_, hs2, hs20, hlt2, by rw [hsg2, hsg1, hsg], ?_, by omega, by omega, ha2⟩
    · rw [e1]; exact e2
    · intro h
      rcases hge2 with ⟨-, rfl⟩ | h'
      · rw [hr1, hr] at h; cases h
      · exact h'
  unfold toBin
  rw [hz]
  simp only [Bool.false_eq_true, if_false]
  by_cases hexp0 : b.exp = 0
  · rw [if_pos hexp0]
    exact scale b m N hm h0 hrem rfl rfl (by omega) hmN hN0 (by omega) (by rw [hexp0]; simp)
  rw [if_neg hexp0]
  have h5 : Is (fromU64 .pos 5) 5 := is_fromU64 5 (by norm_num)
  have h5ne : (fromU64 .pos 5).items ≠ [] := by decide
  by_cases hexp : b.exp > 0
  · rw [if_pos hexp]
    obtain ⟨n, hn⟩ : ∃ n : Nat, b.exp = n := ⟨b.exp.toNat, by omega⟩
    have hnn : b.exp.toNat = n := by omega
    obtain ⟨p, ep, vp, cp⟩ := powU64_ok _ h5.1 h5ne n (by omega)
    obtain ⟨c, ec, vc, cc⟩ := C02_mul_exact b.sig p hm.1 cp
    have hc : Is c (m * 5 ^ n) := ⟨cc, by rw [vc, vp, hm.2, h5.2]; push_cast; ring⟩
    rw [hnn, ep]
    simp only [bind, Except.bind, ec]
    refine scale { b with sig := c } (m * 5 ^ n) (N + 3 * n) hc (by positivity) hrem rfl rfl
      (by omega) ?_ (by omega) (by omega) ?_
    · rw [Nat.pow_add, Nat.pow_mul]
      exact Nat.mul_lt_mul_of_lt_of_le hmN (Nat.pow_le_pow_left (by norm_num) n) (by positivity)
    · rw [hn, zpow_natCast, zpow_natCast]
      push_cast
      rw [mul_assoc, ← mul_pow]; norm_num
  · rw [if_neg hexp]
    obtain ⟨n, hn⟩ : ∃ n : Nat, b.exp = -n := ⟨(-b.exp).toNat, by omega⟩
    have hi : i64 (-b.exp) = .ok (n : Int) := by
      rw [hn, neg_neg]; exact i64_ok (by omega) (by omega)
    obtain ⟨p, ep, vp, cp⟩ := powU64_ok _ h5.1 h5ne n (by omega)
    have hp : Is p (5 ^ n) := ⟨cp, by rw [vp, h5.2]; push_cast; ring⟩
    obtain ⟨mn, emn, hmn⟩ := is_pow2 54 (by norm_num)
    obtain ⟨c, ec, vc, cc⟩ := C02_mul_exact p mn cp hmn.1
    have hc : Is c (5 ^ n * 2 ^ 54) := ⟨cc, by rw [vc, hp.2, hmn.2]; push_cast; ring⟩
    have h5n : 5 ^ n ≤ 2 ^ 63 :=
      le_trans (Nat.pow_le_pow_right (by norm_num) (show n ≤ 27 by omega)) (by norm_num)
    have h5n0 : 0 < 5 ^ n := by positivity
    obtain ⟨k, b1, e1, hk, hs1, hexp1, hsg1, hr1, hge, hlt⟩ :=
      incLoop_ok hc 117 fuel m b hm h0
        (by
          calc 5 ^ n * 2 ^ 54 ≤ 2 ^ 63 * 2 ^ 54 := Nat.mul_le_mul_right _ h5n
            _ = 2 ^ 117 := by norm_num
            _ ≤ m * 2 ^ 117 := Nat.le_mul_of_pos_left _ h0)
        (by omega) (by push_cast; omega) (by omega)
    have hk2 : m * 2 ^ k < 2 ^ (N + 117) := by
      rw [Nat.pow_add]
      exact Nat.mul_lt_mul_of_lt_of_le hmN (Nat.pow_le_pow_right (by norm_num) hk) (by positivity)
    have hlen := hs1.length_le hk2
    obtain ⟨q, r, ed, qc, rc, qv, -, rv⟩ := C05_divmod_partial b1.sig p hs1.1 cp 0 (5 ^ n) h5n0 h5n
      (by rw [hp.2]; simp) (by
        rw [hp.2, hs1.2, Int.natAbs_natCast, Int.natAbs_natCast]
        exact le_trans (Nat.le_mul_of_pos_right _ (by norm_num)) hge) fuel
      (by omega)
    have rv := rv (by rw [hp.2]; exact_mod_cast h5n0)
    rw [hs1.2, hp.2] at qv rv
    have hq : Is q (m * 2 ^ k / 5 ^ n) := ⟨qc, by rw [qv]; rfl⟩
    have hr : Is r (m * 2 ^ k % 5 ^ n) := ⟨rc, by rw [rv]; rfl⟩
    have hqge : 2 ^ 54 ≤ m * 2 ^ k / 5 ^ n := by
      rw [Nat.le_div_iff_mul_le h5n0, mul_comm]; exact hge
    have hx : Approx (m * 10 ^ b.exp) (m * 2 ^ k / 5 ^ n) b1.exp (b.rem || !r.isZero) := by
      clear hk2 hlen
      have hdm := Nat.div_add_mod (m * 2 ^ k) (5 ^ n)
      have hlt := Nat.mod_lt (m * 2 ^ k) h5n0
      have hrz := hr.isZero
      have he : (2 : ℚ) ^ b1.exp = 1 / (2 ^ n * 2 ^ k) := by
        rw [hexp1, hn, zpow_sub₀ (by norm_num), zpow_neg, zpow_natCast, zpow_natCast]
        field_simp
      have hxe : (m * 10 ^ b.exp : ℚ) = (m * 2 ^ k : Nat) / (5 ^ n : Nat) * (1 / (2 ^ n * 2 ^ k)) := by
        rw [hn, zpow_neg, zpow_natCast, show (10 : ℚ) = 5 * 2 by norm_num, mul_pow]
        push_cast
        field_simp
      generalize m * 2 ^ k / 5 ^ n = Q at *
      generalize m * 2 ^ k % 5 ^ n = R at *
      rw [hrem, hxe]
      unfold Approx
      rw [he]
      have hpos : (0 : ℚ) < 1 / (2 ^ n * 2 ^ k) := by positivity
      generalize (1 : ℚ) / (2 ^ n * 2 ^ k) = u at *
      have h5q : (0 : ℚ) < (5 ^ n : Nat) := by exact_mod_cast h5n0
      rw [← hdm]
      cases hR : r.isZero
      · have hR0 : R ≠ 0 := by
          intro h; rw [hrz.2 h] at hR; cases hR
        simp only [Bool.not_false, Bool.or_true, if_true]
        have hRq : (0 : ℚ) < R := by exact_mod_cast Nat.pos_of_ne_zero hR0
        have hRq2 : (R : ℚ) < (5 ^ n : Nat) := by exact_mod_cast hlt
        constructor
        · apply mul_lt_mul_of_pos_right _ hpos
          rw [lt_div_iff₀ h5q]; push_cast at *; nlinarith
        · apply mul_lt_mul_of_pos_right _ hpos
          rw [div_lt_iff₀ h5q]; push_cast at *; nlinarith
      · have hR0 : R = 0 := hrz.1 hR
        subst hR0
        simp only [Bool.not_true, Bool.or_false, Bool.false_eq_true, if_false]
        congr 1
        rw [div_eq_iff h5q.ne']; push_cast; ring
    obtain ⟨k', s', b2, e2, hk', hs2, hexp2, hsg2, ha2, hlt2, hge2, hs20⟩ :=
      decrease_ok 54 (N + 1) (by norm_num) (by norm_num) (m * 10 ^ b.exp) fuel _
        ⟨q, b.sign, b1.exp, b.rem || !r.isZero⟩ hq (by omega)
        (by
          rcases hlt with hlt | hlt
          · subst hlt
            calc m * 2 ^ 0 / 5 ^ n ≤ m := by simpa using Nat.div_le_self m (5 ^ n)
              _ < 2 ^ N := hmN
              _ ≤ 2 ^ (54 + (N + 1)) := Nat.pow_le_pow_right (by norm_num) (by omega)
          · have : m * 2 ^ k / 5 ^ n < 2 ^ 55 := by
              rw [Nat.div_lt_iff_lt_mul h5n0]
              calc m * 2 ^ k < 2 * (5 ^ n * 2 ^ 54) := hlt
                _ = 2 ^ 55 * 5 ^ n := by ring
            exact lt_of_lt_of_le this (Nat.pow_le_pow_right (by norm_num) (by omega)))
        (by omega) (by dsimp only; omega) (by dsimp only; push_cast; omega) hx
    refine ⟨b2, s', ?_, hs2, hs20, hlt2, hsg2, ?_, by dsimp only at *; omega,
      by dsimp only at *; omega, ha2⟩
    · simp only [hi, bind, Except.bind, Int.toNat_natCast, ep, emn, ec, increaseTo, hz,
        Bool.false_eq_true, if_false, e1, ed]
      exact e2
    · intro h
      rcases hge2 with ⟨hk0, rfl⟩ | h'
      · have : s' = m * 2 ^ k / 5 ^ n := by
          have a := hs2.2; have b := hq.2
          dsimp only at a; rw [b] at a; exact_mod_cast a.symm
        omega
      · exact h'

/-- the conversion with explicit fuel -/
theorem toF64_fuel (b : BigFloat) (m : Nat) (him : Is b.sig m) (h0 : 0 < m)
    (hrem : b.rem = false) (hlog : m.log2 < 2 ^ 59) (he1 : -27 ≤ b.exp) (he2 : b.exp ≤ 2 ^ 59)
    (fuel : Nat) (hf : m.log2 + 3 * b.exp.toNat + 201 ≤ fuel) :
    ∃ bits, toF64 fuel b = .ok bits ∧ IsNearestDouble (b.sign = .neg) (m * 10 ^ b.exp) bits := by
  have hx : ¬ ((2 : ℚ) ^ (-1075 : Int) < m * 10 ^ b.exp ∧ (m * 10 ^ b.exp : ℚ) < 2 ^ (-1074 : Int)) := by
    rintro ⟨-, h⟩
    have h1 : (10 : ℚ) ^ (-27 : Int) ≤ 10 ^ b.exp := zpow_le_zpow_right₀ (by norm_num) he1
    have h2 : (1 : ℚ) ≤ m := by exact_mod_cast h0
    have h3 : (2 : ℚ) ^ (-1074 : Int) ≤ 2 ^ (-100 : Int) :=
      zpow_le_zpow_right₀ (by norm_num) (by norm_num)
    have h4 : (2 : ℚ) ^ (-100 : Int) ≤ 10 ^ (-27 : Int) := by norm_num
    have h5 : (0 : ℚ) < 10 ^ b.exp := by positivity
    nlinarith
  obtain ⟨b', s, e, his, hs0, hs54, hsg, hr, hb1, hb2, ha⟩ :=
    toBin_ok b m (m.log2 + 1) him h0 hrem (by omega) Nat.lt_log2_self he1 he2 fuel (by omega)
  obtain ⟨bits, e', hn, -⟩ := f64Bits_ok b' s _ his hs0 ha hr hb1 hb2 54 (by norm_num) hs54 fuel
    (by omega)
  refine ⟨bits, by unfold toF64; rw [e]; exact e', ?_⟩
  have := hn hx
  rw [hsg] at this
  exact this

/-- a zero significand always gives `+0` -/
theorem toF64_zero (b : BigFloat) (h : Is b.sig (0 : Nat)) (fuel : Nat) : toF64 fuel b = .ok 0 := by
  unfold toF64 toBin
  rw [h.isZero.2 rfl]; rfl

/-- Proved part of C16: a literal with decimal exponent at least −27 (and below `2^59`, and less
than `2^(2^59)` as significand) is converted to the nearest double, unless it is a negative zero.
Missing: exponents below −27, where the division by `5^e` is wrong or does not terminate (see
`C05_quotient_violated`, `C16_termination_violated`), and `-0.0`. -/
theorem C16_decimal_partial (b : BigFloat) (hc : b.sig.Canon) (hs : 0 ≤ b.sig.toInt)
    (hrem : b.rem = false) (hlog : b.sig.toInt.toNat.log2 < 2 ^ 59)
    (he1 : -27 ≤ b.exp) (he2 : b.exp ≤ 2 ^ 59)
    (hnz : b.sig.toInt = 0 → b.sign = .pos) : DecimalCorrect b := by
  obtain ⟨m, hm⟩ : ∃ m : Nat, b.sig.toInt = m := ⟨b.sig.toInt.toNat, by omega⟩
  have him : Is b.sig m := ⟨hc, hm⟩
  rcases Nat.eq_zero_or_pos m with h0 | h0
  · subst h0
    have hsg := hnz (by simpa using hm)
    refine ⟨0, ⟨0, fun fuel _ => ?_⟩, 0, ?_, ?_⟩
    · unfold toF64 toBin
      rw [him.isZero.2 rfl]; rfl
    · rw [hm]
      simpa using nearest_zero (le_refl 0) (by positivity)
    · rw [hsg]; rfl
  · rw [hm, Int.toNat_natCast] at hlog
    have key := toF64_fuel b m him h0 hrem hlog he1 he2
    obtain ⟨bits, -, hn⟩ := key _ (le_refl _)
    refine ⟨bits, ⟨m.log2 + 3 * b.exp.toNat + 201, fun fuel hf => ?_⟩, by rw [hm]; exact_mod_cast hn⟩
    obtain ⟨bits', e', hn'⟩ := key fuel hf
    dsimp only
    rw [e', isNearestDouble_unique hn' hn]

/-- `0.1` and `-12.5e3` as literals -/
example : DecimalCorrect ⟨new .pos [1], .pos, -1, false⟩ ∧
    DecimalCorrect ⟨new .pos [125], .neg, 2, false⟩ :=
  ⟨C16_decimal_partial _ (by decide) (by decide) rfl (by decide +kernel) (by norm_num) (by norm_num)
      (by decide),
   C16_decimal_partial _ (by decide) (by decide) rfl (by decide +kernel) (by norm_num) (by norm_num)
      (by decide)⟩

example : toF64 200 ⟨new .pos [1], .pos, -1, false⟩ = .ok 0x3FB999999999999A := by decide +kernel

end Nanvm
