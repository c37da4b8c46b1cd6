import Verif.Lemmas.ReleaseFloat
import Verif.Props.BigFloatAny
import Verif.Props.Release
/-!
# C89: conversion to doubles in a release build
-/
namespace Nanvm
open JsBig BigFloat Tok

/-- Where the debug build does not panic for overflow, `to_f64` of a release build returns the same. -/
theorem C89_float_partial (fuel : Nat) (b : BigFloat) :
    (f64Bits fuel b ≠ .error (.panic .overflow) → f64BitsR fuel b = f64Bits fuel b) ∧
    (toF64 fuel b ≠ .error (.panic .overflow) → toF64R fuel b = toF64 fuel b) :=
  ⟨fun h => (unless_f64Bits fuel b).resolve_left h, fun h => (unless_toF64 fuel b).resolve_left h⟩

/-- The same for the whole tokenizer with its conversion of numbers.  The second part carries the
other theorems of C89, which use the conversion of the debug build, over to the release build. -/
theorem C89_tokenizer_float_partial (fuel : Nat) (t : Text) :
    (tokenize (toF64 fuel) t ≠ .error (.panic .overflow) →
      tokenizeR (toF64R fuel) t = tokenize (toF64 fuel) t) ∧
    (tokenizeR (toF64 fuel) t ≠ .error (.panic .overflow) →
      tokenizeR (toF64R fuel) t = tokenizeR (toF64 fuel) t) :=
  ⟨fun h => (unless_conv (unless_toF64 fuel) t).resolve_left h,
    fun h => (unless_convR (unless_toF64 fuel) t).resolve_left h⟩

/-- A literal with an exponent is read as if 2^64 was taken off its exponent as often as needed, in a
release build with its own conversion. -/
theorem C89_literal_release_partial (l : NumLit) (e : ExpPart) (hl : l.Valid) (he : l.exp = some e)
    (hlen : l.text.length < 2 ^ 56) (E : Int) (hk : ∃ k, l.expo = E + k * 2 ^ 64)
    (h1 : -27 ≤ E) (h2 : E ≤ 2 ^ 59) (hz : l.mant = 0 → l.neg = false) :
    ∃ bits, IsNearestDouble l.neg (l.mant * 10 ^ E) bits ∧
      ∃ F, ∀ fuel ≥ F, tokenizeR (toF64R fuel) l.text = .ok [.number bits] := by
  obtain ⟨bits, hn, F, hF⟩ := C89_literal_value_partial l e hl he hlen E hk h1 h2 hz
  refine ⟨bits, hn, F, fun fuel hf => ?_⟩
  rw [(C89_tokenizer_float_partial fuel l.text).2 (by rw [hF fuel hf]; simp), hF fuel hf]

/-- the hypotheses of `C89_literal_release_partial` -/
example : hugeLit.Valid ∧ ∃ e, hugeLit.exp = some e := ⟨hugeLit_valid, _, rfl⟩

/-! ### exponents that wrap -/

theorem wrap64_wrap (x d : Int) : wrap64 (wrap64 x + d) = wrap64 (x + d) := by
  obtain ⟨k, hk⟩ := wrap64_mod x
  exact wrap64_congr ⟨k, by rw [hk]; ring⟩

namespace BigFloat

/-- another exponent -/
def shift (d : Int) (b : BigFloat) : BigFloat := { b with exp := wrap64 (b.exp + d) }

theorem incLoopR_shift (min : JsBig) (d : Int) : ∀ (fuel : Nat) (b : BigFloat),
    incLoopR min fuel (b.shift d) = (incLoopR min fuel b).map (shift d) := by
  intro fuel
  induction fuel with
  | zero => intro b; rfl
  | succ f ih =>
    intro b
    unfold incLoopR
    rw [show (b.shift d).sig = b.sig from rfl]
    cases b.sig.compare min with
    | gt => rfl
    | eq => rfl
    | lt =>
      simp only
      cases shlOnU64R b.sig 1 with
      | error e => rfl
      | ok sig =>
        have := ih { b with sig, exp := wrap64 (b.exp - 1) }
        refine Eq.trans (congrArg (incLoopR min f) ?_) this
        simp only [shift, BigFloat.mk.injEq, true_and, and_true]
        have h1 := wrap64_wrap (b.exp + d) (-1)
        have h2 := wrap64_wrap (b.exp + -1) d
        rw [show wrap64 (b.exp + d) - 1 = wrap64 (b.exp + d) + -1 from rfl,
          show b.exp - 1 = b.exp + -1 from rfl, h1, h2]
        congr 1; ring

theorem decLoopR_shift (max : JsBig) (d : Int) : ∀ (fuel : Nat) (b : BigFloat),
    decLoopR max fuel (b.shift d) = (decLoopR max fuel b).map (shift d) := by
  intro fuel
  induction fuel with
  | zero => intro b; rfl
  | succ f ih =>
    intro b
    unfold decLoopR
    rw [show (b.shift d).sig = b.sig from rfl]
    split
    · rfl
    · refine Eq.trans (congrArg (decLoopR max f) ?_) (ih _)
      simp only [shift, BigFloat.mk.injEq, true_and, and_true]
      rw [wrap64_wrap, wrap64_wrap]
      congr 1; ring

theorem increaseR_shift (fuel p : Nat) (d : Int) (b : BigFloat) :
    increaseR fuel p (b.shift d) = (increaseR fuel p b).map (shift d) := by
  unfold increaseR increaseToR
  rw [show (b.shift d).sig = b.sig from rfl]
  split
  · rfl
  · cases pow2 p with
    | error e => rfl
    | ok c => exact incLoopR_shift c d fuel b

theorem decreaseR_shift (fuel p : Nat) (d : Int) (b : BigFloat) :
    decreaseR fuel p (b.shift d) = (decreaseR fuel p b).map (shift d) := by
  unfold decreaseR
  rw [show (b.shift d).sig = b.sig from rfl]
  split
  · rfl
  · cases pow2 p with
    | error e => rfl
    | ok c => exact decLoopR_shift c d fuel b

/-- the loops of `get_f64_bits` for the exponent 0 -/
theorem normal_ok (b : BigFloat) (s : Nat) (x : ℚ) (hs : Is b.sig s) (h0 : 0 < s) (he : b.exp = 0)
    (hx : Approx x s 0 b.rem) (hr : b.rem = true → 2 ^ 53 ≤ s) (N : Nat) (hN : N ≤ 2 ^ 61)
    (hsz : s < 2 ^ N) (fuel : Nat) (hf : N + 54 ≤ fuel) :
    ∃ b1 b2, increase fuel (52 + 1) b = .ok b1 ∧ decrease fuel (52 + 2) b1 = .ok b2 ∧
      b2.exp + 53 = s.log2 := by
  rw [← he] at hx
  obtain ⟨k1, b1, e1, hk1, hs1, he1', hsg1, hr1, hge1, hlt1⟩ :=
    increase_ok (52 + 1) 53 (by norm_num) fuel s b hs h0
      (by rw [show 52 + 1 = 53 from rfl]; exact Nat.le_mul_of_pos_left _ h0) (by omega)
      (by rw [he]; norm_num) (by omega)
  have hx1 : Approx x (s * 2 ^ k1) b1.exp b1.rem := by
    rw [he1', hr1]
    rcases hlt1 with hlt1 | hlt1
    · subst hlt1; simpa using hx
    · cases hb : b.rem
      · rw [hb] at hx; exact hx.shl k1
      · have h53 := hr hb
        have : k1 = 0 := by
          by_contra hc
          have : 2 ^ 1 ≤ 2 ^ k1 := Nat.pow_le_pow_right (by omega) (by omega)
          have := Nat.mul_le_mul h53 this
          norm_num at this hlt1; omega
        subst this; rw [hb] at hx; simpa using hx
  obtain ⟨k2, s2, b2, e2, hk2, hs2, he2', hsg2, hx2, hlt2, hge2, hpos2⟩ :=
    decrease_ok (52 + 2) N (by norm_num) (by norm_num) x fuel (s * 2 ^ k1) b1 hs1 (by positivity)
      (by
        calc s * 2 ^ k1 < 2 ^ N * 2 ^ k1 := Nat.mul_lt_mul_of_pos_right hsz (by positivity)
          _ ≤ 2 ^ N * 2 ^ (52 + 2) := Nat.mul_le_mul_left _ (Nat.pow_le_pow_right (by omega) (by omega))
          _ = 2 ^ (52 + 2 + N) := by rw [← pow_add, Nat.add_comm])
      (by omega) (by omega) (by omega) hx1
  have hge : 2 ^ 53 ≤ s2 := by
    rcases hge2 with ⟨-, hb⟩ | h
    · have := hs2.2; rw [hb, hs1.2] at this
      have : s * 2 ^ k1 = s2 := by exact_mod_cast this
      rw [← this]; exact hge1
    · exact h
  refine ⟨b1, b2, e1, e2, ?_⟩
  have l1 : 2 ^ s.log2 ≤ s := Nat.log2_self_le (by omega)
  have l2 : s < 2 ^ (s.log2 + 1) := Nat.lt_log2_self
  generalize s.log2 = L at *
  have hlo := hx.lower
  have hhi := hx.upper
  have hlo2 := hx2.lower
  have hhi2 := hx2.upper
  rw [he, zpow_zero, mul_one] at hlo hhi
  have a1 : (2 : ℚ) ^ (L : Int) ≤ x := by
    refine le_trans ?_ hlo
    rw [zpow_natCast]; exact_mod_cast l1
  have a2 : x < (2 : ℚ) ^ ((L : Int) + 1) := by
    refine lt_of_lt_of_le hhi ?_
    rw [show (L : Int) + 1 = ((L + 1 : Nat) : Int) by push_cast; rfl, zpow_natCast]
    exact_mod_cast l2
  have a3 : (2 : ℚ) ^ (b2.exp + 53) ≤ x := by
    refine le_trans ?_ hlo2
    have : ((2 ^ 53 : Nat) : ℚ) ≤ s2 := by exact_mod_cast hge
    rw [add_comm, zpow_add₀ (by norm_num)]
    refine mul_le_mul_of_nonneg_right (le_trans (le_of_eq ?_) this) (by positivity)
    norm_num
  have a4 : x < (2 : ℚ) ^ (b2.exp + 54) := by
    refine lt_of_lt_of_le hhi2 ?_
    have : ((s2 + 1 : Nat) : ℚ) ≤ ((2 ^ 54 : Nat) : ℚ) := by exact_mod_cast hlt2
    push_cast at this
    rw [add_comm b2.exp, zpow_add₀ (by norm_num)]
    refine mul_le_mul_of_nonneg_right (le_trans this (le_of_eq ?_)) (by positivity)
    norm_num
  have b1 := lt_of_le_of_lt a1 a4
  have b2' := lt_of_le_of_lt a3 a2
  rw [zpow_lt_zpow_iff_right₀ (by norm_num)] at b1 b2'
  omega

/-- what the release build makes of an exponent: all but the exponent is as for the exponent 0 -/
theorem f64BitsR_far (b : BigFloat) (s : Nat) (x : ℚ) (hs : Is b.sig s) (h0 : 0 < s)
    (hx : Approx x s b.exp b.rem) (hr : b.rem = true → 2 ^ 53 ≤ s) (h1 : -2 ^ 63 ≤ b.exp)
    (h2 : b.exp < 2 ^ 63) (hlog : s.log2 < 2 ^ 61) (fuel : Nat) (hf : 2 ^ 61 + 54 ≤ fuel)
    (E : Int) (hE : E = wrap64 (b.exp + s.log2)) :
    (1023 < E → f64BitsR fuel b = .ok ((if b.sign = .neg then 2 ^ 63 else 0) + INF)) ∧
    (E < -1074 → f64BitsR fuel b = .ok (if b.sign = .neg then 2 ^ 63 else 0)) := by
  have hx0 : Approx (x * 2 ^ (-b.exp)) s 0 b.rem := by
    have hp : (0 : ℚ) < 2 ^ (-b.exp) := by positivity
    have hc : ∀ y : ℚ, y * 2 ^ b.exp * 2 ^ (-b.exp) = y := fun y => by
      rw [mul_assoc, ← zpow_add₀ (by norm_num)]; simp
    unfold Approx at hx ⊢
    simp only [zpow_zero, mul_one]
    split
    · rename_i hrem
      rw [if_pos hrem] at hx
      have i1 := mul_lt_mul_of_pos_right hx.1 hp
      have i2 := mul_lt_mul_of_pos_right hx.2 hp
      rw [hc] at i1 i2
      exact ⟨i1, i2⟩
    · rename_i hrem
      rw [if_neg hrem] at hx
      rw [hx, hc]
  obtain ⟨c1, c2, e1, e2, hexp⟩ := normal_ok { b with exp := 0 } s _ hs h0 rfl hx0 hr (s.log2 + 1)
    (by omega) Nat.lt_log2_self fuel (by omega)
  have r1 : increaseR fuel (52 + 1) { b with exp := 0 } = .ok c1 := by
    have := (unless_increase fuel (52 + 1) { b with exp := 0 }).resolve_left (by rw [e1]; simp)
    rw [this, e1]
  have r2 : decreaseR fuel (52 + 2) c1 = .ok c2 := by
    have := (unless_decrease fuel (52 + 2) c1).resolve_left (by rw [e2]; simp)
    rw [this, e2]
  have eb : b = shift b.exp { b with exp := 0 } := by
    obtain ⟨g, sg, e, r⟩ := b
    simp only [shift, BigFloat.mk.injEq, true_and, and_true, Int.zero_add]
    exact (wrap64_id h1 h2).symm
  have s1 : increaseR fuel (52 + 1) b = .ok (c1.shift b.exp) := by
    conv_lhs => rw [eb]
    rw [increaseR_shift, r1]; rfl
  have s2 : decreaseR fuel (52 + 2) (c1.shift b.exp) = .ok (c2.shift b.exp) := by
    rw [decreaseR_shift, r2]; rfl
  have s3 : wrap64 (wrap64 ((c2.shift b.exp).exp + 52) + 1) = E := by
    rw [hE]
    simp only [shift]
    rw [wrap64_wrap, add_assoc, wrap64_wrap]
    congr 1; omega
  have key : f64BitsR fuel b =
      (if -1022 ≤ E ∧ E ≤ 1023 then f64BitsR fuel b
      else if -1074 ≤ E ∧ E ≤ -1023 then f64BitsR fuel b
      else if E > 1023 then .ok ((if b.sign = .neg then 1 <<< 63 else 0) ||| (2047 <<< 52))
      else .ok (if b.sign = .neg then 1 <<< 63 else 0)) := by
    by_cases g1 : -1022 ≤ E ∧ E ≤ 1023
    · rw [if_pos g1]
    · rw [if_neg g1]
      by_cases g2 : -1074 ≤ E ∧ E ≤ -1023
      · rw [if_pos g2]
      · rw [if_neg g2]
        unfold f64BitsR
        rw [hs.isZero_false h0]
        simp only [Bool.false_eq_true, if_false]
        rw [s1]
        simp only [bind, Except.bind]
        rw [s2]
        simp only
        rw [s3, if_neg g1, if_neg g2]
        rfl
  constructor
  · intro hE1
    rw [key, if_neg (by omega), if_neg (by omega), if_pos (by omega)]
    cases b.sign <;> rfl
  · intro hE1
    rw [key, if_neg (by omega), if_neg (by omega), if_neg (by omega)]
    cases b.sign <;> rfl

end BigFloat

theorem approx_pow {x : ℚ} {s : Nat} {e : Int} {r : Bool} (h0 : 0 < s) (hx : Approx x s e r) :
    (2 : ℚ) ^ (e + s.log2) ≤ x ∧ x < (2 : ℚ) ^ (e + s.log2 + 1) := by
  have l1 : 2 ^ s.log2 ≤ s := Nat.log2_self_le (by omega)
  have l2 : s < 2 ^ (s.log2 + 1) := Nat.lt_log2_self
  generalize s.log2 = L at *
  constructor
  · refine le_trans ?_ hx.lower
    rw [add_comm, zpow_add₀ (by norm_num), zpow_natCast]
    refine mul_le_mul_of_nonneg_right ?_ (by positivity)
    exact_mod_cast l1
  · refine lt_of_lt_of_le hx.upper ?_
    rw [add_assoc, add_comm e, zpow_add₀ (by norm_num),
      show (L : Int) + 1 = ((L + 1 : Nat) : Int) by push_cast; rfl, zpow_natCast]
    refine mul_le_mul_of_nonneg_right ?_ (by positivity)
    exact_mod_cast l2

/-- `to_f64` of a release build rounds every number of less than `2^(2^63)` to the nearest double
(outside the band of C17), for all `i64` exponents, also where the debug build panics because an
intermediate exponent is too small. -/
theorem C89_to_f64_partial (b : BigFloat) (x : ℚ) (hc : b.sig.Canon) (hd : b.Denotes x)
    (h1 : -2 ^ 63 ≤ b.exp) (hlog : b.sig.toInt.toNat.log2 < 2 ^ 61)
    (hE : b.exp + b.sig.toInt.toNat.log2 < 2 ^ 63)
    (hband : ¬ (2 ^ (-1075 : Int) < x ∧ x < 2 ^ (-1074 : Int))) :
    ∃ bits, Yields (fun fuel => f64BitsR fuel b) bits ∧ IsNearestDouble (b.sign = .neg) x bits := by
  by_cases hsm : b.Small
  · obtain ⟨bits, ⟨F, hF⟩, hn⟩ := C17_to_f64_partial b x hc hsm hd hband
    refine ⟨bits, ⟨F, fun fuel hf => ?_⟩, hn⟩
    have := hF fuel hf
    dsimp only at this ⊢
    rw [(C89_float_partial fuel b).1 (by rw [this]; simp), this]
  · obtain ⟨s, hs, hx, hr⟩ := denotes_approx hc hd
    have es : b.sig.toInt.toNat = s := by rw [hs.2]; simp
    rw [es] at hlog hE
    rcases Nat.eq_zero_or_pos s with h0 | h0
    · subst h0
      have hrf : b.rem = false := by
        cases h : b.rem
        · rfl
        · exact absurd (hr h) (by norm_num)
      rw [hrf] at hx
      refine ⟨if b.sign = .neg then 2 ^ 63 else 0, ⟨0, fun fuel _ => ?_⟩, 0, ?_, ?_⟩
      · have := f64Bits_zero b hs fuel
        dsimp only
        rw [(C89_float_partial fuel b).1 (by rw [this]; simp), this]
      · rw [approx_zero hx]; exact nearest_zero (le_refl _) (by positivity)
      · cases b.sign <;> rfl
    · obtain ⟨p1, p2⟩ := approx_pow h0 hx
      have far := fun fuel hf => f64BitsR_far b s x hs h0 hx hr h1 (by omega) hlog fuel hf _ rfl
      rw [wrap64_id (by omega) hE] at far
      have hcase : b.exp < -2 ^ 62 ∨ 2 ^ 62 < b.exp := by
        by_contra hn
        exact hsm ⟨by omega, by omega, by rw [es]; exact hlog⟩
      rcases hcase with h | h
      · refine ⟨_, ⟨2 ^ 61 + 54, fun fuel hf => (far fuel hf).2 (by omega)⟩, 0, ?_, ?_⟩
        · refine nearest_zero (le_trans (by positivity) p1) (le_trans p2.le ?_)
          exact zpow_le_zpow_right₀ (by norm_num) (by omega)
        · cases b.sign <;> rfl
      · refine ⟨_, ⟨2 ^ 61 + 54, fun fuel hf => (far fuel hf).1 (by omega)⟩, INF, ?_, ?_⟩
        · exact nearest_inf (le_trans (zpow_le_zpow_right₀ (by norm_num) (by omega)) p1)
        · cases b.sign <;> rfl

/-- A number of `2^(2^63)` or more becomes zero in a release build instead of infinity; the debug
build panics. -/
theorem C89_to_f64_violated (b : BigFloat) (x : ℚ) (hc : b.sig.Canon) (hd : b.Denotes x)
    (h2 : b.exp < 2 ^ 63) (hlog : b.sig.toInt.toNat.log2 < 2 ^ 61)
    (hE : 2 ^ 63 ≤ b.exp + b.sig.toInt.toNat.log2) :
    (∀ fuel ≥ 2 ^ 62, f64Bits fuel b = .error (.panic .overflow)) ∧
    Yields (fun fuel => f64BitsR fuel b) (if b.sign = .neg then 2 ^ 63 else 0) ∧
    IsNearestDouble (b.sign = .neg) x ((if b.sign = .neg then 2 ^ 63 else 0) + INF) := by
  obtain ⟨s, hs, hx, hr⟩ := denotes_approx hc hd
  have es : b.sig.toInt.toNat = s := by rw [hs.2]; simp
  rw [es] at hlog hE
  have h0 : 0 < s := by
    rcases Nat.eq_zero_or_pos s with h0 | h0
    · subst h0
      have : (0 : Nat).log2 = 0 := by decide
      rw [this] at hE
      omega
    · exact h0
  obtain ⟨p1, p2⟩ := approx_pow h0 hx
  have far := fun fuel hf => f64BitsR_far b s x hs h0 hx hr (by omega) h2 hlog fuel hf _ rfl
  have ew : wrap64 (b.exp + s.log2) = b.exp + s.log2 - 2 ^ 64 := by
    unfold wrap64; omega
  rw [ew] at far
  have hzero := fun fuel hf => (far fuel hf).2 (by omega)
  refine ⟨fun fuel hf => ?_, ⟨2 ^ 61 + 54, fun fuel hf => hzero fuel hf⟩, INF, ?_, ?_⟩
  · rcases unless_f64Bits fuel b with h | h
    · exact h
    · exfalso
      rw [hzero fuel (by omega)] at h
      have hok := h.symm
      unfold f64Bits at hok
      rw [hs.isZero_false h0] at hok
      simp only [Bool.false_eq_true, if_false] at hok
      obtain ⟨k1, b1, e1, hk1, hs1, he1', hsg1, hr1, hge1, hlt1⟩ :=
        increase_ok (52 + 1) 53 (by norm_num) fuel s b hs h0
          (by rw [show 52 + 1 = 53 from rfl]; exact Nat.le_mul_of_pos_left _ h0) (by omega)
          (by push_cast; omega) h2
      rw [e1] at hok
      simp only [bind, Except.bind] at hok
      cases e2 : decrease fuel (52 + 2) b1 with
      | error e => rw [e2] at hok; cases hok
      | ok v =>
        rw [e2] at hok
        simp only at hok
        have hx1 : Approx x (s * 2 ^ k1) b1.exp b1.rem := by
          rw [he1', hr1]
          rcases hlt1 with hlt1 | hlt1
          · subst hlt1; simpa using hx
          · cases hb : b.rem
            · rw [hb] at hx; exact hx.shl k1
            · have h53 := hr hb
              have : k1 = 0 := by
                by_contra hc
                have : 2 ^ 1 ≤ 2 ^ k1 := Nat.pow_le_pow_right (by omega) (by omega)
                have := Nat.mul_le_mul h53 this
                norm_num at this hlt1; omega
              subst this; rw [hb] at hx; simpa using hx
        have hd2 : ∃ s', 0 < s' ∧ s' < 2 ^ 54 ∧ Approx x s' v.exp v.rem ∧ b1.exp ≤ v.exp := by
          unfold decrease at e2
          rw [hs1.isZero_false (by positivity)] at e2
          obtain ⟨c, ec, hcc⟩ := is_pow2 (52 + 2) (by norm_num)
          rw [ec] at e2
          obtain ⟨s', -, q2, q3, -, q5, q6, -⟩ := decLoop_inv (by norm_num) hcc x fuel _ b1 v e2 hs1
            (by positivity) (by omega) hx1
          exact ⟨s', q2, q3, q5, q6⟩
        obtain ⟨s', q1, q2, q3, q4⟩ := hd2
        obtain ⟨-, p3⟩ := approx_pow q1 q3
        have hl' : s'.log2 < 54 := (Nat.log2_lt (by omega)).2 q2
        have := lt_of_le_of_lt p1 p3
        rw [zpow_lt_zpow_iff_right₀ (by norm_num)] at this
        unfold i64 at hok
        by_cases g : -2 ^ 63 ≤ v.exp + 52 ∧ v.exp + 52 < 2 ^ 63
        · rw [if_pos g] at hok
          simp only at hok
          rw [if_neg (by omega)] at hok
          cases hok
        · rw [if_neg g] at hok
          cases hok
  · exact nearest_inf (le_trans (zpow_le_zpow_right₀ (by norm_num) (by omega)) p1)
  · cases b.sign <;> rfl

/-- such numbers exist: `3·2^(2^63-1)` -/
example : (new .pos [3]).Canon ∧ (new .pos [3]).toInt.toNat.log2 = 1 ∧
    f64Bits 100 ⟨new .pos [3], .pos, 2 ^ 63 - 1, false⟩ = .error (.panic .overflow) ∧
    f64BitsR 100 ⟨new .pos [3], .pos, 2 ^ 63 - 1, false⟩ = .ok 0 := by decide +kernel

/-- numbers for which only the release build finds the nearest double: `2^(-2^63)` is about zero -/
example : f64Bits 100 ⟨new .pos [1], .neg, -2 ^ 63, false⟩ = .error (.panic .overflow) ∧
    f64BitsR 100 ⟨new .pos [1], .neg, -2 ^ 63, false⟩ = .ok (2 ^ 63) := by decide +kernel

/-- the hypothesis of `C89_tokenizer_float_partial` -/
example : tokenize (toF64 200) "0.5".toList = .ok [.number 0x3FE0000000000000] := by decide +kernel

end Nanvm
