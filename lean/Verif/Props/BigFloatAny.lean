import Verif.Props.BigFloat
import Verif.Props.Division
/-!
# Property theorems C16: literals with any decimal exponent

Below `10^-27` the division by a power of five can go wrong.  These theorems say what is true of
every result.
-/
namespace Nanvm
open JsBig

/-- rounding to the nearest double is monotone -/
theorem nearest_mono {x y : ℚ} {m n : Nat} (h : x ≤ y) (hx : Nearest x m) (hy : Nearest y n) :
    m ≤ n := by
  by_contra hlt
  push Not at hlt
  have hd : dval n < dval m := dval_strictMono hlt
  have h1 := (hx.2 n hy.1).1
  have h2 := (hy.2 m hx.1).1
  have hx' : dval n + dval m ≤ 2 * x := by
    by_contra hc
    push Not at hc
    have a : |x - dval m| = dval m - x := by rw [abs_sub_comm]; exact abs_of_pos (by linarith)
    rw [a] at h1
    rcases abs_cases (x - dval n) with ⟨e, -⟩ | ⟨e, -⟩ <;> rw [e] at h1 <;> linarith
  have hy' : 2 * y ≤ dval n + dval m := by
    by_contra hc
    push Not at hc
    have a : |y - dval n| = y - dval n := abs_of_pos (by linarith)
    rw [a] at h2
    rcases abs_cases (y - dval m) with ⟨e, -⟩ | ⟨e, -⟩ <;> rw [e] at h2 <;> linarith
  have e : x = y := by linarith
  subst e
  have := nearest_unique hx hy
  omega

namespace BigFloat

/-- what `decrease_significand` returns, if it returns -/
theorem decLoop_inv {max : JsBig} {p : Nat} (hp : 0 < p) (hm : Is max (2 ^ p)) (x : ℚ) :
    ∀ (fuel s : Nat) (b b' : BigFloat), decLoop max fuel b = .ok b' → Is b.sig s → 0 < s →
      b.exp < 2 ^ 63 → Approx x s b.exp b.rem →
      ∃ s', Is b'.sig s' ∧ 0 < s' ∧ s' < 2 ^ p ∧ b'.sign = b.sign ∧ Approx x s' b'.exp b'.rem ∧
        b.exp ≤ b'.exp ∧ b'.exp < 2 ^ 63 ∧ (b' = b ∨ 2 ^ (p - 1) ≤ s') := by
  intro fuel
  induction fuel with
  | zero => intro s b b' h; cases h
  | succ f ih =>
    intro s b b' h hs h0 he hx
    unfold decLoop at h
    rw [hs.compare hm] at h
    rcases Nat.lt_or_ge s (2 ^ p) with hlt | hge
    · rw [ord_lt (by exact_mod_cast hlt), if_pos rfl] at h
      cases h
      exact ⟨s, hs, h0, hlt, rfl, hx, le_refl _, he, .inl rfl⟩
    · have hne : Ord.compare (s : Int) ((2 ^ p : Nat) : Int) ≠ .lt := by
        rcases Nat.lt_or_ge (2 ^ p) s with h' | h'
        · rw [ord_gt (by exact_mod_cast h')]; simp
        · rw [ord_eq (by exact_mod_cast (Nat.le_antisymm h' hge))]; simp
      rw [if_neg hne] at h
      have h2p : 2 ^ p = 2 * 2 ^ (p - 1) := by
        rw [← pow_succ']; congr 1; omega
      have hp1 : 0 < 2 ^ (p - 1) := by positivity
      have hs2 : 2 ^ (p - 1) ≤ s / 2 := by
        rw [Nat.le_div_iff_mul_le (by omega)]; omega
      have hx' := hx.shr1
      have hlt : b.exp + 1 < 2 ^ 63 := by
        by_contra hc
        have e : i64 (b.exp + 1) = .error (.panic .overflow) := by
          unfold i64; rw [if_neg (by omega)]
        rw [e] at h
        cases h
      have e : i64 (b.exp + 1) = .ok (b.exp + 1) := by
        by_contra hc
        have e : i64 (b.exp + 1) = .error (.panic .overflow) := by
          unfold i64 at hc ⊢
          split at hc
          · exact absurd rfl hc
          · rename_i h; rw [if_neg h]
        rw [e] at h
        cases h
      rw [e] at h
      replace h : decLoop max f { b with
        sig := shrOnU64 b.sig 1, exp := b.exp + 1,
        rem := if b.sig.getLastBit = 1 then true else b.rem } = .ok b' := h
      obtain ⟨s', h1, h2, h3, h4, h5, h6, h7, h8⟩ := ih (s / 2) _ b' h (is_shr1 hs) (by omega)
        hlt (by dsimp only; rw [hs.lastBit]; exact hx')
      refine ⟨s', h1, h2, h3, h4, h5, by dsimp only at h6; omega, h7, .inr ?_⟩
      rcases h8 with rfl | h8
      · have := h1.2
        rw [(is_shr1 hs).2] at this
        have : s / 2 = s' := by exact_mod_cast this
        omega
      · exact h8

/-- a number with a very large exponent is infinite, if it is converted at all -/
theorem f64Bits_high (b : BigFloat) (s : Nat) (hs : Is b.sig s) (h0 : 0 < s) (h54 : s < 2 ^ 54)
    (he1 : 2 ^ 62 ≤ b.exp) (he2 : b.exp < 2 ^ 63) (fuel : Nat) (hf : 2 ^ 62 ≤ fuel) (bits : Nat)
    (h : f64Bits fuel b = .ok bits) : bits = (if b.sign = .neg then 2 ^ 63 else 0) + INF := by
  obtain ⟨k1, b1, e1, hk1, hs1, he1', hsg1, hr1, hge1, hlt1⟩ :=
    increase_ok (52 + 1) 53 (by norm_num) fuel s b hs h0
      (by rw [show 52 + 1 = 53 from rfl]; exact Nat.le_mul_of_pos_left _ h0) (by omega)
      (by push_cast; omega) (by omega)
  have hlt : s * 2 ^ k1 < 2 ^ 54 := by
    rcases hlt1 with rfl | h
    · simpa using h54
    · simpa using h
  obtain ⟨c, ec, hc⟩ := is_pow2 (52 + 2) (by norm_num)
  have e2 : decrease fuel (52 + 2) b1 = .ok b1 := by
    unfold decrease
    rw [hs1.isZero_false (by positivity), ec]
    obtain ⟨f, rfl⟩ : ∃ f, fuel = f + 1 := ⟨fuel - 1, by omega⟩
    change decLoop c (f + 1) b1 = _
    unfold decLoop
    rw [hs1.compare hc, ord_lt (by exact_mod_cast hlt), if_pos rfl]
  unfold f64Bits at h
  rw [hs.isZero_false h0] at h
  simp only [Bool.false_eq_true, if_false] at h
  rw [e1] at h
  simp only [bind, Except.bind] at h
  rw [e2] at h
  dsimp only at h
  cases ei : i64 (b1.exp + 52) with
  | error e => rw [ei] at h; cases h
  | ok z =>
    rw [ei] at h
    dsimp only at h
    cases ej : i64 (z + 1) with
    | error e => rw [ej] at h; cases h
    | ok y =>
      rw [ej] at h
      dsimp only at h
      have i64_inv : ∀ a c : Int, i64 a = .ok c → c = a := by
        intro a c h
        unfold i64 at h
        split at h
        · cases h; rfl
        · cases h
      have := i64_inv _ _ ei
      have := i64_inv _ _ ej
      rw [if_neg (by omega), if_neg (by omega), if_pos (by omega)] at h
      cases h
      have hneg : (if b.sign = .neg then 1 <<< 63 else 0 : Nat) =
          if (decide (b.sign = .neg)) then 1 <<< 63 else 0 := by
        cases b.sign <;> rfl
      rw [hneg, or_sign _ _ (by decide)]
      have : (2047 <<< 52 : Nat) = INF := by decide
      rw [this]
      cases b.sign <;> rfl

/-- what a conversion returns, if it returns: the double of a number that is at least as large -/
theorem toF64_any (b : BigFloat) (m : Nat) (him : Is b.sig m) (h0 : 0 < m)
    (hrem : b.rem = false) (hlog : m.log2 < 2 ^ 59) (he1 : -2 ^ 59 ≤ b.exp) (he2 : b.exp ≤ 2 ^ 59)
    (fuel : Nat) (hf : 2 ^ 62 ≤ fuel) (bits : Nat) (h : toF64 fuel b = .ok bits) :
    ∃ y : ℚ, m * 10 ^ b.exp ≤ y ∧
      (¬ (2 ^ (-1075 : Int) < y ∧ y < 2 ^ (-1074 : Int)) → IsNearestDouble (b.sign = .neg) y bits) ∧
      (2 ^ (-1075 : Int) < y ∧ y < 2 ^ (-1074 : Int) → bits = if b.sign = .neg then 2 ^ 63 else 0) := by
  rcases lt_or_ge b.exp 0 with hneg | hpos
  swap
  · obtain ⟨b', s, e, his, hs0, hs54, hsg, hr, hb1, hb2, ha⟩ :=
      toBin_ok b m (m.log2 + 1) him h0 hrem (by omega) Nat.lt_log2_self (by omega) he2 fuel (by omega)
    obtain ⟨bits', e', hn⟩ := f64Bits_ok b' s _ his hs0 ha hr hb1 hb2 54 (by norm_num) hs54 fuel
      (by omega)
    unfold toF64 at h
    rw [e] at h
    have h : f64Bits fuel b' = .ok bits := h
    rw [e'] at h
    cases h
    rw [hsg] at hn
    exact ⟨_, le_refl _, hn⟩
  unfold toF64 toBin at h
  have hz : b.sig.isZero = false := him.isZero_false h0
  rw [hz, if_neg (by simp), if_neg (by omega)] at h
  dsimp only at h
  rw [if_neg (by omega)] at h
  have h5 : Is (fromU64 .pos 5) 5 := is_fromU64 5 (by norm_num)
  have h5ne : (fromU64 .pos 5).items ≠ [] := by decide
  obtain ⟨n, hn⟩ : ∃ n : Nat, b.exp = -n := ⟨(-b.exp).toNat, by omega⟩
  have hi : i64 (-b.exp) = .ok (n : Int) := by
    rw [hn, neg_neg]; exact i64_ok (by omega) (by omega)
  obtain ⟨p, ep, vp, cp⟩ := powU64_ok _ h5.1 h5ne n (by omega)
  have hp : Is p (5 ^ n) := ⟨cp, by rw [vp, h5.2]; push_cast; ring⟩
  obtain ⟨mn, emn, hmn⟩ := is_pow2 54 (by norm_num)
  obtain ⟨c, ec, vc, cc⟩ := C02_mul_exact p mn cp hmn.1
  have hc : Is c (5 ^ n * 2 ^ 54) := ⟨cc, by rw [vc, hp.2, hmn.2]; push_cast; ring⟩
  have h5n0 : 0 < 5 ^ n := by positivity
  obtain ⟨k, b1, e1, hk, hs1, hexp1, hsg1, hr1, hge, hlt⟩ :=
    incLoop_ok hc (3 * n + 54) fuel m b him h0
      (by
        calc 5 ^ n * 2 ^ 54 ≤ 8 ^ n * 2 ^ 54 :=
              Nat.mul_le_mul_right _ (Nat.pow_le_pow_left (by norm_num) n)
          _ = 2 ^ (3 * n + 54) := by rw [Nat.pow_add, Nat.pow_mul]
          _ ≤ m * 2 ^ (3 * n + 54) := Nat.le_mul_of_pos_left _ h0)
      (by omega) (by push_cast; omega) (by omega)
  simp only [hi, bind, Except.bind, Int.toNat_natCast, ep, emn, ec, increaseTo, hz,
    Bool.false_eq_true, if_false, e1] at h
  have hge' : 5 ^ n ≤ m * 2 ^ k := le_trans (Nat.le_mul_of_pos_right _ (by norm_num)) hge
  rcases C05_outcome_partial b1.sig p hs1.1 cp (by rw [hp.2]; exact_mod_cast h5n0.ne')
    (by rw [hp.2, hs1.2, Int.natAbs_natCast, Int.natAbs_natCast]; exact hge') fuel with
    ed | ⟨q, r, ed, qc, rc, hrl, hqs, L, K, hL, hK⟩
  · rw [ed] at h; cases h
  rw [ed] at h
  dsimp only at h
  rw [hp.2, hs1.2, Int.natAbs_natCast, Int.natAbs_natCast] at hK
  rw [hp.2, Int.natAbs_natCast] at hrl hL
  have hq : Is q q.toInt.natAbs := by
    refine ⟨qc, ?_⟩
    rw [hp.2, hs1.2, Int.sign_natCast_of_ne_zero (by positivity),
      Int.sign_natCast_of_ne_zero h5n0.ne'] at hqs
    omega
  have hrz : r.isZero = true ↔ r.toInt.natAbs = 0 := by
    rw [isZero_iff, ← val_eq_zero_iff rc.norm, natAbs_toInt]
  generalize q.toInt.natAbs = Q at *
  generalize r.toInt.natAbs = R at *
  have hQ0 : 0 < Q := by
    rcases Nat.eq_zero_or_pos Q with rfl | h
    · omega
    · exact h
  -- the number whose quotient and remainder these are
  let A : Nat := Q * 5 ^ n + R
  have hA : m * 2 ^ k ≤ A := by simp only [A]; omega
  let y : ℚ := (A : ℚ) / (5 ^ n : Nat) * (1 / (2 ^ n * 2 ^ k))
  have he : (2 : ℚ) ^ b1.exp = 1 / (2 ^ n * 2 ^ k) := by
    rw [hexp1, hn, zpow_sub₀ (by norm_num), zpow_neg, zpow_natCast, zpow_natCast]
    field_simp
  have hxe : (m * 10 ^ b.exp : ℚ) = (m * 2 ^ k : Nat) / (5 ^ n : Nat) * (1 / (2 ^ n * 2 ^ k)) := by
    rw [hn, zpow_neg, zpow_natCast, show (10 : ℚ) = 5 * 2 by norm_num, mul_pow]
    push_cast
    field_simp
  have h5q : (0 : ℚ) < (5 ^ n : Nat) := by exact_mod_cast h5n0
  have hu : (0 : ℚ) < 1 / (2 ^ n * 2 ^ k) := by positivity
  have hxy : (m * 10 ^ b.exp : ℚ) ≤ y := by
    rw [hxe]
    refine mul_le_mul_of_nonneg_right ?_ hu.le
    refine div_le_div_of_nonneg_right ?_ h5q.le
    exact_mod_cast hA
  have ha : Approx y Q b1.exp (b.rem || !r.isZero) := by
    rw [hrem]
    unfold Approx
    rw [he]
    simp only [y, A]
    generalize (1 : ℚ) / (2 ^ n * 2 ^ k) = u at *
    cases hR : r.isZero
    · have hR0 : R ≠ 0 := by
        intro h; rw [hrz.2 h] at hR; cases hR
      simp only [Bool.not_false, Bool.or_true, if_true]
      have hRq : (0 : ℚ) < R := by exact_mod_cast Nat.pos_of_ne_zero hR0
      have hRq2 : (R : ℚ) < (5 ^ n : Nat) := by exact_mod_cast hrl
      constructor
      · apply mul_lt_mul_of_pos_right _ hu
        rw [lt_div_iff₀ h5q]; push_cast at *; nlinarith
      · apply mul_lt_mul_of_pos_right _ hu
        rw [div_lt_iff₀ h5q]; push_cast at *; nlinarith
    · have hR0 : R = 0 := hrz.1 hR
      subst hR0
      simp only [Bool.not_true, Bool.or_false, Bool.false_eq_true, if_false]
      congr 1
      rw [div_eq_iff h5q.ne']; push_cast; ring
  have hQ54 : 2 ^ 54 ≤ Q := by
    have h1 : 2 ^ 54 * 5 ^ n < (Q + 1) * 5 ^ n := by
      rw [Nat.add_mul, Nat.one_mul, Nat.mul_comm (2 ^ 54)]
      simp only [A] at hA
      omega
    have := Nat.lt_of_mul_lt_mul_right h1
    omega
  cases hd : decrease fuel 54 ⟨q, b.sign, b1.exp, b.rem || !r.isZero⟩ with
  | error e => rw [hd] at h; cases h
  | ok b2 =>
    rw [hd] at h
    have h : f64Bits fuel b2 = .ok bits := h
    unfold decrease at hd
    rw [hq.isZero_false hQ0, emn] at hd
    have hd : decLoop mn fuel ⟨q, b.sign, b1.exp, b.rem || !r.isZero⟩ = .ok b2 := hd
    obtain ⟨s, hs, hs0, hs54, hsg, ha2, hex1, hex2, hs53⟩ := decLoop_inv (by norm_num) hmn y fuel Q _ b2 hd hq
      hQ0 (by dsimp only; omega) ha
    have hs53 : 2 ^ 53 ≤ s := by
      rcases hs53 with rfl | h
      · have a := hs.2; have b := hq.2
        dsimp only at a; rw [b] at a
        have : Q = s := by exact_mod_cast a
        omega
      · exact h
    dsimp only at hsg hex1
    refine ⟨y, hxy, ?_⟩
    rcases le_or_gt b2.exp (2 ^ 62) with hle | hgt
    · obtain ⟨bits', e', hn⟩ := f64Bits_ok b2 s _ hs hs0 ha2 (fun _ => hs53) (by omega) hle 54
        (by norm_num) hs54 fuel (by omega)
      rw [e'] at h
      cases h
      rw [hsg] at hn
      exact hn
    · have := f64Bits_high b2 s hs hs0 hs54 hgt.le hex2 fuel hf bits h
      have hbig : (2 : ℚ) ^ (1024 : Int) ≤ y := by
        refine le_trans ?_ ha2.lower
        have h1 : (2 : ℚ) ^ (1024 : Int) ≤ 2 ^ b2.exp :=
          zpow_le_zpow_right₀ (by norm_num) (by omega)
        have h2 : (1 : ℚ) ≤ s := by exact_mod_cast hs0
        have h3 : (0 : ℚ) < 2 ^ b2.exp := by positivity
        exact le_trans h1 (le_mul_of_one_le_left h3.le h2)
      refine ⟨fun _ => ⟨INF, nearest_inf hbig, ?_⟩, fun hb => ?_⟩
      · rw [this, hsg]; cases b.sign <;> rfl
      · exfalso
        have h1 : (2 : ℚ) ^ (-1074 : Int) ≤ 2 ^ (1024 : Int) :=
          zpow_le_zpow_right₀ (by norm_num) (by norm_num)
        linarith [hb.2]

/-! ## More fuel -/

theorem incLoop_more {min : JsBig} {fuel fuel' : Nat} (hf : fuel ≤ fuel') :
    ∀ {b b' : BigFloat}, incLoop min fuel b = .ok b' → incLoop min fuel' b = .ok b' := by
  induction fuel generalizing fuel' with
  | zero => intro b b' h; cases h
  | succ f ih =>
    intro b b' h
    obtain ⟨f', rfl⟩ : ∃ f', fuel' = f' + 1 := ⟨fuel' - 1, by omega⟩
    unfold incLoop at h ⊢
    split at h
    · exact h
    · exact h
    · cases e1 : shlOnU64 b.sig 1 with
      | error e => rw [e1] at h; cases h
      | ok c =>
        rw [e1] at h
        cases e2 : i64 (b.exp - 1) with
        | error e => simp only [e2] at h; cases h
        | ok e =>
          simp only [e2] at h ⊢
          exact ih (by omega) h

theorem decLoop_more {max : JsBig} {fuel fuel' : Nat} (hf : fuel ≤ fuel') :
    ∀ {b b' : BigFloat}, decLoop max fuel b = .ok b' → decLoop max fuel' b = .ok b' := by
  induction fuel generalizing fuel' with
  | zero => intro b b' h; cases h
  | succ f ih =>
    intro b b' h
    obtain ⟨f', rfl⟩ : ∃ f', fuel' = f' + 1 := ⟨fuel' - 1, by omega⟩
    unfold decLoop at h ⊢
    split at h
    · rename_i hc; rw [if_pos hc]; exact h
    · rename_i hc
      rw [if_neg hc]
      cases e2 : i64 (b.exp + 1) with
      | error e => simp only [e2] at h; cases h
      | ok e =>
        simp only [e2] at h ⊢
        exact ih (by omega) h

theorem divLoop_more {d : List Nat} {fuel fuel' : Nat} (hf : fuel ≤ fuel') :
    ∀ {a res : List Nat} {r}, divLoop d fuel a res = .ok r → divLoop d fuel' a res = .ok r := by
  induction fuel generalizing fuel' with
  | zero => intro a res r h; cases h
  | succ f ih =>
    intro a res r h
    obtain ⟨f', rfl⟩ : ∃ f', fuel' = f' + 1 := ⟨fuel' - 1, by omega⟩
    unfold divLoop at h ⊢
    split at h
    · rename_i hc; rw [if_pos hc]; exact h
    · rename_i hc
      rw [if_neg hc]
      cases e2 : divStep a d res with
      | error e => rw [e2] at h; cases h
      | ok x =>
        rw [e2] at h
        exact ih (by omega) h

theorem increaseTo_more {min : JsBig} {fuel fuel' : Nat} (hf : fuel ≤ fuel') {b b' : BigFloat}
    (h : increaseTo fuel min b = .ok b') : increaseTo fuel' min b = .ok b' := by
  unfold increaseTo at h ⊢
  split at h
  · rename_i hc; rw [if_pos hc]; exact h
  · rename_i hc; rw [if_neg hc]; exact incLoop_more hf h

theorem bind_ok {α β : Type} {x y : Res α} {f g : α → Res β} {b : β} (h : (x >>= f) = .ok b)
    (h1 : ∀ a, x = .ok a → y = .ok a) (h2 : ∀ a, f a = .ok b → g a = .ok b) : (y >>= g) = .ok b := by
  cases x with
  | error e => cases h
  | ok a =>
    rw [h1 a rfl]
    exact h2 a h

theorem increase_more {p fuel fuel' : Nat} (hf : fuel ≤ fuel') {b b' : BigFloat}
    (h : increase fuel p b = .ok b') : increase fuel' p b = .ok b' := by
  unfold increase at h ⊢
  split at h
  · rename_i hc; rw [if_pos hc]; exact h
  · rename_i hc; rw [if_neg hc]
    exact bind_ok h (fun _ h => h) fun _ h => increaseTo_more hf h

theorem decrease_more {p fuel fuel' : Nat} (hf : fuel ≤ fuel') {b b' : BigFloat}
    (h : decrease fuel p b = .ok b') : decrease fuel' p b = .ok b' := by
  unfold decrease at h ⊢
  split at h
  · rename_i hc; rw [if_pos hc]; exact h
  · rename_i hc; rw [if_neg hc]
    exact bind_ok h (fun _ h => h) fun _ h => decLoop_more hf h

theorem divMod_more {fuel fuel' : Nat} (hf : fuel ≤ fuel') {a b : JsBig} {r : JsBig × JsBig}
    (h : divMod fuel a b = .ok r) : divMod fuel' a b = .ok r := by
  unfold divMod at h ⊢
  split at h
  · cases h
  · rename_i hc
    rw [if_neg hc]
    dsimp only at h ⊢
    split at h
    · exact h
    · exact h
    · exact bind_ok h (fun _ h => divLoop_more hf h) fun _ h => h

theorem toBin_more {p fuel fuel' : Nat} (hf : fuel ≤ fuel') {b b' : BigFloat}
    (h : toBin fuel p b = .ok b') : toBin fuel' p b = .ok b' := by
  unfold toBin at h ⊢
  split at h
  · rename_i hc; rw [if_pos hc]; exact h
  rename_i hc; rw [if_neg hc]
  split at h
  · rename_i hc; rw [if_pos hc]
    exact bind_ok h (fun _ h => increase_more hf h) fun _ h => decrease_more hf h
  rename_i hc; rw [if_neg hc]
  dsimp only at h ⊢
  split at h
  · rename_i hc; rw [if_pos hc]
    exact bind_ok h (fun _ h => h) fun _ h => bind_ok h (fun _ h => h) fun _ h =>
      bind_ok h (fun _ h => increase_more hf h) fun _ h => decrease_more hf h
  · rename_i hc; rw [if_neg hc]
    exact bind_ok h (fun _ h => h) fun _ h => bind_ok h (fun _ h => h) fun _ h =>
      bind_ok h (fun _ h => h) fun _ h => bind_ok h (fun _ h => h) fun _ h =>
      bind_ok h (fun _ h => increaseTo_more hf h) fun _ h =>
      bind_ok h (fun _ h => divMod_more hf h) fun _ h => decrease_more hf h

theorem f64Bits_more {fuel fuel' : Nat} (hf : fuel ≤ fuel') {b : BigFloat} {bits : Nat}
    (h : f64Bits fuel b = .ok bits) : f64Bits fuel' b = .ok bits := by
  unfold f64Bits at h ⊢
  dsimp only at h ⊢
  split at h
  · rename_i hc; rw [if_pos hc]; exact h
  rename_i hc; rw [if_neg hc]
  refine bind_ok h (fun _ h => increase_more hf h) fun _ h =>
    bind_ok h (fun _ h => decrease_more hf h) fun _ h => bind_ok h (fun _ h => h) fun _ h =>
    bind_ok h (fun _ h => h) fun _ h => ?_
  split at h
  · rename_i hc; rw [if_pos hc]; exact h
  rename_i hc; rw [if_neg hc]
  split at h
  · rename_i hc; rw [if_pos hc]
    exact bind_ok h (fun _ h => decrease_more hf h) fun _ h => h
  · rename_i hc; rw [if_neg hc]; exact h

/-- a conversion that ends gives the same result with more fuel -/
theorem toF64_more {fuel fuel' : Nat} (hf : fuel ≤ fuel') {b : BigFloat} {bits : Nat}
    (h : toF64 fuel b = .ok bits) : toF64 fuel' b = .ok bits := by
  unfold toF64 at h ⊢
  exact bind_ok h (fun _ h => toBin_more hf h) fun _ h => f64Bits_more hf h

/-- Proved part of C16, for every decimal exponent: a conversion that ends never gives a double
that is too small in magnitude.  Missing: that it ends and that the double is not too large
(`C16_termination_violated`); the band below the smallest subnormal (`C17_band_flushed`). -/
theorem C16_never_low_partial (b : BigFloat) (hc : b.sig.Canon) (hs : 0 ≤ b.sig.toInt)
    (hrem : b.rem = false) (hlog : b.sig.toInt.toNat.log2 < 2 ^ 59)
    (he1 : -2 ^ 59 ≤ b.exp) (he2 : b.exp ≤ 2 ^ 59) (hnz : b.sig.toInt = 0 → b.sign = .pos)
    (hband : ¬ (2 ^ (-1075 : Int) < (b.sig.toInt : ℚ) * 10 ^ b.exp ∧
      (b.sig.toInt : ℚ) * 10 ^ b.exp < 2 ^ (-1074 : Int)))
    (fuel bits right : Nat) (h : toF64 fuel b = .ok bits)
    (hr : IsNearestDouble (b.sign = .neg) ((b.sig.toInt : ℚ) * 10 ^ b.exp) right) :
    right ≤ bits ∧ (bits < 2 ^ 63 ↔ right < 2 ^ 63) := by
  replace h := toF64_more (le_max_left fuel (2 ^ 62)) h
  have hf : 2 ^ 62 ≤ max fuel (2 ^ 62) := le_max_right _ _
  generalize max fuel (2 ^ 62) = fuel at h hf
  obtain ⟨m, hm⟩ : ∃ m : Nat, b.sig.toInt = m := ⟨b.sig.toInt.toNat, by omega⟩
  have him : Is b.sig m := ⟨hc, hm⟩
  rw [hm] at hr hband hlog
  push_cast at hr hband
  rw [Int.toNat_natCast] at hlog
  obtain ⟨n, hn, rfl⟩ := hr
  have hn63 : n < 2 ^ 63 := lt_of_le_of_lt hn.1 (by unfold INF; norm_num)
  rcases Nat.eq_zero_or_pos m with h0 | h0
  · subst h0
    rw [toF64_zero b him] at h
    cases h
    rw [hnz hm]
    have : n = 0 := nearest_unique hn (by simpa using nearest_zero (le_refl 0) (by positivity))
    subst this
    simp
  · obtain ⟨y, hy, h1, h2⟩ := toF64_any b m him h0 hrem hlog he1 he2 fuel hf bits h
    by_cases hb : 2 ^ (-1075 : Int) < y ∧ y < 2 ^ (-1074 : Int)
    · rw [h2 hb]
      have : n = 0 := by
        refine nearest_unique hn (nearest_zero (by positivity) ?_)
        by_contra hc
        push Not at hc
        exact hband ⟨hc, lt_of_le_of_lt hy hb.2⟩
      subst this
      cases b.sign <;> simp
    · obtain ⟨n', hn', rfl⟩ := h1 hb
      have := nearest_mono hy hn hn'
      have hn63' : n' < 2 ^ 63 := lt_of_le_of_lt hn'.1 (by unfold INF; norm_num)
      cases b.sign <;> simp <;> omega

/-- the literal `1e-53` is converted, and rightly -/
example : toF64 200 ⟨new .pos [1], .pos, -53, false⟩ = .ok 0x34eea6608e29b24d ∧
    IsNearestDouble false (1 * 10 ^ (-53 : Int)) 0x34eea6608e29b24d := by
  refine ⟨by decide +kernel, 0x34eea6608e29b24d, ?_, rfl⟩
  exact nearest_up (b := 0x34eea6608e29b24c) (by decide +kernel) (by decide +kernel) (by decide +kernel)

end BigFloat
end Nanvm
