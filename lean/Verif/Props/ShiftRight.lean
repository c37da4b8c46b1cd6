import Verif.Lemmas.ShiftLost
import Verif.Props.BigNumbers
/-!
# Property theorems C08, C12: exactly when the right shift is right
-/
namespace Nanvm
open JsBig

/-- `>>` by a `u64` always gives a canonical number; it is the floor of the quotient exactly if no bits
are lost between limbs and the number is not negative, or the shift is exact, or everything is shifted
out.  Missing from the full property: all other shifts, where the code is wrong. -/
theorem C08_shr_iff_partial (a r : JsBig) (ha : a.Canon) (hr : r.Canon) (n : Nat) (hn : n < 2 ^ 64)
    (hrn : r.toInt = n) :
    ∃ c, shr a r = .ok c ∧ c.Canon ∧ (c.toInt = a.toInt.fdiv (2 ^ n) ↔
      NoLostBits a.toInt.natAbs n ∧
        (0 ≤ a.toInt ∨ (2 ^ n : Int) ∣ a.toInt ∨ a.toInt.natAbs < 2 ^ n)) := by
  rw [natAbs_toInt]
  have hp : (0 : Int) < 2 ^ n := by positivity
  have hpn : 0 < 2 ^ n := by positivity
  have hcast : ((2 ^ n : Nat) : Int) = 2 ^ n := by simp
  unfold shr
  split
  · rename_i h
    rw [isZero_iff] at h
    refine ⟨zero, rfl, zero_canon, ?_⟩
    have h0 : a.toInt = 0 := by rw [toInt_eq_signed a, h]; cases a.sign <;> simp [signed]
    rw [zero_toInt, h0, h]
    simp [NoLostBits]
  · rename_i h
    rw [isZero_iff] at h
    have hpos := val_pos ha.norm h
    split
    · rename_i h1
      rw [isZero_iff] at h1
      have h0 : n = 0 := by
        rw [toInt_eq_signed, h1] at hrn
        cases h2 : r.sign <;> rw [h2] at hrn <;> simp only [signed, val_nil] at hrn <;> omega
      subst h0
      refine ⟨_, rfl, new_canon ha.limbs ha.norm, ?_⟩
      rw [new_toInt, ← toInt_eq_signed]
      simp [NoLostBits]
    · rename_i h1
      rw [isZero_iff] at h1
      have hp1 := val_pos hr.norm h1
      have hs : r.sign = .pos := by
        rcases canon_len_sign hr with ⟨s, -, -⟩ | ⟨s, -, -, v⟩
        · exact s
        · rw [toInt_eq_signed, s] at hrn; simp only [signed] at hrn; omega
      have hv : val r.items = n := by
        rw [toInt_eq_signed, hs] at hrn; simp only [signed] at hrn; omega
      have : r.items = [n] := by
        refine val_inj hr.limbs (by rw [limbs_cons]; exact ⟨by rw [B_eq]; exact hn, by simp⟩)
          hr.norm (by simp only [Norm, List.getLast?_singleton, ne_eq, Option.some.injEq]; omega)
          (by simp [val_cons, hv])
      rw [this, hs]
      obtain ⟨m, x, hmx, hx2, hx0, h3, h4⟩ := shrOnU64_lost a ha n
      refine ⟨_, rfl, h3, ?_⟩
      rw [h4, ← hx0, Int.fdiv_eq_ediv_of_nonneg _ hp.le, toInt_eq_signed a]
      generalize val a.items = v at *
      have hdm := Nat.div_add_mod v (2 ^ n)
      have hml := Nat.mod_lt v hpn
      cases a.sign with
      | pos =>
        simp only [reduceCtorEq, false_and, if_false, signed]
        rw [← hcast, ← Int.natCast_ediv, Nat.cast_inj]
        constructor
        · intro e; exact ⟨by omega, .inl (by omega)⟩
        · rintro ⟨e, -⟩; omega
      | neg =>
        simp only [true_and, signed]
        have hfl : ∀ z : Int, (-(v : Int)) / 2 ^ n = z ↔ z * (2 ^ n : Nat) ≤ -(v : Int) ∧
            -(v : Int) < z * (2 ^ n : Nat) + (2 ^ n : Nat) := by
          intro z
          rw [← hcast, Int.ediv_eq_iff_of_pos (by omega)]
        have hneg : ¬ (0 ≤ -(v : Int)) := by omega
        have hdv : (2 ^ n : Int) ∣ -(v : Int) ↔ v % 2 ^ n = 0 := by
          rw [Int.dvd_neg, ← hcast, Int.natCast_dvd_natCast, Nat.dvd_iff_mod_eq_zero]
        rw [eq_comm, hfl, hdv]
        simp only [hneg, false_or]
        generalize 2 ^ n = p at *
        generalize v / p = q at *
        generalize v % p = y at *
        split
        · rename_i hm
          subst hm
          constructor
          · rintro ⟨h5, h6⟩
            have h7 : v ≤ p := by omega
            rcases Nat.lt_or_ge v p with h8 | h8
            · have : q = 0 := by
                by_contra hq
                have : p * 1 ≤ p * q := Nat.mul_le_mul_left _ (by omega)
                omega
              exact ⟨by omega, .inr h8⟩
            · have hq : p * q + y = p := by omega
              have : q = 1 := by
                rcases Nat.lt_trichotomy q 1 with h9 | h9 | h9
                · have : q = 0 := by omega
                  subst this; omega
                · exact h9
                · have : p * 2 ≤ p * q := Nat.mul_le_mul_left _ (by omega)
                  omega
              omega
          · rintro ⟨h5, h6⟩
            have hq : q = 0 := by omega
            subst hq
            omega
        · rename_i hm
          constructor
          · rintro ⟨h5, h6⟩
            have h7 : v ≤ m * p := by
              have : -(m : Int) * p = -((m * p : Nat) : Int) := by push_cast; ring
              omega
            have h8 : p * q ≤ p * m := by rw [Nat.mul_comm p m]; omega
            have h9 : q ≤ m := Nat.le_of_mul_le_mul_left h8 hpn
            have : q = m := by omega
            subst this
            rw [Nat.mul_comm] at h7
            exact ⟨by omega, .inl (by omega)⟩
          · rintro ⟨h5, h6⟩
            have hqm : q = m := by omega
            subst hqm
            have hy : y = 0 := by
              rcases h6 with h6 | h6
              · exact h6
              · have : p * 1 ≤ p * q := Nat.mul_le_mul_left _ (by omega)
                omega
            have : -(q : Int) * p = -((p * q : Nat) : Int) := by push_cast; ring
            omega

/-- a shift over two limbs by 5 that is right although bits cross the limbs, and one that is not -/
example : (new .pos [5, 2 ^ 40 + 2 ^ 4]).Canon ∧
    NoLostBits (val [5, 2 ^ 40 + 2 ^ 4]) 5 ∧ ¬ NoLostBits (val [5, 2 ^ 40 + 2 ^ 3]) 5 := by
  refine ⟨by decide, ?_, ?_⟩
  · rw [noLostBits_iff (by decide)]
    intro e he j hj
    have he : e = 2 ^ 40 + 2 ^ 4 := by simpa using he
    subst he
    have : ∀ j < 4, (2 ^ 40 + 2 ^ 4).testBit j = false := by decide
    exact this j (by omega)
  · rw [noLostBits_iff (by decide)]
    intro h
    exact absurd (h (2 ^ 40 + 2 ^ 3) (by simp) 3 (by decide)) (by decide)

/-- The same for `BigUint`: the right shift by a one-limb amount is right exactly if no bits are
lost. -/
theorem C12_shr_iff_partial (a : List Nat) (ha : UCanon a) (n : Nat) :
    UCanon (BigUint.shr a [n]) ∧
      (val (BigUint.shr a [n]) = val a / 2 ^ n ↔ NoLostBits (val a) n) := by
  have hc : (JsBig.new .pos a).Canon := new_canon ha.1 ha.2
  have hs : (JsBig.new .pos a).sign = .pos := by
    unfold JsBig.sign JsBig.new Sign.toInt; rw [if_neg]; simp only; omega
  obtain ⟨m, x, hmx, -, hx0, h3, h4⟩ := shrOnU64_lost (JsBig.new .pos a) hc n
  have e : BigUint.shr a [n] = (JsBig.shrOnU64 (JsBig.new .pos a) n).items := by
    unfold BigUint.shr JsBig.shrOnU64 BigUint.isZero
    rw [hs, new_items]
    by_cases h0 : a = []
    · subst h0; simp [JsBig.shrOnBig]; rfl
    · have : a.isEmpty = false := by simpa using h0
      rw [this]
      simp only [Bool.false_eq_true, if_false, reduceCtorEq, and_false]
      split
      · rfl
      · rfl
  rw [hs] at h4
  simp only [reduceCtorEq, false_and, if_false, signed] at h4
  have := natAbs_toInt (JsBig.shrOnU64 (JsBig.new .pos a) n)
  rw [h4] at this
  rw [new_items] at hmx hx0
  rw [e]
  refine ⟨⟨h3.limbs, h3.norm⟩, ?_⟩
  rw [← this, ← hx0]
  simp only [Int.natAbs_natCast]
  omega

example : UCanon [5, 2 ^ 40 + 2 ^ 4] ∧
    BigUint.shr [5, 2 ^ 40 + 2 ^ 4] [5] = [2 ^ 63, 2 ^ 35] := by decide +kernel

/-- A shift amount of more than one limb: only its lowest limb is used, so (for all values that fit
in memory) the shift is right exactly if the shift by that limb happens to give 0.  A shift by no
limbs at all, that is by 0, changes nothing. -/
theorem C12_shr_amount_partial (a r : List Nat) (ha : UCanon a) (hr : UCanon r)
    (hm : a.length < 2 ^ 58) :
    (r = [] → BigUint.shr a r = a ∧ val r = 0) ∧
      ∀ n m t, r = n :: m :: t →
        BigUint.shr a r = BigUint.shr a [n] ∧
          (val (BigUint.shr a r) = val a / 2 ^ val r ↔ BigUint.shr a [n] = []) := by
  refine ⟨?_, ?_⟩
  · rintro rfl
    refine ⟨?_, rfl⟩
    unfold BigUint.shr
    split <;> rfl
  · rintro n m t rfl
    have e : BigUint.shr a (n :: m :: t) = BigUint.shr a [n] := rfl
    refine ⟨e, ?_⟩
    have hge := norm_ge hr.2 (by simp)
    simp only [List.length_cons] at hge
    have h3 : B ^ 1 ≤ B ^ (t.length + 1 + 1 - 1) := Nat.pow_le_pow_right B_pos (by omega)
    rw [pow_one] at h3
    have hB : (2 : Nat) ^ 64 ≤ val (n :: m :: t) := by
      rw [← B_eq]; exact le_trans h3 hge
    have hlt : val a < 2 ^ val (n :: m :: t) := by
      have h4 := val_lt ha.1
      rw [B_eq, ← pow_mul] at h4
      exact lt_of_lt_of_le h4 (Nat.pow_le_pow_right (by decide) (by omega))
    rw [Nat.div_eq_of_lt hlt, e]
    have hc := (C12_shr_iff_partial a ha n).1
    constructor
    · intro h
      by_contra h0
      have := val_pos hc.2 h0
      omega
    · intro h
      rw [h]; rfl

/-- both outcomes occur for two-limb amounts -/
example : UCanon [0, 1] ∧ UCanon [1, 1] ∧ UCanon [1] ∧ BigUint.shr [1] [0] = [1] ∧
    BigUint.shr [1] [1] = [] := by decide +kernel

end Nanvm
