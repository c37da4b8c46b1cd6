import Verif.Props.JsBigintDiv
import Verif.Model.BigInt
/-!
# Property theorems C10–C15: `big_numbers/big_uint.rs`, `big_numbers/big_int.rs`
-/
namespace Nanvm

/-- canonical `BigUint`: limbs are `u64`, no leading zero limb -/
def UCanon (a : List Nat) : Prop := Limbs a ∧ Norm a
instance (a : List Nat) : Decidable (UCanon a) := by unfold UCanon; infer_instance

/-! ## C10: addition, subtraction, multiplication, order -/

theorem C10_add_exact (a b : List Nat) (ha : UCanon a) (hb : UCanon b) :
    val (BigUint.add a b) = val a + val b ∧ UCanon (BigUint.add a b) :=
  ⟨addVec_val ha.1 hb.1, addVec_limbs _ _, addVec_norm ha.1 hb.1 ha.2 hb.2⟩

/-- subtraction saturates at zero -/
theorem C10_sub_exact (a b : List Nat) (ha : UCanon a) (hb : UCanon b) :
    val (BigUint.sub a b) = (if val b ≤ val a then val a - val b else 0) ∧
      UCanon (BigUint.sub a b) := by
  unfold BigUint.sub BigUint.cmp
  have hz : UCanon [] := by decide
  rcases cmpVec_cases ha.1 hb.1 ha.2 hb.2 with ⟨hc, hv⟩ | ⟨hc, hv⟩ | ⟨hc, hv⟩ <;> rw [hc] <;>
    dsimp only
  · rw [if_neg (by omega)]; exact ⟨rfl, hz⟩
  · rw [if_pos (by omega)]; exact ⟨by rw [hv]; simp, hz⟩
  · rw [if_pos (by omega)]
    exact ⟨subVecNorm_val ha.1 hb.1 hb.2 (by omega), limbs_normalize (subVec_limbs _ _),
      norm_normalize _⟩

theorem C10_mul_exact (a b : List Nat) (ha : UCanon a) (hb : UCanon b) :
    ∃ c, BigUint.mul a b = .ok c ∧ val c = val a * val b ∧ UCanon c := by
  unfold BigUint.mul BigUint.isZero
  by_cases h1 : a = []
  · subst h1; exact ⟨[], rfl, by simp, by decide⟩
  by_cases h2 : b = []
  · subst h2; exact ⟨[], by simp, by simp, by decide⟩
  obtain ⟨v, e, hv, l, n⟩ := mulVec_ok ha.1 hb.1 h1 h2
  exact ⟨v, by simp [h1, h2, e], hv, l, n⟩

theorem C10_cmp_exact (a b : List Nat) (ha : UCanon a) (hb : UCanon b) :
    BigUint.cmp a b = compare (val a) (val b) := cmpVec_eq ha.1 hb.1 ha.2 hb.2

/-- canonical values are determined by their number, so comparison `Equal` is equality -/
theorem C10_canonical_unique (a b : List Nat) (ha : UCanon a) (hb : UCanon b)
    (h : val a = val b) : a = b := val_inj ha.1 hb.1 ha.2 hb.2 h

example : UCanon [B - 1, B - 1] ∧ UCanon [1] ∧ BigUint.add [B - 1, B - 1] [1] = [0, 0, 1] ∧
    BigUint.sub [0, 0, 1] [1] = [B - 1, B - 1] ∧ BigUint.sub [1] [0, 0, 1] = [] := by
  decide +kernel

/-- the last bit, for every vector of limbs -/
theorem C10_last_bit (a : List Nat) : BigUint.getLastBit a = val a % 2 := by
  cases a with
  | nil => rfl
  | cons d a =>
    have : B = 2 * 2 ^ 63 := by decide
    simp only [BigUint.getLastBit, val_cons, Nat.and_one_is_mod]
    rw [this, mul_assoc, Nat.add_mul_mod_self_left]

/-- `is_one` and `is_zero` on canonical numbers -/
theorem C10_is_one (a : List Nat) (ha : UCanon a) :
    (BigUint.isOne a = true ↔ val a = 1) ∧ (BigUint.isZero a = true ↔ val a = 0) := by
  constructor
  · constructor
    · intro h
      match a, h with
      | [d], h => simp [BigUint.isOne] at h; simp [val_cons, h]
      | [], h => cases h
      | _ :: _ :: _, h => simp [BigUint.isOne] at h
    · intro h
      have : a = [1] := val_inj ha.1 (by decide) ha.2 (by decide) (by rw [h]; simp [val_cons])
      rw [this]; rfl
  · unfold BigUint.isZero
    constructor
    · intro h; simp at h; simp [h]
    · intro h
      by_contra h0
      have := val_pos ha.2 (by simpa using h0)
      omega

example : UCanon [1] ∧ BigUint.isOne [1] = true ∧ BigUint.getLastBit [7, 9] = 1 := by decide

/-! ## C11: division -/

/-- The full property. -/
def UDivModCorrect : Prop :=
  ∀ a d : List Nat, UCanon a → UCanon d → val d ≠ 0 →
    ∃ fuel q r, BigUint.divMod fuel a d = .ok (q, r) ∧ val a = val q * val d + val r ∧
      val r < val d

/-- `2^128 / (2^64 + 1)` never terminates. -/
theorem C11_termination_violated (fuel : Nat) :
    BigUint.divMod fuel [0, 0, 1] [1, 1] = .error .fuel := by
  have key : ∀ f r, (r = [] ∨ r = [0, 0]) →
      BigUint.divLoop [1, 1] f [0, 0, 1] r = .error .fuel := by
    intro f
    induction f with
    | zero => intro r _; rfl
    | succ f ih =>
      intro r hr
      have hc : BigUint.cmp [0, 0, 1] [1, 1] = .gt := by decide +kernel
      have hs : BigUint.divStep [0, 0, 1] [1, 1] r = .ok ([0, 0, 1], [0, 0]) := by
        rcases hr with rfl | rfl <;> decide +kernel
      unfold BigUint.divLoop
      rw [hc, hs]
      exact ih [0, 0] (Or.inr rfl)
  have hc : BigUint.cmp [0, 0, 1] [1, 1] = .gt := by decide +kernel
  unfold BigUint.divMod
  rw [hc]
  exact key fuel [] (Or.inl rfl)

theorem C11_divmod_violated : ¬ UDivModCorrect := by
  intro h
  obtain ⟨f, q, r, e, -⟩ := h [0, 0, 1] [1, 1] (by decide) (by decide) (by decide)
  rw [C11_termination_violated] at e
  cases e

/-- A wrong result: `5·2^64 / (2^65 − 1)` gives quotient 4, remainder 0. -/
theorem C11_quotient_violated :
    BigUint.divMod 10 [0, 5] [B - 1, 1] = .ok ([4], []) ∧
      val [0, 5] ≠ val [4] * val [B - 1, 1] + val [] := by decide +kernel

/-- Proved part: every divisor of the form `d·2^(64k)` with `0 < d < 2^64` — in particular
every one-limb divisor — and every dividend; the loop runs at most once per limb of the
dividend.  Missing: the other multi-limb divisors,
where the code can loop forever or return a wrong result. -/
theorem C11_divmod_partial (a b : List Nat) (ha : UCanon a) (hb : UCanon b) (k d : Nat)
    (hd0 : 0 < d) (hd : d < 2 ^ 64) (hbv : val b = d * 2 ^ (64 * k)) (fuel : Nat)
    (hf : a.length < fuel) :
    ∃ q r, BigUint.divMod fuel a b = .ok (q, r) ∧ val a = val q * val b + val r ∧
      val r < val b ∧ UCanon q ∧ UCanon r := by
  have hdB : d < B := by rw [B_eq]; exact hd
  have hbi : b = hiVec k d := by
    refine val_inj hb.1 (limbs_hiVec hdB) hb.2 (norm_hiVec (by omega)) ?_
    rw [hbv, val_hiVec, Bpow]
  have hbpos : 0 < val b := by rw [hbv]; positivity
  have hbz : BigUint.isZero b = false := by rw [hbi]; simp [BigUint.isZero, hiVec]
  have hz : UCanon [] := by decide
  unfold BigUint.divMod
  rw [hbz]
  simp only [Bool.false_eq_true, if_false]
  unfold BigUint.cmp
  rcases cmpVec_cases ha.1 hb.1 ha.2 hb.2 with ⟨hc, hv⟩ | ⟨hc, hv⟩ | ⟨hc, hv⟩ <;> rw [hc]
  · exact ⟨[], a, rfl, by simp, hv, hz, ha⟩
  · refine ⟨[1], [], rfl, ?_, by simpa using hbpos, by decide, hz⟩
    simp only [val_cons, val_nil]; omega
  · obtain ⟨q, r, e, lq, nq, lr, nr, hlt, hval⟩ := BigUint.divLoop_ok (k := k) hdB hd0 fuel a []
      a.length ha.1 ha.2 (by simp [Limbs]) (by simp [Norm]) (val_lt_hiVec ha.1 hd0) hf
    rw [← hbi] at e hlt hval
    refine ⟨q, r, e, ?_, hlt, ⟨lq, nq⟩, ⟨lr, nr⟩⟩
    simp only [val_nil, Nat.mul_zero, Nat.add_zero] at hval
    rw [← hval]; ring

/-- Proved part for `/`: the quotient, for the same divisors. -/
theorem C11_div_partial (a b : List Nat) (ha : UCanon a) (hb : UCanon b) (k d : Nat)
    (hd0 : 0 < d) (hd : d < 2 ^ 64) (hbv : val b = d * 2 ^ (64 * k)) (fuel : Nat)
    (hf : a.length < fuel) :
    ∃ q, BigUint.div fuel a b = .ok q ∧ val q = val a / val b ∧ UCanon q := by
  obtain ⟨q, r, e, h1, h2, h3, -⟩ := C11_divmod_partial a b ha hb k d hd0 hd hbv fuel hf
  have hz : BigUint.isZero b = false := by
    rw [Bool.eq_false_iff]
    intro h
    unfold BigUint.divMod at e
    rw [if_pos h] at e
    cases e
  refine ⟨q, by unfold BigUint.div; rw [hz, e]; rfl, ?_, h3⟩
  rw [h1, Nat.mul_comm, Nat.mul_add_div (by omega), Nat.div_eq_of_lt h2, Nat.add_zero]

theorem C11_div_zero_panics (a : List Nat) (fuel : Nat) :
    BigUint.divMod fuel a [] = .error (.panic .explicit) ∧
    BigUint.div fuel a [] = .error (.panic .explicit) := ⟨rfl, rfl⟩

example : UCanon [1, 2, 3] ∧ UCanon [B - 1] ∧ val [B - 1] = (2 ^ 64 - 1) * 2 ^ (64 * 0) := by
  decide +kernel

/-! ## C12: shifts -/

/-- left shift: whenever it does not report an overflow it multiplies by `2^n`, and it
reports one only for a non-zero value and a shift amount of more than one limb -/
theorem C12_shl_exact (a r : List Nat) (ha : UCanon a) (hr : UCanon r) :
    (∃ c, BigUint.shl a r = .ok c ∧ val c = val a * 2 ^ val r ∧ UCanon c) ∨
    (BigUint.shl a r = .error (.panic .explicit) ∧ val a ≠ 0 ∧ 2 ^ 64 ≤ val r) := by
  unfold BigUint.shl BigUint.isZero
  by_cases h1 : a = []
  · subst h1; left; exact ⟨[], by simp, by simp, by decide⟩
  by_cases h2 : r = []
  · subst h2; left; exact ⟨a, by simp, by simp, ha⟩
  have hz : (a.isEmpty || r.isEmpty) = false := by simp [h1, h2]
  rw [hz]
  simp only [Bool.false_eq_true, if_false]
  match r, h2, hr with
  | [n], _, hr =>
    left
    simp only [and_63]
    refine ⟨_, rfl, ?_⟩
    set v1 := if n % 64 > 0 then shlLoop (n % 64) a else a with hv1
    set v2 := if n / 64 > 0 then List.replicate (n / 64) 0 ++ v1 else v1 with hv2
    have h1 : val v1 = val a * 2 ^ (n % 64) ∧ Limbs v1 := by
      rw [hv1]
      split
      · exact shlLoop_val (by omega) ha.1
      · rw [show n % 64 = 0 by omega]; simpa using ha.1
    have h2 : val v2 = val a * 2 ^ n ∧ Limbs v2 := by
      have e : 2 ^ n = 2 ^ (n % 64) * B ^ (n / 64) := by
        rw [B_eq, ← pow_mul, ← pow_add]; congr 1; omega
      rw [hv2]
      split
      · rw [val_append, val_replicate, List.length_replicate, h1.1, e, limbs_append]
        exact ⟨by ring, limbs_replicate _, h1.2⟩
      · rw [h1.1, e, show n / 64 = 0 by omega]
        exact ⟨by ring, h1.2⟩
    have hvn : val [n] = n := by simp [val_cons]
    rw [hvn, val_normalize]
    exact ⟨h2.1, limbs_normalize h2.2, norm_normalize _⟩
  | x :: y :: t, _, hr =>
    right
    refine ⟨rfl, ?_, ?_⟩
    · have := val_pos ha.2 h1; omega
    · have := norm_ge hr.2 (by simp)
      simp only [List.length_cons] at this
      have h3 : B ^ 1 ≤ B ^ (t.length + 1 + 1 - 1) := Nat.pow_le_pow_right B_pos (by omega)
      rw [pow_one, B_eq] at h3
      rw [B_eq] at this
      omega

/-- The full property for the right shift. -/
def UShrCorrect : Prop :=
  ∀ a r : List Nat, UCanon a → UCanon r → val (BigUint.shr a r) = val a / 2 ^ val r

/-- `2^64 >> 2` is computed as 0 -/
theorem C12_shr_violated : ¬ UShrCorrect := by
  intro h
  have := h [0, 1] [2] (by decide) (by decide)
  revert this; decide +kernel

/-- only the low limb of the shift amount is used: `1 >> 2^64` is computed as 1 -/
theorem C12_shr_big_amount_violated : BigUint.shr [1] [0, 1] = [1] := by decide +kernel

/-- Proved part: right for one-limb shift amounts `n` when no bits cross a limb boundary
(`n ≡ 0, 1 mod 64`, or at most one limb survives). -/
theorem C12_shr_partial (a : List Nat) (ha : UCanon a) (n : Nat)
    (hm : n % 64 ≤ 1 ∨ val a < 2 ^ (64 * (n / 64 + 1))) :
    val (BigUint.shr a [n]) = val a / 2 ^ n ∧ UCanon (BigUint.shr a [n]) := by
  -- the same code as `shr_on_u64` on a positive bigint
  have hc : (JsBig.new .pos a).Canon := new_canon ha.1 ha.2
  have hs : (JsBig.new .pos a).sign = .pos := by
    unfold JsBig.sign JsBig.new Sign.toInt; rw [if_neg]; simp only; omega
  have h := shrOnU64_ok (JsBig.new .pos a) hc n (by rw [new_items]; exact hm)
  have e : BigUint.shr a [n] = (JsBig.shrOnU64 (JsBig.new .pos a) n).items := by
    unfold BigUint.shr JsBig.shrOnU64 BigUint.isZero
    rw [hs, new_items]
    by_cases h0 : a = []
    · subst h0; simp [JsBig.shrOnBig]; rfl
    · have : a.isEmpty = false := by simpa using h0
      rw [this]
      simp only [Bool.false_eq_true, if_false, reduceCtorEq, and_false]
      split
      · rfl
      · rfl
  rw [hs] at h
  have hv := h.2
  simp only [reduceCtorEq, false_and, if_false, new_items, signed] at hv
  have := natAbs_toInt (JsBig.shrOnU64 (JsBig.new .pos a) n)
  rw [hv] at this
  rw [e]
  exact ⟨by rw [← this]; rfl, h.1.limbs, h.1.norm⟩

example : UCanon [5, 7, 9] ∧ BigUint.shr [5, 7, 9] [65] = [2 ^ 63 + 3, 4] := by decide +kernel

/-! ## C13: exponentiation -/

theorem BigUint.powLoop_ok (fuel : Nat) (res b : List Nat) (e : Nat) (he : e < 2 ^ fuel)
    (hr : UCanon res) (hb : UCanon b) :
    ∃ v, BigUint.powLoop (fuel + 1) res b e = .ok v ∧ val v = val res * val b ^ e ∧ UCanon v := by
  induction fuel generalizing res b e with
  | zero =>
    have : e = 0 := by simpa using he
    subst this
    exact ⟨res, rfl, by simp, hr⟩
  | succ fuel ih =>
    unfold BigUint.powLoop
    by_cases h0 : e = 0
    · subst h0
      exact ⟨res, rfl, by simp, hr⟩
    · rw [if_neg h0, and_one]
      obtain ⟨b2, eb, vb, cb⟩ := C10_mul_exact b b hb hb
      have he2 : e / 2 < 2 ^ fuel := by rw [pow_succ] at he; omega
      rcases Nat.mod_two_eq_zero_or_one e with h | h
      · obtain ⟨v, ev, vv, cv⟩ := ih res b2 (e / 2) he2 hr cb
        refine ⟨v, ?_, ?_, cv⟩
        · rw [h, eb]; exact ev
        · rw [vv, vb, ← pow_two, ← pow_mul]
          congr 2; omega
      · obtain ⟨r2, er, vr, cr⟩ := C10_mul_exact res b hr hb
        obtain ⟨v, ev, vv, cv⟩ := ih r2 b2 (e / 2) he2 cr cb
        refine ⟨v, ?_, ?_, cv⟩
        · rw [h, er, eb]; exact ev
        · rw [vv, vb, vr, ← pow_two, ← pow_mul, mul_assoc, ← pow_succ']
          congr 2; omega

theorem C13_pow_u64_exact (a : List Nat) (ha : UCanon a) (e : Nat) (he : e < 2 ^ 64) :
    ∃ c, BigUint.powU64 a e = .ok c ∧ val c = val a ^ e ∧ UCanon c := by
  obtain ⟨v, ev, vv, cv⟩ := BigUint.powLoop_ok 64 [1] a e he (by decide) ha
  refine ⟨v, ev, ?_, cv⟩
  rw [vv]; simp [val_cons]

theorem C13_pow_exact (a e : List Nat) (ha : UCanon a) (he : UCanon e) (h64 : val e < 2 ^ 64) :
    ∃ c, BigUint.pow a e = .ok c ∧ val c = val a ^ val e ∧ UCanon c := by
  have h1c : UCanon [1] := by decide
  have hv1 : val [1] = 1 := by simp [val_cons]
  unfold BigUint.pow BigUint.isZero
  by_cases h1 : a = [1]
  · subst h1; exact ⟨[1], by simp, by rw [hv1]; simp, h1c⟩
  rw [if_neg h1]
  by_cases h2 : e = []
  · subst h2
    refine ⟨[1], ?_, by rw [hv1]; simp, h1c⟩
    split <;> rfl
  have he0 : e.isEmpty = false := by simpa using h2
  have hp := val_pos he.2 h2
  by_cases h3 : a = []
  · subst h3
    refine ⟨[], by simp [h2], ?_, by decide⟩
    rw [val_nil, zero_pow (by omega)]
  have ha0 : a.isEmpty = false := by simpa using h3
  rw [ha0, he0]
  simp only [Bool.false_eq_true, if_false]
  have : e = [val e] := by
    refine val_inj he.1 (by rw [limbs_cons]; exact ⟨by rw [B_eq]; exact h64, by simp⟩)
      he.2 (by simp only [Norm, List.getLast?_singleton, ne_eq, Option.some.injEq]; omega)
      (by simp [val_cons])
  rw [this]
  have h5 : val [val e] = val e := by simp [val_cons]
  rw [h5]
  exact C13_pow_u64_exact a ha _ h64

/-- Exponents of more than one limb: the result is exact (bases 0 and 1) or the code panics. -/
theorem C13_large_exponent (a e : List Nat) (ha : UCanon a) (he : UCanon e)
    (h64 : 2 ^ 64 ≤ val e) :
    BigUint.pow a e =
      if val a ≤ 1 then .ok (if val a = 0 then [] else [1]) else .error (.panic .explicit) := by
  unfold BigUint.pow BigUint.isZero
  have he0 : e.isEmpty = false := by
    cases e with
    | nil => simp at h64
    | cons => rfl
  by_cases h1 : a = [1]
  · subst h1; simp [val_cons]
  rw [if_neg h1]
  by_cases h3 : a = []
  · subst h3; rw [he0]; simp
  have ha0 : a.isEmpty = false := by simpa using h3
  rw [ha0, he0]
  simp only [Bool.false_eq_true, if_false]
  have hp := val_pos ha.2 h3
  have hne : val a ≠ 1 := fun h => h1
    (val_inj ha.1 (by decide) ha.2 (by decide) (by rw [h]; simp [val_cons]))
  rw [if_neg (by omega)]
  match e, h64, he with
  | [n], h64, he =>
    have := he.1 n (by simp)
    simp only [val_cons, val_nil] at h64
    omega
  | [], h64, _ => cases he0
  | _ :: _ :: _, _, _ => rfl

example : UCanon [10] ∧ val [27] < 2 ^ 64 ∧
    BigUint.pow [10] [27] = .ok [11515845246265065472, 54210108] := by decide +kernel

/-! ## C14: signed arithmetic -/

/-- value of a `BigInt` -/
def BInt.toInt (a : BInt) : Int := signed a.sign (val a.value)

/-- canonical `BigInt`: canonical magnitude, zero is positive -/
def BInt.Canon (a : BInt) : Prop := UCanon a.value ∧ (a.value = [] → a.sign = .pos)
instance (a : BInt) : Decidable a.Canon := by unfold BInt.Canon; infer_instance

theorem bcanon {s : Sign} {v : List Nat} (h : UCanon v) (h0 : v ≠ []) : BInt.Canon ⟨s, v⟩ :=
  ⟨h, fun h1 => absurd h1 h0⟩

theorem ne_nil_of_val_pos {v : List Nat} (h : 0 < val v) : v ≠ [] := by
  rintro rfl; simp at h

theorem C14_add_exact (a b : BInt) (ha : a.Canon) (hb : b.Canon) :
    (BInt.add a b).toInt = a.toInt + b.toInt ∧ (BInt.add a b).Canon := by
  unfold BInt.add BInt.toInt
  split
  · rename_i h
    obtain ⟨e, c⟩ := C10_add_exact a.value b.value ha.1 hb.1
    refine ⟨?_, c, ?_⟩
    · dsimp only; rw [e, h]
      cases b.sign <;> simp only [signed] <;> omega
    · intro h0
      have h0 : BigUint.add a.value b.value = [] := h0
      rw [h0] at e
      have : val a.value = 0 := by simp at e; omega
      exact ha.2 ((val_eq_zero_iff ha.1.2).1 this)
  · rename_i h
    unfold BigUint.cmp
    rcases cmpVec_cases ha.1.1 hb.1.1 ha.1.2 hb.1.2 with ⟨hc, hv⟩ | ⟨hc, hv⟩ | ⟨hc, hv⟩ <;>
      rw [hc] <;> dsimp only
    · obtain ⟨e, c⟩ := C10_sub_exact b.value a.value hb.1 ha.1
      rw [if_pos (by omega)] at e
      refine ⟨?_, bcanon c (ne_nil_of_val_pos (by omega))⟩
      rw [e]
      cases h1 : a.sign <;> cases h2 : b.sign <;> simp only [h1, h2, signed, not_true] at h ⊢ <;>
        omega
    · refine ⟨?_, by decide⟩
      rw [hv]
      cases h1 : a.sign <;> cases h2 : b.sign <;>
        simp only [h1, h2, signed, not_true, BInt.zero, val_nil] at h ⊢ <;> omega
    · obtain ⟨e, c⟩ := C10_sub_exact a.value b.value ha.1 hb.1
      rw [if_pos (by omega)] at e
      refine ⟨?_, bcanon c (ne_nil_of_val_pos (by omega))⟩
      rw [e]
      cases h1 : a.sign <;> cases h2 : b.sign <;> simp only [h1, h2, signed, not_true] at h ⊢ <;>
        omega

theorem C14_neg_exact (a : BInt) (ha : a.Canon) :
    (BInt.neg a).toInt = -a.toInt ∧ (BInt.neg a).Canon := by
  unfold BInt.neg BInt.isZero BigUint.isZero BInt.toInt
  by_cases h : a.value = []
  · rw [h]; simp only [List.isEmpty_nil, if_true]
    refine ⟨?_, ha⟩
    rw [h]; cases a.sign <;> rfl
  · have : a.value.isEmpty = false := by simpa using h
    rw [this]
    refine ⟨?_, bcanon ha.1 h⟩
    cases h1 : a.sign <;>
      simp only [Bool.false_eq_true, if_false, Sign.opposite, signed] <;> omega

theorem C14_abs_exact (a : BInt) (ha : a.Canon) :
    (BInt.abs a).toInt = |a.toInt| ∧ (BInt.abs a).Canon := by
  unfold BInt.abs BInt.toInt
  cases h : a.sign
  · refine ⟨?_, ha⟩
    rw [h]; simp [signed]
  · refine ⟨?_, ha.1, fun _ => rfl⟩
    simp [signed]

/-- conversion from `BigUint` -/
theorem C14_to_big_int (v : List Nat) (hv : UCanon v) :
    (BInt.ofUint v).toInt = val v ∧ (BInt.ofUint v).Canon := ⟨rfl, hv, fun _ => rfl⟩

theorem C14_sub_exact (a b : BInt) (ha : a.Canon) (hb : b.Canon) :
    (BInt.sub a b).toInt = a.toInt - b.toInt ∧ (BInt.sub a b).Canon := by
  obtain ⟨h1, h2⟩ := C14_neg_exact b hb
  obtain ⟨h3, h4⟩ := C14_add_exact a _ ha h2
  exact ⟨by unfold BInt.sub; rw [h3, h1]; omega, h4⟩

theorem C14_mul_exact (a b : BInt) (ha : a.Canon) (hb : b.Canon) :
    ∃ c, BInt.mul a b = .ok c ∧ c.toInt = a.toInt * b.toInt ∧ c.Canon := by
  unfold BInt.mul BInt.isZero BigUint.isZero
  by_cases h1 : a.value = []
  · refine ⟨BInt.zero, by simp [h1], ?_, by decide⟩
    unfold BInt.toInt; rw [h1]; cases a.sign <;> simp [signed, BInt.zero]
  by_cases h2 : b.value = []
  · refine ⟨BInt.zero, by simp [h2], ?_, by decide⟩
    unfold BInt.toInt; rw [h2]; cases b.sign <;> simp [signed, BInt.zero]
  obtain ⟨v, e, hv, c⟩ := C10_mul_exact a.value b.value ha.1 hb.1
  have hz : (a.value.isEmpty || b.value.isEmpty) = false := by simp [h1, h2]
  rw [hz, e]
  have hpos : 0 < val v := by
    rw [hv]; exact Nat.mul_pos (val_pos ha.1.2 h1) (val_pos hb.1.2 h2)
  have hne := ne_nil_of_val_pos hpos
  refine ⟨_, rfl, ?_⟩
  unfold BInt.normalize
  simp only [normalize_of_norm c.2]
  have hvn : v.isEmpty = false := by simpa using hne
  rw [hvn]
  simp only [Bool.false_eq_true, if_false]
  refine ⟨?_, bcanon c hne⟩
  unfold BInt.toInt
  rw [hv]
  cases a.sign <;> cases b.sign <;> simp [signed]

example : BInt.Canon ⟨.neg, [B - 1, 1]⟩ ∧ BInt.Canon ⟨.pos, [0, 2]⟩ ∧
    BInt.add ⟨.neg, [B - 1, 1]⟩ ⟨.pos, [0, 2]⟩ = ⟨.pos, [1]⟩ := by decide +kernel

/-! ## C15: order and division of signed integers -/

def BCompareCorrect : Prop :=
  ∀ a b : BInt, a.Canon → b.Canon → BInt.cmp a b = compare a.toInt b.toInt

theorem C15_cmp_violated : ¬ BCompareCorrect := by
  intro h
  have := h ⟨.neg, [1]⟩ ⟨.neg, [2]⟩ (by decide) (by decide)
  revert this; decide

/-- Proved part: the order is right unless both are negative; then it is reversed. -/
theorem C15_cmp_partial (a b : BInt) (ha : a.Canon) (hb : b.Canon) :
    BInt.cmp a b = if a.toInt < 0 ∧ b.toInt < 0 then compare b.toInt a.toInt
      else compare a.toInt b.toInt := by
  have hn : ∀ c : BInt, c.Canon → c.sign = .neg → 0 < val c.value := by
    intro c hc hs
    apply val_pos hc.1.2
    intro h0
    rw [hc.2 h0] at hs; cases hs
  unfold BInt.cmp BInt.toInt BigUint.cmp
  cases h1 : a.sign <;> cases h2 : b.sign <;> unfold signed <;> dsimp only
  · rw [if_neg (by simp), if_neg (by omega), cmpVec_eq ha.1.1 hb.1.1 ha.1.2 hb.1.2]
    rcases Nat.lt_trichotomy (val a.value) (val b.value) with h | h | h
    · rw [Nat.compare_eq_lt.2 h, ord_lt (by omega)]
    · rw [Nat.compare_eq_eq.2 h, ord_eq (by omega)]
    · rw [Nat.compare_eq_gt.2 h, ord_gt (by omega)]
  · have := hn b hb h2
    rw [if_pos (by simp), if_neg (by omega), ord_gt (by omega)]; rfl
  · have := hn a ha h1
    rw [if_pos (by simp), if_neg (by omega), ord_lt (by omega)]; rfl
  · have := hn a ha h1
    have := hn b hb h2
    rw [if_neg (by simp), if_pos (by omega), cmpVec_eq ha.1.1 hb.1.1 ha.1.2 hb.1.2]
    rcases Nat.lt_trichotomy (val a.value) (val b.value) with h | h | h
    · rw [Nat.compare_eq_lt.2 h, ord_lt (by omega)]
    · rw [Nat.compare_eq_eq.2 h, ord_eq (by omega)]
    · rw [Nat.compare_eq_gt.2 h, ord_gt (by omega)]

def BDivModCorrect : Prop :=
  ∀ a d : BInt, a.Canon → d.Canon → d.toInt ≠ 0 → ∃ fuel q r,
    BInt.divMod fuel a d = .ok (q, r) ∧ a.toInt = q.toInt * d.toInt + r.toInt ∧
      r.toInt.natAbs < d.toInt.natAbs ∧ q.toInt = a.toInt.tdiv d.toInt

/-- Multi-limb divisors loop forever, as for `BigUint`. -/
theorem C15_divmod_violated : ¬ BDivModCorrect := by
  intro h
  obtain ⟨f, q, r, e, -⟩ := h ⟨.pos, [0, 0, 1]⟩ ⟨.pos, [1, 1]⟩ (by decide) (by decide) (by decide)
  unfold BInt.divMod at e
  rw [C11_termination_violated] at e
  cases e

/-- Even for small numbers the remainder is wrong: `7 = (−3)·(−2) + 1`, the code answers −1. -/
theorem C15_remainder_sign_violated :
    BInt.divMod 10 ⟨.pos, [7]⟩ ⟨.neg, [2]⟩ = .ok (⟨.neg, [3]⟩, ⟨.neg, [1]⟩) ∧
    (7 : Int) ≠ (-3) * (-2) + (-1) := by decide +kernel

/-- A negative zero quotient: `−1 / 2` is a zero with a negative sign. -/
theorem C15_negative_zero_violated :
    BInt.div 10 ⟨.neg, [1]⟩ ⟨.pos, [2]⟩ = .ok ⟨.neg, []⟩ ∧ ¬ BInt.Canon ⟨.neg, []⟩ := by
  decide +kernel

/-- Proved part: divisors of the form `±d·2^(64k)`, `0 < d < 2^64`: the division
terminates, after at most one iteration per limb of the dividend, the quotient is the
truncated quotient and the remainder is smaller than the divisor; `a = q·b + r` holds when the divisor is positive. -/
theorem C15_divmod_partial (a b : BInt) (ha : a.Canon) (hb : b.Canon) (k d : Nat)
    (hd0 : 0 < d) (hd : d < 2 ^ 64) (hbv : b.toInt.natAbs = d * 2 ^ (64 * k)) (fuel : Nat)
    (hf : a.value.length < fuel) :
    ∃ q r, BInt.divMod fuel a b = .ok (q, r) ∧ BInt.div fuel a b = .ok q ∧
      q.toInt = a.toInt.tdiv b.toInt ∧
      r.toInt.natAbs = (a.toInt.tmod b.toInt).natAbs ∧
      (0 < b.toInt → a.toInt = q.toInt * b.toInt + r.toInt ∧ r.toInt = a.toInt.tmod b.toInt) := by
  have hnat : ∀ s n, (signed s n).natAbs = n := by intro s n; cases s <;> simp [signed]
  unfold BInt.toInt at hbv
  rw [hnat] at hbv
  obtain ⟨q, r, e, hdm, hlt, cq, cr⟩ :=
    C11_divmod_partial a.value b.value ha.1 hb.1 k d hd0 hd hbv fuel hf
  have hbpos : 0 < val b.value := by rw [hbv]; positivity
  have hbz : b.isZero = false := by
    unfold BInt.isZero BigUint.isZero
    simpa using ne_nil_of_val_pos hbpos
  have hq : val q = val a.value / val b.value ∧ val r = val a.value % val b.value := by
    rw [hdm, Nat.mul_comm, Nat.mul_add_div hbpos, Nat.mul_add_mod, Nat.div_eq_of_lt hlt,
      Nat.mod_eq_of_lt hlt]; omega
  refine ⟨⟨if a.sign = b.sign then .pos else .neg, q⟩, ⟨if a.sign = b.sign then .pos else .neg, r⟩,
    ?_, ?_, ?_, ?_, ?_⟩
  · unfold BInt.divMod; rw [hbz, e]; rfl
  · unfold BInt.div; rw [hbz, e]; rfl
  · unfold BInt.toInt; rw [tdiv_signed, hq.1]
  · unfold BInt.toInt; rw [tmod_signed, hnat, hnat, hq.2]
  · unfold BInt.toInt
    intro h
    have hs : b.sign = .pos := by
      cases h1 : b.sign
      · rfl
      · rw [h1] at h; simp only [signed] at h; omega
    rw [hs, tmod_signed]
    have hz : (val a.value : Int) = val q * val b.value + val r := by exact_mod_cast hdm
    cases a.sign
    · simp only [signed, if_true]; exact ⟨hz, by rw [hq.2]⟩
    · simp only [signed, reduceCtorEq, if_false]
      refine ⟨by rw [hz]; ring, by rw [hq.2]⟩

example : BInt.Canon ⟨.neg, [1, 2, 3]⟩ ∧ BInt.Canon ⟨.pos, [B - 5]⟩ ∧
    (BInt.toInt ⟨.pos, [B - 5]⟩).natAbs = (2 ^ 64 - 5) * 2 ^ (64 * 0) := by decide +kernel

end Nanvm
