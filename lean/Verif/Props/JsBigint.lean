import Verif.Lemmas.Div
import Verif.Lemmas.Twos
/-!
# Property theorems C01–C09: JavaScript bigints (`js/js_bigint.rs`)

`JsBig.toInt` is the mathematical value, `JsBig.Canon` the representation
invariant.  Every bigint the library can build is canonical (C03).
-/
namespace Nanvm
open JsBig

/-! ## C01: addition, subtraction, negation, complement -/

theorem C01_add_exact (a b : JsBig) (ha : a.Canon) (hb : b.Canon) :
    (add a b).toInt = a.toInt + b.toInt ∧ (add a b).Canon := by
  rw [toInt_eq_signed a, toInt_eq_signed b]
  unfold add
  split
  · rename_i h
    rw [new_toInt, addVec_val ha.limbs hb.limbs, h]
    refine ⟨?_, new_canon (addVec_limbs _ _) (addVec_norm ha.limbs hb.limbs ha.norm hb.norm)⟩
    cases b.sign <;> simp only [signed] <;> omega
  · rename_i h
    rcases cmpVec_cases ha.limbs hb.limbs ha.norm hb.norm with ⟨hc, hv⟩ | ⟨hc, hv⟩ | ⟨hc, hv⟩ <;>
      rw [hc] <;> dsimp only
    · rw [new_toInt, subVecNorm_val hb.limbs ha.limbs ha.norm (by omega)]
      refine ⟨?_, new_canon (limbs_normalize (subVec_limbs _ _)) (norm_normalize _)⟩
      cases h1 : a.sign <;> cases h2 : b.sign <;> simp only [h1, h2, signed, not_true] at h ⊢ <;>
        omega
    · refine ⟨?_, zero_canon⟩
      rw [zero_toInt, hv]
      cases h1 : a.sign <;> cases h2 : b.sign <;> simp only [h1, h2, signed, not_true] at h ⊢ <;>
        omega
    · rw [new_toInt, subVecNorm_val ha.limbs hb.limbs hb.norm (by omega)]
      refine ⟨?_, new_canon (limbs_normalize (subVec_limbs _ _)) (norm_normalize _)⟩
      cases h1 : a.sign <;> cases h2 : b.sign <;> simp only [h1, h2, signed, not_true] at h ⊢ <;>
        omega

theorem C01_sub_exact (a b : JsBig) (ha : a.Canon) (hb : b.Canon) :
    (sub a b).toInt = a.toInt - b.toInt ∧ (sub a b).Canon := by
  rw [toInt_eq_signed a, toInt_eq_signed b]
  unfold sub
  split
  · rename_i h
    rw [new_toInt, addVec_val ha.limbs hb.limbs]
    refine ⟨?_, new_canon (addVec_limbs _ _) (addVec_norm ha.limbs hb.limbs ha.norm hb.norm)⟩
    cases h1 : a.sign <;> cases h2 : b.sign <;>
      simp only [h1, h2, signed, ne_eq, not_true, reduceCtorEq, not_false_eq_true] at h ⊢ <;> omega
  · rename_i h
    have h : a.sign = b.sign := by simpa using h
    rcases cmpVec_cases ha.limbs hb.limbs ha.norm hb.norm with ⟨hc, hv⟩ | ⟨hc, hv⟩ | ⟨hc, hv⟩ <;>
      rw [hc] <;> dsimp only
    · rw [new_toInt, subVecNorm_val hb.limbs ha.limbs ha.norm (by omega), h]
      refine ⟨?_, new_canon (limbs_normalize (subVec_limbs _ _)) (norm_normalize _)⟩
      cases b.sign <;> simp only [signed, Sign.opposite] <;> omega
    · refine ⟨?_, zero_canon⟩
      rw [zero_toInt, hv, h]; omega
    · rw [new_toInt, subVecNorm_val ha.limbs hb.limbs hb.norm (by omega), h]
      refine ⟨?_, new_canon (limbs_normalize (subVec_limbs _ _)) (norm_normalize _)⟩
      cases b.sign <;> simp only [signed] <;> omega

theorem C01_negative_exact (a : JsBig) (ha : a.Canon) :
    (negative a).toInt = -a.toInt ∧ (negative a).Canon := by
  rw [toInt_eq_signed a]
  unfold negative
  split
  · rename_i h
    rw [isZero_iff] at h
    refine ⟨?_, zero_canon⟩
    rw [h, zero_toInt]; cases a.sign <;> simp [signed]
  · rw [new_toInt]
    refine ⟨?_, new_canon ha.limbs ha.norm⟩
    cases a.sign <;> simp only [signed, Sign.opposite] <;> omega

theorem C01_not_exact (a : JsBig) (ha : a.Canon) :
    (not a).toInt = -a.toInt - 1 ∧ (not a).Canon := by
  rw [toInt_eq_signed a]
  unfold JsBig.not
  split
  · rename_i h
    rw [isZero_iff] at h
    refine ⟨?_, fromU64_canon (by decide)⟩
    rw [fromU64_toInt, h]; cases a.sign <;> simp [signed]
  · rename_i h
    rw [isZero_iff] at h
    have hpos := val_pos ha.norm h
    have hlen : 1 ≤ a.items.length := List.length_pos_iff.2 h
    split
    · rename_i hs
      rw [new_toInt, addVec_val ha.limbs limbs_one, hs]
      refine ⟨?_, new_canon (addVec_limbs _ _) (addVec_norm ha.limbs limbs_one ha.norm norm_one)⟩
      simp only [signed, val_cons, val_nil]; omega
    · rename_i hs
      have hv : val (subVec a.items [1]) = val a.items - 1 := by
        have := subVec_val (b := [1]) ha.limbs limbs_one (by simpa using hlen)
          (by simp [val_cons]; omega)
        simpa [val_cons] using this
      rw [new_toInt, val_normalize, hv, hs]
      refine ⟨?_, new_canon (limbs_normalize (subVec_limbs _ _)) (norm_normalize _)⟩
      simp only [signed]; omega

/-- the hypotheses are met by a multi-limb example with carries and cancellation -/
example : (new .neg [B - 1, B - 1, 7]).Canon ∧ (new .pos [1, 0, 7]).Canon ∧
    (add (new .neg [B - 1, B - 1, 7]) (new .pos [1, 0, 7])) = new .neg [B - 2, B - 1] := by
  decide +kernel

/-! ## C02: multiplication -/

theorem C02_mul_exact (a b : JsBig) (ha : a.Canon) (hb : b.Canon) :
    ∃ c, mul a b = .ok c ∧ c.toInt = a.toInt * b.toInt ∧ c.Canon := by
  rw [toInt_eq_signed a, toInt_eq_signed b]
  unfold mul
  split
  · rename_i h
    refine ⟨zero, rfl, ?_, zero_canon⟩
    rw [Bool.or_eq_true, isZero_iff, isZero_iff] at h
    rw [zero_toInt]
    rcases h with h | h
    · rw [h]; cases a.sign <;> simp [signed]
    · rw [h]; cases b.sign <;> simp [signed]
  · rename_i h
    rw [Bool.or_eq_true, isZero_iff, isZero_iff, not_or] at h
    obtain ⟨v, hv, e, l, n⟩ := mulVec_ok ha.limbs hb.limbs h.1 h.2
    refine ⟨new (mulSign a b) v, by rw [hv]; rfl, ?_, new_canon l n⟩
    rw [new_toInt, e]
    unfold mulSign
    cases a.sign <;> cases b.sign <;> simp [signed]

example : (new .neg [B - 1, B - 1]).Canon ∧
    mul (new .neg [B - 1, B - 1]) (new .pos [B - 1, B - 1, B - 1]) =
      .ok (new .neg [1, 0, B - 1, B - 2, B - 1]) := by decide +kernel

/-! ## C07: left shift (stated here because C03 uses it) -/

theorem shlOnU64_ok (a : JsBig) (ha : a.Canon) (hne : a.items ≠ []) (n : Nat) :
    ∃ c, shlOnU64 a n = .ok c ∧ c.toInt = a.toInt * 2 ^ n ∧ c.Canon := by
  rw [toInt_eq_signed a]
  unfold shlOnU64
  rw [and_63]
  simp only [hne, and_false, if_false]
  refine ⟨_, rfl, ?_⟩
  set v1 := if n % 64 > 0 then shlLoop (n % 64) a.items else a.items with hv1
  set v2 := if n / 64 > 0 then List.replicate (n / 64) 0 ++ v1 else v1 with hv2
  have h1 : val v1 = val a.items * 2 ^ (n % 64) ∧ Limbs v1 := by
    rw [hv1]
    split
    · exact shlLoop_val (by omega) ha.limbs
    · rename_i h
      rw [show n % 64 = 0 by omega]; simpa using ha.limbs
  have h2 : val v2 = val a.items * 2 ^ n ∧ Limbs v2 := by
    have e : 2 ^ n = 2 ^ (n % 64) * B ^ (n / 64) := by
      rw [B_eq, ← pow_mul, ← pow_add]; congr 1; omega
    rw [hv2]
    split
    · rw [val_append, val_replicate, List.length_replicate, h1.1, e, limbs_append]
      exact ⟨by ring, limbs_replicate _, h1.2⟩
    · rename_i h
      rw [h1.1, e, show n / 64 = 0 by omega]
      exact ⟨by ring, h1.2⟩
  refine ⟨?_, new_canon (limbs_normalize h2.2) (norm_normalize _)⟩
  rw [new_toInt, val_normalize, h2.1]
  cases a.sign <;> simp [signed]

/-- For every bigint and every shift amount that fits in a `u64`. -/
theorem C07_shl_exact (a r : JsBig) (ha : a.Canon) (n : Nat) (hn : n < 2 ^ 64)
    (hr : r.Canon) (hrn : r.toInt = n) :
    ∃ c, shl a r = .ok c ∧ c.toInt = a.toInt * 2 ^ n ∧ c.Canon := by
  unfold shl
  split
  · rename_i h
    rw [isZero_iff] at h
    refine ⟨zero, rfl, ?_, zero_canon⟩
    rw [zero_toInt, toInt_eq_signed, h]; cases a.sign <;> simp [signed]
  · rename_i h
    rw [isZero_iff] at h
    have hr' : r = fromU64 .pos n := by
      rw [canon_eq_new hr]
      rw [toInt_eq_signed] at hrn
      unfold fromU64
      by_cases h0 : n = 0
      · have : r.items = [] := by
          rw [← val_eq_zero_iff hr.norm]
          cases h1 : r.sign <;> rw [h1] at hrn <;> simp only [signed] at hrn <;> omega
        rw [if_pos h0, this]; cases r.sign <;> rfl
      · have hs : r.sign = .pos := by
          cases h1 : r.sign <;> rw [h1] at hrn <;> simp only [signed] at hrn
          omega
        rw [hs] at hrn ⊢
        have : r.items = [n] := val_inj hr.limbs (by rw [limbs_cons]; exact ⟨by rw [B_eq]; exact hn, by simp⟩) hr.norm
          (by simpa [Norm] using h0) (by simp only [signed] at hrn; simp [val_cons]; omega)
        rw [if_neg h0, this]
    split
    · rename_i h1
      rw [hr', isZero_iff] at h1
      have h0 : n = 0 := by
        by_contra hc
        rw [fromU64, if_neg hc] at h1
        simp at h1
      refine ⟨_, rfl, ?_, new_canon ha.limbs ha.norm⟩
      rw [new_toInt, h0, ← toInt_eq_signed]; simp
    · rename_i h1
      have h0 : n ≠ 0 := by
        rintro rfl
        rw [hr'] at h1; exact h1 rfl
      have e : r = new .pos [n] := by rw [hr', fromU64, if_neg h0]
      rw [e]
      have hs : (new .pos [n]).sign = .pos := new_sign (by simp)
      simp only [new_items, hs]
      exact shlOnU64_ok a ha h n

example : (new .neg [B - 1, 3]).Canon ∧ (new .pos [127]).toInt = (127 : Nat) ∧
    shl (new .neg [B - 1, 3]) (new .pos [127]) =
      .ok (new .neg [0, 9223372036854775808, 18446744073709551615, 1]) := by
  decide +kernel

/-! ## C03: canonical results, equality is value equality -/

/-- Expressions over the constructors and operators: a history of operations. -/
inductive BigExpr
  | lit (s : Sign) (n : Nat)
  | add (a b : BigExpr)
  | sub (a b : BigExpr)
  | mul (a b : BigExpr)
  | neg (a : BigExpr)
  | not (a : BigExpr)
  | shl (a : BigExpr) (n : Nat)

/-- what the code computes -/
def BigExpr.run : BigExpr → Res JsBig
  | .lit s n => .ok (fromU64 s n)
  | .add a b => do return JsBig.add (← a.run) (← b.run)
  | .sub a b => do return JsBig.sub (← a.run) (← b.run)
  | .mul a b => do JsBig.mul (← a.run) (← b.run)
  | .neg a => do return JsBig.negative (← a.run)
  | .not a => do return JsBig.not (← a.run)
  | .shl a n => do JsBig.shl (← a.run) (fromU64 .pos n)

/-- what it should mean -/
def BigExpr.denote : BigExpr → Int
  | .lit s n => signed s n
  | .add a b => a.denote + b.denote
  | .sub a b => a.denote - b.denote
  | .mul a b => a.denote * b.denote
  | .neg a => -a.denote
  | .not a => -a.denote - 1
  | .shl a n => a.denote * 2 ^ n

/-- literals and shift amounts are `u64` -/
def BigExpr.Ok : BigExpr → Prop
  | .lit _ n => n < 2 ^ 64
  | .add a b => a.Ok ∧ b.Ok
  | .sub a b => a.Ok ∧ b.Ok
  | .mul a b => a.Ok ∧ b.Ok
  | .neg a => a.Ok
  | .not a => a.Ok
  | .shl a n => a.Ok ∧ n < 2 ^ 64

/-- Every finite history of operations succeeds, yields the mathematical value and
a canonical representation. -/
theorem C03_histories_canonical (e : BigExpr) (h : e.Ok) :
    ∃ c, e.run = .ok c ∧ c.toInt = e.denote ∧ c.Canon := by
  induction e with
  | lit s n => exact ⟨_, rfl, fromU64_toInt s n, fromU64_canon h⟩
  | add a b iha ihb =>
    obtain ⟨x, ex, vx, cx⟩ := iha h.1
    obtain ⟨y, ey, vy, cy⟩ := ihb h.2
    have := C01_add_exact x y cx cy
    exact ⟨_, by simp only [BigExpr.run, ex, ey]; rfl, by rw [this.1, vx, vy]; rfl, this.2⟩
  | sub a b iha ihb =>
    obtain ⟨x, ex, vx, cx⟩ := iha h.1
    obtain ⟨y, ey, vy, cy⟩ := ihb h.2
    have := C01_sub_exact x y cx cy
    exact ⟨_, by simp only [BigExpr.run, ex, ey]; rfl, by rw [this.1, vx, vy]; rfl, this.2⟩
  | mul a b iha ihb =>
    obtain ⟨x, ex, vx, cx⟩ := iha h.1
    obtain ⟨y, ey, vy, cy⟩ := ihb h.2
    obtain ⟨z, ez, vz, cz⟩ := C02_mul_exact x y cx cy
    refine ⟨z, ?_, by rw [vz, vx, vy]; rfl, cz⟩
    simp only [BigExpr.run, ex, ey]; exact ez
  | neg a iha =>
    obtain ⟨x, ex, vx, cx⟩ := iha h
    have := C01_negative_exact x cx
    exact ⟨_, by simp only [BigExpr.run, ex]; rfl, by rw [this.1, vx]; rfl, this.2⟩
  | not a iha =>
    obtain ⟨x, ex, vx, cx⟩ := iha h
    have := C01_not_exact x cx
    exact ⟨_, by simp only [BigExpr.run, ex]; rfl, by rw [this.1, vx]; rfl, this.2⟩
  | shl a n iha =>
    obtain ⟨x, ex, vx, cx⟩ := iha h.1
    obtain ⟨z, ez, vz, cz⟩ := C07_shl_exact x (fromU64 .pos n) cx n h.2 (fromU64_canon h.2)
      (fromU64_toInt .pos n)
    refine ⟨z, ?_, by rw [vz, vx]; rfl, cz⟩
    simp only [BigExpr.run, ex]; exact ez

/-- a canonical bigint is determined by its value -/
theorem C03_canonical_unique (a b : JsBig) (ha : a.Canon) (hb : b.Canon)
    (h : a.toInt = b.toInt) : a = b := by
  rw [toInt_eq_signed, toInt_eq_signed] at h
  have hz : ∀ c : JsBig, c.Canon → c.sign = .neg → 0 < val c.items := by
    intro c hc hs
    apply val_pos hc.norm
    intro h0
    have := hc.len
    rw [h0] at this
    simp only [JsBig.sign] at hs
    split at hs
    · simp at this; omega
    · cases hs
  have hs : a.sign = b.sign ∧ val a.items = val b.items := by
    cases h1 : a.sign <;> cases h2 : b.sign <;> rw [h1, h2] at h <;> simp only [signed] at h
    · exact ⟨rfl, by omega⟩
    · have := hz b hb h2; omega
    · have := hz a ha h1; omega
    · exact ⟨rfl, by omega⟩
  have hi := val_inj ha.limbs hb.limbs ha.norm hb.norm hs.2
  rw [canon_eq_new ha, canon_eq_new hb, hs.1, hi]

/-- `equals` decides equality of the mathematical values. -/
theorem C03_equals_iff (a b : JsBig) (ha : a.Canon) (hb : b.Canon) :
    equals a b = true ↔ a.toInt = b.toInt := by
  constructor
  · intro h
    unfold equals at h
    split at h
    · cases h
    · rename_i hs
      have hs : a.sign = b.sign := by simpa using hs
      rw [toInt_eq_signed, toInt_eq_signed, hs]
      rcases cmpVec_cases ha.limbs hb.limbs ha.norm hb.norm with ⟨hc, hv⟩ | ⟨hc, hv⟩ | ⟨hc, hv⟩
      · rw [hc] at h; cases h
      · rw [hv]
      · rw [hc] at h; cases h
  · intro h
    have := C03_canonical_unique a b ha hb h
    subst this
    unfold equals
    rw [if_neg (by simp), cmpVec_eq ha.limbs ha.limbs ha.norm ha.norm]
    rw [Nat.compare_eq_eq.2 rfl]; rfl

/-- a history whose value cancels to zero through a two-limb intermediate -/
example : (BigExpr.sub (.mul (.lit .neg (2 ^ 64 - 1)) (.lit .pos 2))
      (.not (.sub (.shl (.lit .pos 1) 65) (.lit .pos 3)))).Ok ∧
    (BigExpr.sub (.mul (.lit .neg (2 ^ 64 - 1)) (.lit .pos 2))
      (.not (.sub (.shl (.lit .pos 1) 65) (.lit .pos 3)))).run = .ok zero := by
  refine ⟨by simp [BigExpr.Ok], by decide +kernel⟩

/-! ## C04: comparison -/

/-- The full property. -/
def CompareIsNumericOrder : Prop :=
  ∀ a b : JsBig, a.Canon → b.Canon → JsBig.compare a b = Ord.compare a.toInt b.toInt

/-- The code violates it: −1 is reported to be less than −2. -/
theorem C04_compare_violated : ¬ CompareIsNumericOrder := by
  intro h
  have := h (new .neg [1]) (new .neg [2]) (by decide) (by decide)
  revert this; decide

theorem ord_lt {x y : Int} (h : x < y) : Ord.compare x y = .lt := by
  simp [Ord.compare, compareOfLessAndEq, h]
theorem ord_gt {x y : Int} (h : y < x) : Ord.compare x y = .gt := by
  have h1 : ¬ x < y := by omega
  have h2 : ¬ x = y := by omega
  simp [Ord.compare, compareOfLessAndEq, h1, h2]
theorem ord_eq {x y : Int} (h : x = y) : Ord.compare x y = .eq := by
  simp [Ord.compare, compareOfLessAndEq, h]

theorem canon_len_sign {a : JsBig} (ha : a.Canon) :
    (a.sign = .pos ∧ a.len = a.items.length ∧ 0 ≤ a.len) ∨
    (a.sign = .neg ∧ a.len = -(a.items.length : Int) ∧ a.len < 0 ∧ 0 < val a.items) := by
  have hl := ha.len
  unfold JsBig.sign
  by_cases h : a.len < 0
  · right
    refine ⟨by simp [h], by omega, h, val_pos ha.norm ?_⟩
    intro h0; rw [h0] at hl; simp at hl; omega
  · left; exact ⟨by simp [h], by omega, by omega⟩

/-- Proved part: the order is right unless both operands are negative with the same
number of limbs; in exactly that case the *reverse* order of the values is returned. -/
theorem C04_compare_partial (a b : JsBig) (ha : a.Canon) (hb : b.Canon) :
    JsBig.compare a b =
      if a.toInt < 0 ∧ b.toInt < 0 ∧ a.items.length = b.items.length
      then Ord.compare b.toInt a.toInt else Ord.compare a.toInt b.toInt := by
  unfold JsBig.compare
  rw [toInt_eq_signed a, toInt_eq_signed b]
  rcases canon_len_sign ha with ⟨sa, la, na⟩ | ⟨sa, la, na, va⟩ <;>
  rcases canon_len_sign hb with ⟨sb, lb, nb⟩ | ⟨sb, lb, nb, vb⟩ <;>
    rw [sa, sb] <;> unfold signed <;> dsimp only
  · rw [if_neg (by omega)]
    rcases Nat.lt_trichotomy a.items.length b.items.length with h | h | h
    · have hv : val a.items < val b.items := by
        by_contra hc
        have := length_le_of_val_le hb.norm ha.limbs (Nat.le_of_not_lt hc); omega
      rw [ord_lt (show a.len < b.len by omega), ord_lt (by omega)]
    · rw [ord_eq (show a.len = b.len by omega)]
      dsimp only
      rcases cmpVec_cases ha.limbs hb.limbs ha.norm hb.norm with ⟨hc, hv⟩ | ⟨hc, hv⟩ | ⟨hc, hv⟩
      · rw [hc, ord_lt (by omega)]
      · rw [hc, ord_eq (by omega)]
      · rw [hc, ord_gt (by omega)]
    · have hv : val b.items < val a.items := by
        by_contra hc
        have := length_le_of_val_le ha.norm hb.limbs (Nat.le_of_not_lt hc); omega
      rw [ord_gt (show b.len < a.len by omega), ord_gt (by omega)]
  · rw [if_neg (by omega), ord_gt (show b.len < a.len by omega), ord_gt (by omega)]
  · rw [if_neg (by omega), ord_lt (show a.len < b.len by omega), ord_lt (by omega)]
  · rcases Nat.lt_trichotomy a.items.length b.items.length with h | h | h
    · have hv : val a.items < val b.items := by
        by_contra hc
        have := length_le_of_val_le hb.norm ha.limbs (Nat.le_of_not_lt hc); omega
      rw [if_neg (by omega), ord_gt (show b.len < a.len by omega), ord_gt (by omega)]
    · rw [if_pos (by omega), ord_eq (show a.len = b.len by omega)]
      dsimp only
      rcases cmpVec_cases ha.limbs hb.limbs ha.norm hb.norm with ⟨hc, hv⟩ | ⟨hc, hv⟩ | ⟨hc, hv⟩
      · rw [hc, ord_lt (by omega)]
      · rw [hc, ord_eq (by omega)]
      · rw [hc, ord_gt (by omega)]
    · have hv : val b.items < val a.items := by
        by_contra hc
        have := length_le_of_val_le ha.norm hb.limbs (Nat.le_of_not_lt hc); omega
      rw [if_neg (by omega), ord_lt (show a.len < b.len by omega), ord_lt (by omega)]

example : (new .neg [5, 1]).Canon ∧ (new .neg [7]).Canon ∧
    JsBig.compare (new .neg [5, 1]) (new .neg [7]) = .lt ∧
    JsBig.compare (new .neg [5, 1]) (new .neg [6, 1]) = .lt ∧
    (new .neg [6, 1]).toInt < (new .neg [5, 1]).toInt := by decide +kernel

end Nanvm
