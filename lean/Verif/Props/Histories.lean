import Verif.Props.Conversions
import Verif.Props.Division
/-!
# Property theorems C84, C85: zero divisors, and histories of `BigUint` and `BigInt`

`BigUint::from_u64(0)` is the vector `[0]`, not the empty vector `ZERO`.  The theorems of C10–C15
are about canonical numbers; these are about every number that the conversions and the arithmetic
can make.
-/
namespace Nanvm

/-- The numbers that histories reach: canonical, or zero with one limb. -/
def UWeak (a : List Nat) : Prop := UCanon a ∨ a = [0]
instance (a : List Nat) : Decidable (UWeak a) := by unfold UWeak; infer_instance

theorem UWeak.limbs {a : List Nat} (h : UWeak a) : Limbs a := by
  rcases h with h | rfl
  · exact h.1
  · decide

theorem UCanon.zero_or {a : List Nat} (h : UCanon a) : a = [] ∨ a ≠ [] ∧ 0 < val a := by
  by_cases h0 : a = []
  · exact .inl h0
  · exact .inr ⟨h0, val_pos h.2 h0⟩

theorem cmpVec_zero_left {b : List Nat} (hb : UCanon b) (h0 : b ≠ []) : cmpVec [0] b = .lt := by
  match b, h0 with
  | [d], _ =>
    have : d ≠ 0 := by simpa [Norm] using hb.2
    have h : (0 : Nat) ≠ d := fun h => this h.symm
    simp [cmpVec, cmpHigh, h]; exact Nat.compare_eq_lt.2 (by omega)
  | d :: e :: b, _ => simp [cmpVec]; exact Nat.compare_eq_lt.2 (by omega)

theorem cmpVec_zero_right {a : List Nat} (ha : UCanon a) (h0 : a ≠ []) : cmpVec a [0] = .gt := by
  match a, h0 with
  | [d], _ =>
    have : d ≠ 0 := by simpa [Norm] using ha.2
    simp [cmpVec, cmpHigh, this]; exact Nat.compare_eq_gt.2 (by omega)
  | d :: e :: b, _ => simp [cmpVec]; exact Nat.compare_eq_gt.2 (by omega)

/-- the order of reachable numbers is that of their values unless both are zero -/
theorem uweak_cmp {a b : List Nat} (ha : UWeak a) (hb : UWeak b) (h : val a ≠ 0 ∨ val b ≠ 0) :
    cmpVec a b = compare (val a) (val b) := by
  rcases ha with ha | rfl
  · rcases hb with hb | rfl
    · exact cmpVec_eq ha.1 hb.1 ha.2 hb.2
    · rcases ha.zero_or with rfl | ⟨h1, h2⟩
      · simp [val_cons] at h
      · rw [cmpVec_zero_right ha h1]; exact (Nat.compare_eq_gt.2 (by simpa [val_cons] using h2)).symm
  · rcases hb with hb | rfl
    · rcases hb.zero_or with rfl | ⟨h1, h2⟩
      · simp [val_cons] at h
      · rw [cmpVec_zero_left hb h1]; exact (Nat.compare_eq_lt.2 (by simpa [val_cons] using h2)).symm
    · simp [val_cons] at h

/-! ## The operations on reachable numbers -/

theorem uweak_add {a b : List Nat} (ha : UWeak a) (hb : UWeak b) :
    val (BigUint.add a b) = val a + val b ∧ UWeak (BigUint.add a b) := by
  refine ⟨addVec_val ha.limbs hb.limbs, ?_⟩
  have key : ∀ c : List Nat, UCanon c → c ≠ [] → UCanon (addVec c [0]) ∧ UCanon (addVec [0] c) := by
    intro c hc h0
    have e1 : addVec c [0] = addVec c [] := by
      match c, h0 with
      | d :: c, _ => cases c <;> simp [addVec, zipPad]
    have e2 : addVec [0] c = addVec [] c := by
      match c, h0 with
      | [d], _ =>
        simp [addVec, zipPad, addLoop]
      | d :: e :: c, _ => simp [addVec, zipPad]
    have hz : UCanon [] := by decide
    rw [e1, e2]
    exact ⟨⟨addVec_limbs _ _, addVec_norm hc.1 hz.1 hc.2 hz.2⟩,
      ⟨addVec_limbs _ _, addVec_norm hz.1 hc.1 hz.2 hc.2⟩⟩
  rcases ha with ha | rfl
  · rcases hb with hb | rfl
    · exact .inl (C10_add_exact a b ha hb).2
    · rcases ha.zero_or with rfl | ⟨h1, -⟩
      · exact .inr (by decide)
      · exact .inl (key a ha h1).1
  · rcases hb with hb | rfl
    · rcases hb.zero_or with rfl | ⟨h1, -⟩
      · exact .inr (by decide)
      · exact .inl (key b hb h1).2
    · exact .inr (by decide)

theorem uweak_sub {a b : List Nat} (ha : UWeak a) (hb : UWeak b) :
    val (BigUint.sub a b) = val a - val b ∧ UCanon (BigUint.sub a b) := by
  have hz : UCanon [] := by decide
  unfold BigUint.sub BigUint.cmp
  by_cases h : val a ≠ 0 ∨ val b ≠ 0
  · rw [uweak_cmp ha hb h]
    rcases Nat.lt_trichotomy (val a) (val b) with h1 | h1 | h1
    · rw [Nat.compare_eq_lt.2 h1]; exact ⟨by simp; omega, hz⟩
    · rw [Nat.compare_eq_eq.2 h1]; exact ⟨by simp; omega, hz⟩
    · rw [Nat.compare_eq_gt.2 h1]
      have hl : b.length ≤ a.length := by
        rcases hb with hb | rfl
        · exact length_le_of_val_le hb.2 ha.limbs (by omega)
        · cases a with
          | nil => simp at h1
          | cons _ _ => simp
      refine ⟨?_, limbs_normalize (subVec_limbs _ _), norm_normalize _⟩
      show val (normalizeVec (subVec a b)) = _
      rw [val_normalize, subVec_val ha.limbs hb.limbs hl (by omega)]
  · simp only [not_or, not_not] at h
    have e : ∀ c : List Nat, UWeak c → val c = 0 → c = [] ∨ c = [0] := by
      rintro c (hc | rfl) h0
      · exact .inl ((val_eq_zero_iff hc.2).1 h0)
      · exact .inr rfl
    rcases e a ha h.1 with rfl | rfl <;> rcases e b hb h.2 with rfl | rfl <;> decide

theorem uweak_mul {a b : List Nat} (ha : UWeak a) (hb : UWeak b) :
    ∃ c, BigUint.mul a b = .ok c ∧ val c = val a * val b ∧ UCanon c := by
  unfold BigUint.mul BigUint.isZero
  by_cases h1 : a = []
  · subst h1; exact ⟨[], rfl, by simp, by decide⟩
  by_cases h2 : b = []
  · subst h2; exact ⟨[], by simp, by simp, by decide⟩
  obtain ⟨v, e, hv, l, n⟩ := mulVec_ok ha.limbs hb.limbs h1 h2
  exact ⟨v, by simp [h1, h2, e], hv, l, n⟩

theorem uweak_fromU64 {n : Nat} (h : n < 2 ^ 64) :
    val (BigUint.fromU64 n) = n ∧ UWeak (BigUint.fromU64 n) := by
  refine ⟨(C68_from_u64_partial n h).1, ?_⟩
  by_cases h0 : n = 0
  · subst h0; exact .inr rfl
  · exact .inl ((C68_from_u64_partial n h).2.2 h0)

theorem uweak_shl {a r : List Nat} (ha : UWeak a) (hr : UWeak r) (h64 : val r < 2 ^ 64) :
    ∃ c, BigUint.shl a r = .ok c ∧ val c = val a * 2 ^ val r ∧ UWeak c := by
  by_cases h1 : a = []
  · subst h1; exact ⟨[], by simp [BigUint.shl, BigUint.isZero], by simp, .inl (by decide)⟩
  by_cases h2 : r = []
  · subst h2; exact ⟨a, by simp [BigUint.shl, BigUint.isZero], by simp, ha⟩
  have hz : (BigUint.isZero a || BigUint.isZero r) = false := by simp [BigUint.isZero, h1, h2]
  have hr1 : r = [val r] := by
    rcases hr with hr | rfl
    · refine val_inj hr.1 (by rw [limbs_cons]; exact ⟨by rw [B_eq]; exact h64, by simp⟩) hr.2 ?_ ?_
      · have := val_pos hr.2 h2
        simp only [Norm, List.getLast?_singleton]
        intro h
        have := Option.some.inj h
        omega
      · simp [val_cons]
    · rfl
  generalize hn : val r = n at *
  subst hr1
  unfold BigUint.shl
  rw [hz]
  simp only [Bool.false_eq_true, if_false, and_63]
  refine ⟨_, rfl, ?_⟩
  set v1 := if n % 64 > 0 then shlLoop (n % 64) a else a with hv1
  set v2 := if n / 64 > 0 then List.replicate (n / 64) 0 ++ v1 else v1 with hv2
  have h1 : val v1 = val a * 2 ^ (n % 64) ∧ Limbs v1 := by
    rw [hv1]
    split
    · exact shlLoop_val (by omega) ha.limbs
    · rw [show n % 64 = 0 by omega]; simpa using ha.limbs
  have h2 : val v2 = val a * 2 ^ n ∧ Limbs v2 := by
    have e : 2 ^ n = 2 ^ (n % 64) * B ^ (n / 64) := by
      rw [B_eq, ← pow_mul, ← pow_add]; congr 1; omega
    rw [hv2]
    split
    · rw [val_append, val_replicate, List.length_replicate, h1.1, e, limbs_append]
      exact ⟨by ring, limbs_replicate _, h1.2⟩
    · rw [h1.1, e, show n / 64 = 0 by omega]
      exact ⟨by ring, h1.2⟩
  rw [val_normalize]
  exact ⟨h2.1, .inl ⟨limbs_normalize h2.2, norm_normalize _⟩⟩

theorem uweak_mul_one {a : List Nat} (ha : UWeak a) :
    ∃ c, BigUint.mul [1] a = .ok c ∧ val c = val a ∧ UCanon c := by
  obtain ⟨c, e, v, h⟩ := uweak_mul (a := [1]) (.inl (by decide)) ha
  exact ⟨c, e, by rw [v]; simp [val_cons], h⟩

theorem upowLoop_zero (k n : Nat) (hn : n ≠ 0) :
    BigUint.powLoop (k + 1) [1] [0] n =
      BigUint.powLoop k (if n &&& 1 > 0 then [] else [1]) [] (n / 2) := by
  have m1 : BigUint.mul [1] [0] = .ok [] := by decide +kernel
  have m2 : BigUint.mul [0] [0] = .ok [] := by decide +kernel
  rw [BigUint.powLoop, if_neg hn]
  by_cases ho : n &&& 1 > 0
  · simp only [ho, if_true, m1, m2, bind, Except.bind]
  · simp only [ho, if_false, m2, bind, Except.bind, pure, Except.pure]

/-- `pow_u64` of the zero `[0]` -/
theorem upowU64_zero (n : Nat) (h : n < 2 ^ 64) :
    ∃ c, BigUint.powU64 [0] n = .ok c ∧ val c = 0 ^ n ∧ UCanon c := by
  by_cases hn : n = 0
  · subst hn; exact ⟨[1], rfl, by simp [val_cons], by decide⟩
  have e : BigUint.powU64 [0] n = BigUint.powLoop (64 + 1) [1] [0] n := rfl
  rw [e, upowLoop_zero 64 n hn]
  clear e
  by_cases ho : n &&& 1 > 0
  · obtain ⟨v, ev, vv, cv⟩ := BigUint.powLoop_ok 63 [] [] (n / 2) (by omega) (by decide) (by decide)
    rw [if_pos ho]
    exact ⟨v, ev, by rw [vv]; simp [hn], cv⟩
  · obtain ⟨v, ev, vv, cv⟩ := BigUint.powLoop_ok 63 [1] [] (n / 2) (by omega) (by decide) (by decide)
    rw [if_neg ho]
    refine ⟨v, ev, ?_, cv⟩
    have : n % 2 = 0 := by rw [Nat.and_one_is_mod] at ho; omega
    rw [vv, val_nil, zero_pow (by omega), zero_pow hn]; simp

theorem uweak_pow {a e : List Nat} (ha : UWeak a) (he : UWeak e) (h64 : val e < 2 ^ 64)
    (h0 : ¬ (a = [] ∧ e = [0])) :
    ∃ c, BigUint.pow a e = .ok c ∧ val c = val a ^ val e ∧ UCanon c := by
  rcases ha with ha | rfl
  · rcases he with he | rfl
    · exact C13_pow_exact a e ha he h64
    · have h1 : a ≠ [] := fun h => h0 ⟨h, rfl⟩
      refine ⟨[1], ?_, by simp [val_cons], by decide⟩
      unfold BigUint.pow BigUint.isZero
      split
      · rfl
      · simp [h1]; rfl
  · rcases he with he | rfl
    · by_cases h2 : e = []
      · subst h2; exact ⟨[1], rfl, by simp [val_cons], by decide⟩
      · have : e = [val e] := by
          refine val_inj he.1 (by rw [limbs_cons]; exact ⟨by rw [B_eq]; exact h64, by simp⟩) he.2 ?_ ?_
          · have := val_pos he.2 h2
            simp only [Norm, List.getLast?_singleton]
            intro h
            have := Option.some.inj h
            omega
          · simp [val_cons]
        obtain ⟨c, e1, e2, e3⟩ := upowU64_zero (val e) h64
        refine ⟨c, ?_, by rw [e2]; simp [val_cons], e3⟩
        rw [this]
        exact e1
    · exact ⟨[1], by decide +kernel, by simp [val_cons], by decide⟩

/-! ## C85: histories -/

/-- an expression over `BigUint` -/
inductive UExpr
  | zero
  | lit (n : Nat)
  | add (a b : UExpr)
  | sub (a b : UExpr)
  | mul (a b : UExpr)
  | shl (a r : UExpr)
  | pow (a e : UExpr)

/-- what the code computes -/
def UExpr.run : UExpr → Res (List Nat)
  | .zero => .ok []
  | .lit n => .ok (BigUint.fromU64 n)
  | .add a b => do return BigUint.add (← a.run) (← b.run)
  | .sub a b => do return BigUint.sub (← a.run) (← b.run)
  | .mul a b => do BigUint.mul (← a.run) (← b.run)
  | .shl a r => do BigUint.shl (← a.run) (← r.run)
  | .pow a e => do BigUint.pow (← a.run) (← e.run)

/-- what it should mean (subtraction stops at zero) -/
def UExpr.denote : UExpr → Nat
  | .zero => 0
  | .lit n => n
  | .add a b => a.denote + b.denote
  | .sub a b => a.denote - b.denote
  | .mul a b => a.denote * b.denote
  | .shl a r => a.denote * 2 ^ r.denote
  | .pow a e => a.denote ^ e.denote

/-- literals, shift amounts and exponents are below `2^64` (larger ones are reported as too large,
C12, C13), and there is no `0^0` -/
def UExpr.Ok : UExpr → Prop
  | .zero => True
  | .lit n => n < 2 ^ 64
  | .add a b => a.Ok ∧ b.Ok
  | .sub a b => a.Ok ∧ b.Ok
  | .mul a b => a.Ok ∧ b.Ok
  | .shl a r => a.Ok ∧ r.Ok ∧ r.denote < 2 ^ 64
  | .pow a e => a.Ok ∧ e.Ok ∧ e.denote < 2 ^ 64 ∧ ¬ (a.denote = 0 ∧ e.denote = 0)

theorem uexpr_run (e : UExpr) (h : e.Ok) :
    ∃ c, e.run = .ok c ∧ val c = e.denote ∧ UWeak c := by
  induction e with
  | zero => exact ⟨[], rfl, rfl, .inl (by decide)⟩
  | lit n => exact ⟨_, rfl, uweak_fromU64 h⟩
  | add a b iha ihb =>
    obtain ⟨x, ex, vx, cx⟩ := iha h.1
    obtain ⟨y, ey, vy, cy⟩ := ihb h.2
    have := uweak_add cx cy
    exact ⟨_, by simp only [UExpr.run, ex, ey]; rfl, by rw [this.1, vx, vy]; rfl, this.2⟩
  | sub a b iha ihb =>
    obtain ⟨x, ex, vx, cx⟩ := iha h.1
    obtain ⟨y, ey, vy, cy⟩ := ihb h.2
    have := uweak_sub cx cy
    exact ⟨_, by simp only [UExpr.run, ex, ey]; rfl, by rw [this.1, vx, vy]; rfl, .inl this.2⟩
  | mul a b iha ihb =>
    obtain ⟨x, ex, vx, cx⟩ := iha h.1
    obtain ⟨y, ey, vy, cy⟩ := ihb h.2
    obtain ⟨z, ez, vz, cz⟩ := uweak_mul cx cy
    refine ⟨z, ?_, by rw [vz, vx, vy]; rfl, .inl cz⟩
    simp only [UExpr.run, ex, ey]; exact ez
  | shl a b iha ihb =>
    obtain ⟨x, ex, vx, cx⟩ := iha h.1
    obtain ⟨y, ey, vy, cy⟩ := ihb h.2.1
    obtain ⟨z, ez, vz, cz⟩ := uweak_shl cx cy (by rw [vy]; exact h.2.2)
    refine ⟨z, ?_, by rw [vz, vx, vy]; rfl, cz⟩
    simp only [UExpr.run, ex, ey]; exact ez
  | pow a b iha ihb =>
    obtain ⟨x, ex, vx, cx⟩ := iha h.1
    obtain ⟨y, ey, vy, cy⟩ := ihb h.2.1
    have h0 : ¬ (x = [] ∧ y = [0]) := by
      rintro ⟨rfl, rfl⟩
      exact h.2.2.2 ⟨by rw [← vx]; rfl, by rw [← vy]; rfl⟩
    obtain ⟨z, ez, vz, cz⟩ := uweak_pow cx cy (by rw [vy]; exact h.2.2.1) h0
    refine ⟨z, ?_, by rw [vz, vx, vy]; rfl, .inl cz⟩
    simp only [UExpr.run, ex, ey]; exact ez

/-- Every arithmetic expression over `u64` numbers has its exact value, whatever the form of the
zeros in it. -/
theorem C85_uint_histories_partial (e : UExpr) (h : e.Ok) :
    ∃ c, e.run = .ok c ∧ val c = e.denote := by
  obtain ⟨c, e1, e2, -⟩ := uexpr_run e h
  exact ⟨c, e1, e2⟩

/-- What is missing is `0^0`: its value depends on how the two zeros were made.  It is 0 exactly for
the base `ZERO` and the exponent `from_u64(0)`, and 1 for the other forms. -/
theorem C85_zero_to_zero_violated :
    (UExpr.pow .zero (.lit 0)).run = .ok [] ∧ (UExpr.pow .zero .zero).run = .ok [1] ∧
    (UExpr.pow (.lit 0) (.lit 0)).run = .ok [1] ∧ (UExpr.pow (.lit 0) .zero).run = .ok [1] ∧
    (UExpr.pow .zero (.lit 0)).denote = 1 := by decide +kernel

/-- `(2^(3 << 2) - from_u64(0)) * 0^5 + (0 << 70)` -/
example : ∃ e : UExpr, e.Ok ∧ e.denote = 2 ^ 12 ∧ e.run = .ok [2 ^ 12] := by
  refine ⟨.add (.sub (.pow (.lit 2) (.shl (.lit 3) (.lit 2))) (.lit 0))
    (.add (.pow (.lit 0) (.lit 5)) (.shl (.lit 0) (.lit 70))), ?_, ?_, ?_⟩
  · simp [UExpr.Ok, UExpr.denote]
  · decide +kernel
  · decide +kernel

/-- an expression over `BigInt` -/
inductive IExpr
  | zero
  | lit (n : Int)
  | litU (n : Nat)
  | uint (e : UExpr)
  | add (a b : IExpr)
  | sub (a b : IExpr)
  | mul (a b : IExpr)
  | neg (a : IExpr)
  | abs (a : IExpr)

/-- what the code computes -/
def IExpr.run : IExpr → Res BInt
  | .zero => .ok BInt.zero
  | .lit n => BInt.fromI64 n
  | .litU n => .ok (BInt.fromU64 n)
  | .uint e => do return BInt.ofUint (← e.run)
  | .add a b => do return BInt.add (← a.run) (← b.run)
  | .sub a b => do return BInt.sub (← a.run) (← b.run)
  | .mul a b => do BInt.mul (← a.run) (← b.run)
  | .neg a => do return BInt.neg (← a.run)
  | .abs a => do return BInt.abs (← a.run)

/-- what it should mean -/
def IExpr.denote : IExpr → Int
  | .zero => 0
  | .lit n => n
  | .litU n => n
  | .uint e => e.denote
  | .add a b => a.denote + b.denote
  | .sub a b => a.denote - b.denote
  | .mul a b => a.denote * b.denote
  | .neg a => -a.denote
  | .abs a => |a.denote|

/-- literals are `i64` other than `i64::MIN` (`C68_from_i64_min_violated`), or `u64` -/
def IExpr.Ok : IExpr → Prop
  | .zero => True
  | .lit n => -2 ^ 63 < n ∧ n < 2 ^ 63
  | .litU n => n < 2 ^ 64
  | .uint e => e.Ok
  | .add a b => a.Ok ∧ b.Ok
  | .sub a b => a.Ok ∧ b.Ok
  | .mul a b => a.Ok ∧ b.Ok
  | .neg a => a.Ok
  | .abs a => a.Ok

theorem iweak_neg {a : BInt} (ha : UWeak a.value) :
    (BInt.neg a).toInt = -a.toInt ∧ UWeak (BInt.neg a).value := by
  unfold BInt.neg BInt.isZero BigUint.isZero
  split
  · rename_i h
    have : a.value = [] := by simpa using h
    refine ⟨?_, ha⟩
    unfold BInt.toInt; rw [this]; cases a.sign <;> rfl
  · refine ⟨?_, ha⟩
    unfold BInt.toInt; dsimp only
    cases a.sign <;> simp [Sign.opposite, signed]

theorem iweak_add {a b : BInt} (ha : UWeak a.value) (hb : UWeak b.value) :
    (BInt.add a b).toInt = a.toInt + b.toInt ∧ UWeak (BInt.add a b).value := by
  unfold BInt.add
  split
  · rename_i hs
    have := uweak_add ha hb
    refine ⟨?_, this.2⟩
    unfold BInt.toInt; dsimp only
    rw [this.1, ← hs]; cases a.sign <;> simp [signed]; ring
  · rename_i hs
    have s1 := uweak_sub ha hb
    have s2 := uweak_sub hb ha
    -- what the comparison says about the values
    have hc : (BigUint.cmp a.value b.value = .eq → val a.value = val b.value) ∧
        (BigUint.cmp a.value b.value = .gt → val b.value ≤ val a.value) ∧
        (BigUint.cmp a.value b.value = .lt → val a.value ≤ val b.value) := by
      by_cases h : val a.value ≠ 0 ∨ val b.value ≠ 0
      · unfold BigUint.cmp
        rw [uweak_cmp ha hb h]
        refine ⟨fun h => Nat.compare_eq_eq.1 h, fun h => (Nat.compare_eq_gt.1 h).le,
          fun h => (Nat.compare_eq_lt.1 h).le⟩
      · simp only [not_or, not_not] at h
        rw [h.1, h.2]; simp
    cases hcmp : BigUint.cmp a.value b.value <;> dsimp only
    · have := hc.2.2 hcmp
      refine ⟨?_, .inl s2.2⟩
      unfold BInt.toInt; dsimp only; rw [s2.1]
      cases ea : a.sign <;> cases eb : b.sign <;> simp [ea, eb] at hs <;> simp only [signed] <;> omega
    · have := hc.1 hcmp
      refine ⟨?_, .inl (by decide)⟩
      unfold BInt.toInt BInt.zero
      cases ea : a.sign <;> cases eb : b.sign <;> simp [ea, eb] at hs <;>
        simp only [signed, val_nil] <;> omega
    · have := hc.2.1 hcmp
      refine ⟨?_, .inl s1.2⟩
      unfold BInt.toInt; dsimp only; rw [s1.1]
      cases ea : a.sign <;> cases eb : b.sign <;> simp [ea, eb] at hs <;> simp only [signed] <;> omega

theorem iweak_mul {a b : BInt} (ha : UWeak a.value) (hb : UWeak b.value) :
    ∃ c, BInt.mul a b = .ok c ∧ c.toInt = a.toInt * b.toInt ∧ UWeak c.value := by
  unfold BInt.mul
  split
  · rename_i h
    refine ⟨_, rfl, ?_, .inl (by decide)⟩
    have : a.value = [] ∨ b.value = [] := by simpa [BInt.isZero, BigUint.isZero] using h
    unfold BInt.toInt
    rcases this with h | h <;> rw [h]
    · cases a.sign <;> simp [signed, BInt.zero]
    · cases b.sign <;> simp [signed, BInt.zero]
  · obtain ⟨v, e, hv, hc⟩ := uweak_mul ha hb
    rw [e]
    refine ⟨_, rfl, ?_, ?_⟩
    · unfold BInt.normalize; dsimp only
      rw [normalize_of_norm hc.2]
      unfold BInt.toInt
      split
      · rename_i h
        have h0 : v = [] := by simpa using h
        subst h0
        have hz : (val a.value : Int) * val b.value = 0 := by rw [← Nat.cast_mul, ← hv]; simp
        cases a.sign <;> cases b.sign <;> simp only [signed, val_nil] <;>
          simp only [neg_mul, mul_neg, neg_neg, hz] <;> simp
      · dsimp only
        rw [hv]
        cases a.sign <;> cases b.sign <;> simp [signed]
    · unfold BInt.normalize; dsimp only
      rw [normalize_of_norm hc.2]
      split <;> exact .inl hc

theorem iexpr_run (e : IExpr) (h : e.Ok) :
    ∃ c, e.run = .ok c ∧ c.toInt = e.denote ∧ UWeak c.value := by
  induction e with
  | zero => exact ⟨_, rfl, rfl, .inl (by decide)⟩
  | lit n =>
    obtain ⟨c, e1, e2, -⟩ := C68_from_i64_partial n h.1 h.2
    refine ⟨c, e1, e2, ?_⟩
    have h1 := h.1
    have h2 := h.2
    unfold BInt.fromI64 at e1
    by_cases hn : n < 0
    · simp only [hn, if_true, Sign.toInt] at e1
      rw [if_neg (by omega)] at e1
      cases e1
      exact (uweak_fromU64 (n := (n * -1).toNat) (by omega)).2
    · simp only [hn, if_false, Sign.toInt] at e1
      rw [if_neg (by omega)] at e1
      cases e1
      exact (uweak_fromU64 (n := (n * 1).toNat) (by omega)).2
  | litU n => exact ⟨_, rfl, (C68_int_from_u64_partial n h).1, (uweak_fromU64 h).2⟩
  | uint u =>
    obtain ⟨c, e1, e2, e3⟩ := uexpr_run u h
    refine ⟨BInt.ofUint c, by simp only [IExpr.run, e1]; rfl, ?_, e3⟩
    simp only [BInt.toInt, BInt.ofUint, signed, e2, IExpr.denote]
  | add a b iha ihb =>
    obtain ⟨x, ex, vx, cx⟩ := iha h.1
    obtain ⟨y, ey, vy, cy⟩ := ihb h.2
    have := iweak_add cx cy
    exact ⟨_, by simp only [IExpr.run, ex, ey]; rfl, by rw [this.1, vx, vy]; rfl, this.2⟩
  | sub a b iha ihb =>
    obtain ⟨x, ex, vx, cx⟩ := iha h.1
    obtain ⟨y, ey, vy, cy⟩ := ihb h.2
    have hn := iweak_neg cy
    have := iweak_add cx hn.2
    refine ⟨BInt.sub x y, by simp only [IExpr.run, ex, ey]; rfl, ?_, this.2⟩
    unfold BInt.sub
    rw [this.1, hn.1, vx, vy]; simp only [IExpr.denote]; ring
  | mul a b iha ihb =>
    obtain ⟨x, ex, vx, cx⟩ := iha h.1
    obtain ⟨y, ey, vy, cy⟩ := ihb h.2
    obtain ⟨z, ez, vz, cz⟩ := iweak_mul cx cy
    refine ⟨z, ?_, by rw [vz, vx, vy]; rfl, cz⟩
    simp only [IExpr.run, ex, ey]; exact ez
  | neg a iha =>
    obtain ⟨x, ex, vx, cx⟩ := iha h
    have := iweak_neg cx
    exact ⟨_, by simp only [IExpr.run, ex]; rfl, by rw [this.1, vx]; rfl, this.2⟩
  | abs a iha =>
    obtain ⟨x, ex, vx, cx⟩ := iha h
    refine ⟨BInt.abs x, by simp only [IExpr.run, ex]; rfl, ?_, ?_⟩
    · simp only [IExpr.denote, ← vx]
      unfold BInt.abs BInt.toInt
      cases es : x.sign <;> simp [signed, es]
    · unfold BInt.abs; cases x.sign <;> exact cx

/-- Every expression over machine integers has its exact value, although zero is met as `[]` and
`[0]` and with either sign. -/
theorem C85_int_histories_partial (e : IExpr) (h : e.Ok) :
    ∃ c, e.run = .ok c ∧ c.toInt = e.denote := by
  obtain ⟨c, e1, e2, -⟩ := iexpr_run e h
  exact ⟨c, e1, e2⟩

/-- the expression `-0 + (3 - 5) * 7 + |-(0 - 2)|` over `BigInt` -/
example : ∃ e : IExpr, e.Ok ∧ e.denote = -12 ∧
    e.run = .ok ⟨.neg, [12]⟩ := by
  refine ⟨.add (.add (.neg (.lit 0)) (.mul (.sub (.lit 3) (.litU 5)) (.uint (.lit 7))))
    (.abs (.neg (.sub .zero (.lit 2)))), ?_, ?_, ?_⟩
  · simp [IExpr.Ok, UExpr.Ok]
  · decide
  · decide +kernel

/-- The order of what histories compute: it should be the order of the values. -/
def HistoryOrder : Prop :=
  ∀ e f : UExpr, e.Ok → f.Ok → ∀ x y, e.run = .ok x → f.run = .ok y →
    BigUint.cmp x y = compare e.denote f.denote

/-- `from_u64(0)` is greater than `ZERO`, and so is `from_u64(0) + from_u64(0)`. -/
theorem C85_order_violated : ¬ HistoryOrder := by
  intro h
  have := h (.lit 0) .zero (by simp [UExpr.Ok]) trivial [0] [] rfl rfl
  revert this; decide

/-- Proved part: the order is right unless both values are zero. -/
theorem C85_order_partial (e f : UExpr) (he : e.Ok) (hf : f.Ok) (x y : List Nat)
    (hx : e.run = .ok x) (hy : f.run = .ok y) (h : e.denote ≠ 0 ∨ f.denote ≠ 0) :
    BigUint.cmp x y = compare e.denote f.denote := by
  obtain ⟨c, e1, e2, e3⟩ := uexpr_run e he
  obtain ⟨d, f1, f2, f3⟩ := uexpr_run f hf
  rw [hx] at e1; rw [hy] at f1
  cases e1; cases f1
  rw [← e2, ← f2] at h ⊢
  exact uweak_cmp e3 f3 h

/-- The same for `BigInt`: numbers other than zero are ordered as their values, except that two
negative ones are ordered the other way round (C15). -/
theorem C85_int_order_partial (e f : IExpr) (he : e.Ok) (hf : f.Ok) (x y : BInt)
    (hx : e.run = .ok x) (hy : f.run = .ok y) (h1 : e.denote ≠ 0) (h2 : f.denote ≠ 0) :
    BInt.cmp x y = if e.denote < 0 ∧ f.denote < 0 then compare f.denote e.denote
      else compare e.denote f.denote := by
  have canon : ∀ (g : IExpr) (z : BInt), g.Ok → g.run = .ok z → g.denote ≠ 0 →
      z.Canon ∧ z.toInt = g.denote := by
    intro g z hg hz h0
    obtain ⟨c, e1, e2, e3⟩ := iexpr_run g hg
    rw [hz] at e1
    cases e1
    refine ⟨?_, e2⟩
    have hne : val z.value ≠ 0 := by
      intro h
      apply h0
      rw [← e2]
      unfold BInt.toInt
      rw [h]; cases z.sign <;> rfl
    rcases e3 with e3 | e3
    · refine ⟨e3, ?_⟩
      intro h
      rw [h] at hne
      exact absurd rfl hne
    · rw [e3] at hne
      exact absurd rfl hne
  obtain ⟨cx, vx⟩ := canon e x he hx h1
  obtain ⟨cy, vy⟩ := canon f y hf hy h2
  rw [C15_cmp_partial x y cx cy, vx, vy]

/-! ## C84: zero divisors -/

/-- The full property: no history divides by zero without a panic. -/
def ZeroRefused : Prop :=
  ∀ a b : UExpr, a.Ok → b.Ok → b.denote = 0 → ∀ x y, a.run = .ok x → b.run = .ok y →
    ∀ fuel q, 0 < fuel → BigUint.divMod fuel x y ≠ .ok q

/-- `from_u64(0) / from_u64(0)` is one, `ZERO / from_u64(0)` is zero; the same for `BigInt`. -/
theorem C84_zero_over_zero (fuel : Nat) :
    BigUint.divMod fuel (BigUint.fromU64 0) (BigUint.fromU64 0) = .ok ([1], []) ∧
    BigUint.divMod fuel [] (BigUint.fromU64 0) = .ok ([], []) ∧
    BInt.div fuel (BInt.fromU64 0) (BInt.fromU64 0) = .ok ⟨.pos, [1]⟩ ∧
    BInt.div fuel BInt.zero (BInt.fromU64 0) = .ok ⟨.pos, []⟩ := ⟨rfl, rfl, rfl, rfl⟩

theorem C84_violated : ¬ ZeroRefused := fun h =>
  h (.lit 0) (.lit 0) (by simp [UExpr.Ok]) (by simp [UExpr.Ok]) rfl _ _ rfl rfl 1 _ (by decide)
    (C84_zero_over_zero 1).1

/-- the quotient digit cannot be estimated -/
theorem udivLoop_zero {a : List Nat} (ha : UCanon a) (h0 : a ≠ []) (f : Nat) (r : List Nat) :
    BigUint.divLoop [0] (f + 1) a r = .error (.panic .divZero) := by
  unfold BigUint.divLoop BigUint.cmp
  rw [cmpVec_zero_right ha h0]
  rcases List.eq_nil_or_concat a with rfl | ⟨lo, u, rfl⟩
  · exact absurd rfl h0
  rw [List.concat_eq_append]
  unfold BigUint.divStep JsBig.qEstimate
  have e1 : (lo ++ [u]).length = lo.length + 1 := by simp
  rw [e1, subU_ok (by omega)]
  simp only [bind, Except.bind, Nat.add_sub_cancel]
  rw [idx_append_last]
  simp [subU, idx, divU]

theorem udiv_zero_iff {x y : List Nat} (e3 : UWeak x) (f3 : UWeak y) (h0 : val y = 0)
    (fuel : Nat) (hf : 0 < fuel) :
    ((∃ p, BigUint.divMod fuel x y = .error (.panic p)) ↔ y = [] ∨ val x ≠ 0) ∧
    ((∃ p, BigUint.div fuel x y = .error (.panic p)) ↔ y = [] ∨ val x ≠ 0) := by
  have hy0 : y = [] ∨ y = [0] := by
    rcases f3 with f3 | f3
    · exact .inl ((val_eq_zero_iff f3.2).1 (by omega))
    · exact .inr f3
  obtain ⟨f, rfl⟩ : ∃ f, fuel = f + 1 := ⟨fuel - 1, by omega⟩
  rcases hy0 with rfl | rfl
  · simp [BigUint.divMod, BigUint.div, BigUint.isZero]
  by_cases hz : val x = 0
  · have hx0 : x = [] ∨ x = [0] := by
      rcases e3 with e3 | e3
      · exact .inl ((val_eq_zero_iff e3.2).1 (by omega))
      · exact .inr e3
    rcases hx0 with rfl | rfl
    · have h1 : BigUint.divMod (f + 1) [] [0] = .ok ([], []) := rfl
      have h2 : BigUint.div (f + 1) [] [0] = .ok [] := rfl
      rw [h1, h2]; simp
    · have h1 : BigUint.divMod (f + 1) [0] [0] = .ok ([1], []) := rfl
      have h2 : BigUint.div (f + 1) [0] [0] = .ok [1] := rfl
      rw [h1, h2]; simp [hz]
  · have hx0 : UCanon x ∧ x ≠ [] := by
      rcases e3 with e3 | rfl
      · refine ⟨e3, ?_⟩
        rintro rfl
        exact hz rfl
      · exact absurd rfl hz
    have h1 : BigUint.divMod (f + 1) x [0] = .error (.panic .divZero) := by
      unfold BigUint.divMod BigUint.cmp
      rw [cmpVec_zero_right hx0.1 hx0.2]
      exact udivLoop_zero hx0.1 hx0.2 f []
    have h2 : BigUint.div (f + 1) x [0] = .error (.panic .divZero) := by
      unfold BigUint.div
      rw [h1]; rfl
    rw [h1, h2]; simp [hz]

/-- A zero divisor is refused exactly if it is `ZERO` or the dividend is not zero: otherwise the
division panics when the quotient digit is estimated. -/
theorem C84_zero_partial (a b : UExpr) (ha : a.Ok) (hb : b.Ok) (h0 : b.denote = 0)
    (x y : List Nat) (hx : a.run = .ok x) (hy : b.run = .ok y) (fuel : Nat) (hf : 0 < fuel) :
    ((∃ p, BigUint.divMod fuel x y = .error (.panic p)) ↔ y = [] ∨ a.denote ≠ 0) ∧
    ((∃ p, BigUint.div fuel x y = .error (.panic p)) ↔ y = [] ∨ a.denote ≠ 0) := by
  obtain ⟨c, e1, e2, e3⟩ := uexpr_run a ha
  obtain ⟨d, f1, f2, f3⟩ := uexpr_run b hb
  rw [hx] at e1; rw [hy] at f1
  cases e1; cases f1
  rw [← e2]
  exact udiv_zero_iff e3 f3 (by rw [f2, h0]) fuel hf

/-- `(5 - 5) * 3` is `ZERO` and is refused for every dividend; `from_u64(0)` is refused for 7. -/
example : (UExpr.mul (.sub (.lit 5) (.lit 5)) (.lit 3)).run = .ok [] ∧
    BigUint.divMod 9 [7] [] = .error (.panic .explicit) ∧
    BigUint.divMod 9 [7] (BigUint.fromU64 0) = .error (.panic .divZero) := by decide +kernel

/-- The same for `BigInt`, whose zeros have signs as well. -/
theorem C84_int_zero_partial (a b : IExpr) (ha : a.Ok) (hb : b.Ok) (h0 : b.denote = 0)
    (x y : BInt) (hx : a.run = .ok x) (hy : b.run = .ok y) (fuel : Nat) (hf : 0 < fuel) :
    ((∃ p, BInt.divMod fuel x y = .error (.panic p)) ↔ y.value = [] ∨ a.denote ≠ 0) ∧
    ((∃ p, BInt.div fuel x y = .error (.panic p)) ↔ y.value = [] ∨ a.denote ≠ 0) := by
  obtain ⟨c, e1, e2, e3⟩ := iexpr_run a ha
  obtain ⟨d, f1, f2, f3⟩ := iexpr_run b hb
  rw [hx] at e1; rw [hy] at f1
  cases e1; cases f1
  have habs : ∀ z : BInt, z.toInt = 0 ↔ val z.value = 0 := by
    intro z
    unfold BInt.toInt
    cases z.sign <;> simp [signed]
  have hyv : val y.value = 0 := (habs y).1 (by rw [f2, h0])
  have key := udiv_zero_iff e3 f3 hyv fuel hf
  have hz : val x.value ≠ 0 ↔ a.denote ≠ 0 := by rw [← e2]; exact not_congr (habs x).symm
  by_cases hy0 : y.value = []
  · simp [BInt.divMod, BInt.div, BInt.isZero, BigUint.isZero, hy0]
  have hyz : y.isZero = false := by simpa [BInt.isZero, BigUint.isZero] using hy0
  unfold BInt.divMod BInt.div
  rw [hyz]
  simp only [Bool.false_eq_true, if_false, hy0, false_or] at key ⊢
  rw [← hz, ← key.1]
  cases e : BigUint.divMod fuel x.value y.value with
  | error q => simp [bind, Except.bind]
  | ok q => simp [bind, Except.bind, pure, Except.pure]

/-- `-(from_u64(0))` is accepted as a divisor of 0 and refused for -7 -/
example : (IExpr.neg (.litU 0)).run = .ok ⟨.neg, [0]⟩ ∧
    BInt.divMod 9 ⟨.neg, [0]⟩ ⟨.neg, [0]⟩ = .ok (⟨.pos, [1]⟩, ⟨.pos, []⟩) ∧
    BInt.divMod 9 ⟨.neg, [7]⟩ ⟨.neg, [0]⟩ = .error (.panic .divZero) := by decide +kernel

/-- JS bigints have one zero only: every history refuses it. -/
theorem C84_js (a b : BigExpr) (ha : a.Ok) (hb : b.Ok) (h0 : b.denote = 0) (fuel : Nat) :
    ∃ x y, a.run = .ok x ∧ b.run = .ok y ∧ JsBig.divMod fuel x y = .error (.panic .explicit) := by
  obtain ⟨x, e1, -, -⟩ := C03_histories_canonical a ha
  obtain ⟨y, f1, f2, f3⟩ := C03_histories_canonical b hb
  exact ⟨x, y, e1, f1, C05_div_zero_panics x y f3 (by rw [f2, h0]) fuel⟩

end Nanvm
