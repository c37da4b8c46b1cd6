import Verif.Props.JsBigint
import Mathlib.Data.Int.Bitwise
/-!
# Property theorem C09: bigint `&`, `|`, `^`
-/
namespace Nanvm
open JsBig

/-- bit `i` of an integer in infinite two's complement -/
def ibit (x : Int) (i : Nat) : Bool := x / 2 ^ i % 2 == 1

theorem ibit_eq (x : Int) (i : Nat) : ibit x i = Int.testBit x i := by
  unfold ibit
  cases x with
  | ofNat n =>
    simp only [Int.testBit, Nat.testBit_eq_decide_div_mod_eq]
    have : (Int.ofNat n / 2 ^ i % 2 : Int) = ((n / 2 ^ i % 2 : Nat) : Int) := by push_cast; rfl
    rw [this]
    generalize n / 2 ^ i % 2 = m
    by_cases h : m = 1
    · subst h; rfl
    · rw [decide_eq_false h]
      rw [beq_eq_false_iff_ne]; omega
  | negSucc n =>
    simp only [Int.testBit, Nat.testBit_eq_decide_div_mod_eq]
    have hp : (0 : Int) < 2 ^ i := by positivity
    have : (Int.negSucc n / 2 ^ i : Int) = -((n / 2 ^ i : Nat) : Int) - 1 := by
      rw [Int.negSucc_ediv _ hp]
      have h2 : (n : Int).ediv (2 ^ i) = ((n / 2 ^ i : Nat) : Int) := by push_cast; rfl
      have h3 : (n : Int).ediv (2 ^ i) = (n : Int) / 2 ^ i := rfl
      omega
    rw [this]
    generalize n / 2 ^ i = m
    by_cases h : m % 2 = 1
    · rw [decide_eq_true h]
      have : ¬ ((-(m : Int) - 1) % 2 = 1) := by omega
      simpa using this
    · rw [decide_eq_false h]
      have : ((-(m : Int) - 1) % 2 = 1) := by omega
      simpa using this

/-- The full property for an operation `op` with bit function `g`. -/
def BitwiseCorrect (op : JsBig → JsBig → JsBig) (g : Bool → Bool → Bool) : Prop :=
  ∀ a b : JsBig, a.Canon → b.Canon →
    ∀ i, ibit (op a b).toInt i = g (ibit a.toInt i) (ibit b.toInt i)

/-- `-(2^64-1) & -(2^64-2)` is `-2^64`; the code answers −1. -/
theorem C09_and_violated : ¬ BitwiseCorrect JsBig.and Bool.and := by
  intro h
  have := h (new .neg [B - 1]) (new .neg [B - 2]) (by decide +kernel) (by decide +kernel) 0
  revert this; decide +kernel

/-- `-(2^128-1) | 0` should be itself; the top limb of its complement is zero and lost. -/
theorem C09_or_violated : ¬ BitwiseCorrect JsBig.or Bool.or := by
  intro h
  have := h (new .neg [B - 1, B - 1]) zero (by decide +kernel) (by decide +kernel) 64
  revert this; decide +kernel

/-- `-1 ^ (2^64-1)` is `-2^64`; the code answers −1. -/
theorem C09_xor_violated : ¬ BitwiseCorrect JsBig.xor Bool.xor := by
  intro h
  have := h (new .neg [1]) (new .pos [B - 1]) (by decide +kernel) (by decide +kernel) 0
  revert this; decide +kernel

/-- the largest number of limbs of the operands -/
def maxLimbs (a b : JsBig) : Nat := max a.items.length b.items.length

theorem bitop_ok (a b : JsBig) (ha : a.Canon) (hb : b.Canon)
    (f : Nat → Nat → Nat) (g : Bool → Bool → Bool)
    (hf : ∀ a b i, (f a b).testBit i = g (a.testBit i) (b.testBit i))
    (hg : g false false = false) (hcomm : ∀ x y, g x y = g y x) (z : Int)
    (hz : ∀ i, Int.testBit z i = g (Int.testBit a.toInt i) (Int.testBit b.toInt i))
    (hsz : decide (z < 0) = g (decide (a.toInt < 0)) (decide (b.toInt < 0)))
    (s : Sign) (hs : s = .neg ↔ z < 0)
    (hok : 0 ≤ z ∨ (2 : Int) ^ (64 * (maxLimbs a b - 1)) - 2 ^ (64 * maxLimbs a b) ≤ z) :
    (fromTwos ⟨s, normalizeVec ((twosZip (toTwos a) (toTwos b)).map fun p => f p.1 p.2)⟩).toInt = z ∧
    (fromTwos ⟨s, normalizeVec ((twosZip (toTwos a) (toTwos b)).map fun p => f p.1 p.2)⟩).Canon := by
  obtain ⟨la, lena, ra, sa⟩ := toTwos_rep ha
  obtain ⟨lb, lenb, rb, sb⟩ := toTwos_rep hb
  rw [← lena] at ra
  rw [← lenb] at rb
  have hNdef : maxLimbs a b = max (toTwos a).vec.length (toTwos b).vec.length := by
    rw [lena, lenb]; rfl
  set N := maxLimbs a b with hN
  clear_value N
  obtain ⟨h1, h2, hlen, hrep⟩ := twosZip_spec la lb ra rb sa sb hNdef
  obtain ⟨hv, hl⟩ := val_map_bitwise f g hf hg _ h1 h2
  set vec := (twosZip (toTwos a) (toTwos b)).map fun p => f p.1 p.2 with hvec
  have hvl : vec.length = N := by rw [hvec, List.length_map, hlen]
  have hr : Rep N (val vec) z := by
    rw [hv]
    rcases hrep with ⟨r1, r2⟩ | ⟨r1, r2⟩
    · exact rep_bitwise f g hf hg r1 r2 hz hsz
    · exact rep_bitwise f g hf hg r1 r2 (fun i => by rw [hz, hcomm]) (by rw [hsz, hcomm])
  have hne : z < 0 → vec ≠ [] := by
    intro hz0 h0
    rw [h0] at hvl
    simp only [List.length_nil] at hvl
    have : N = 0 := hvl.symm
    have l1 : (toTwos a).vec.length = 0 := by omega
    have l2 : (toTwos b).vec.length = 0 := by omega
    rw [lena] at l1; rw [lenb] at l2
    have e1 : a.toInt = 0 := by
      rw [toInt_eq_signed, List.length_eq_zero_iff.1 l1]; cases a.sign <;> rfl
    have e2 : b.toInt = 0 := by
      rw [toInt_eq_signed, List.length_eq_zero_iff.1 l2]; cases b.sign <;> rfl
    rw [e1, e2] at hsz
    simp [hz0, hg] at hsz
  refine fromTwos_toInt hl (by rw [hvl]; exact hr) hs ?_ hne
  rcases hok with h | h
  · exact Or.inl h
  · by_cases h0 : 0 ≤ z
    · exact Or.inl h0
    · right
      have hN0 : 0 < N := by
        rw [← hvl]; exact List.length_pos_iff.2 (hne (by omega))
      have hrn := rep_neg (N := N) (m := B ^ N - val vec) (by have := hr.lt; omega) (by omega)
      have hlt := hr.lt
      rw [show B ^ N - (B ^ N - val vec) = val vec by omega] at hrn
      have hzv : z = -((B ^ N - val vec : Nat) : Int) :=
        rep_ext hr hrn (by constructor <;> intro <;> omega)
      have hge : B ^ (N - 1) ≤ val vec := by
        have e1 : ((B ^ (N - 1) : Nat) : Int) = 2 ^ (64 * (N - 1)) := by rw [Bpow]; push_cast; rfl
        have e2 : ((B ^ N : Nat) : Int) = 2 ^ (64 * N) := by rw [Bpow]; push_cast; rfl
        rw [← e1, ← e2] at h
        omega
      exact norm_of_ge hl (fun _ => by rw [hvl]; exact hge)

/-- the number of 64-bit limbs of a positive number -/
def limbCount (w : Nat) : Nat := w.log2 / 64 + 1

/-- What the code answers instead of the integer `z`, for operands of at most `N` limbs.  A negative
`z` is written as `w = 2^(64 N) + z`; the zero limbs at the top of `w` are dropped and the rest is
read as a negative number of its own length. -/
def bitResult (N : Nat) (z : Int) : Int :=
  if 0 ≤ z then z
  else
    let w := (2 ^ (64 * N) + z).toNat
    if w = 0 then -1 else w - 2 ^ (64 * limbCount w)

theorem bitop_all (a b : JsBig) (ha : a.Canon) (hb : b.Canon)
    (f : Nat → Nat → Nat) (g : Bool → Bool → Bool)
    (hf : ∀ a b i, (f a b).testBit i = g (a.testBit i) (b.testBit i))
    (hg : g false false = false) (hcomm : ∀ x y, g x y = g y x) (z : Int)
    (hz : ∀ i, Int.testBit z i = g (Int.testBit a.toInt i) (Int.testBit b.toInt i))
    (hsz : decide (z < 0) = g (decide (a.toInt < 0)) (decide (b.toInt < 0)))
    (s : Sign) (hs : s = .neg ↔ z < 0) :
    (fromTwos ⟨s, normalizeVec ((twosZip (toTwos a) (toTwos b)).map fun p => f p.1 p.2)⟩).toInt
      = bitResult (maxLimbs a b) z ∧
    (fromTwos ⟨s, normalizeVec ((twosZip (toTwos a) (toTwos b)).map fun p => f p.1 p.2)⟩).Canon ∧
    -(2 : Int) ^ (64 * maxLimbs a b) ≤ z := by
  obtain ⟨la, lena, ra, sa⟩ := toTwos_rep ha
  obtain ⟨lb, lenb, rb, sb⟩ := toTwos_rep hb
  rw [← lena] at ra
  rw [← lenb] at rb
  have hNdef : maxLimbs a b = max (toTwos a).vec.length (toTwos b).vec.length := by
    rw [lena, lenb]; rfl
  set N := maxLimbs a b with hN
  clear_value N
  obtain ⟨h1, h2, hlen, hrep⟩ := twosZip_spec la lb ra rb sa sb hNdef
  obtain ⟨hv, hl⟩ := val_map_bitwise f g hf hg _ h1 h2
  set vec := (twosZip (toTwos a) (toTwos b)).map fun p => f p.1 p.2 with hvec
  have hvl : vec.length = N := by rw [hvec, List.length_map, hlen]
  have hr : Rep N (val vec) z := by
    rw [hv]
    rcases hrep with ⟨r1, r2⟩ | ⟨r1, r2⟩
    · exact rep_bitwise f g hf hg r1 r2 hz hsz
    · exact rep_bitwise f g hf hg r1 r2 (fun i => by rw [hz, hcomm]) (by rw [hsz, hcomm])
  clear_value vec
  by_cases h0 : 0 ≤ z
  · have := fromTwos_toInt hl (by rw [hvl]; exact hr) hs (Or.inl h0) (fun h => by omega)
    unfold bitResult
    rw [if_pos h0]
    refine ⟨this.1, this.2, ?_⟩
    have : (0 : Int) < 2 ^ (64 * N) := by positivity
    omega
  · have hneg : z < 0 := by omega
    have hlt := hr.lt
    have hrn := rep_neg (N := N) (m := B ^ N - val vec) (by omega) (by omega)
    rw [show B ^ N - (B ^ N - val vec) = val vec by omega] at hrn
    have hzv : z = -((B ^ N - val vec : Nat) : Int) :=
      rep_ext hr hrn (by constructor <;> intro <;> omega)
    have e2 : ((B ^ N : Nat) : Int) = 2 ^ (64 * N) := by rw [Bpow]; push_cast; rfl
    have hw : (2 ^ (64 * N) + z).toNat = val vec := by
      rw [← e2]; generalize B ^ N = X at *; omega
    have hsg := hs.2 hneg
    subst hsg
    unfold bitResult
    rw [if_neg h0, hw]
    have hbound : -(2 : Int) ^ (64 * N) ≤ z := by
      rw [← e2]; generalize B ^ N = X at *; omega
    rw [← and_assoc]
    refine ⟨?_, hbound⟩
    by_cases hv0 : val vec = 0
    · have hnil : normalizeVec vec = [] := by
        by_contra hne
        have := val_pos (norm_normalize vec) hne
        rw [val_normalize] at this
        omega
      rw [hnil]
      simp only [hv0, if_true]
      decide
    · have hln : Limbs (normalizeVec vec) := limbs_normalize hl
      have hne : normalizeVec vec ≠ [] := by
        intro h; have := val_normalize vec; rw [h] at this; exact hv0 this.symm
      have hub := val_lt hln
      have hlb := norm_ge (norm_normalize vec) hne
      have hpos : 0 < (normalizeVec vec).length := List.length_pos_iff.2 hne
      have hidem : normalizeVec (normalizeVec vec) = normalizeVec vec :=
        normalize_of_norm (norm_normalize vec)
      have hvv := val_normalize vec
      have hnn := norm_normalize vec
      generalize normalizeVec vec = v at *
      have hrv := rep_neg (N := v.length) (m := B ^ v.length - val v) (by omega) (by omega)
      rw [show B ^ v.length - (B ^ v.length - val v) = val v by omega] at hrv
      have hzneg : -((B ^ v.length - val v : Nat) : Int) < 0 := by omega
      have := fromTwos_toInt (s := .neg) hln hrv ⟨fun _ => hzneg, fun _ => rfl⟩ (Or.inr hnn) (fun _ => hne)
      rw [hidem] at this
      refine ⟨?_, this.2⟩
      rw [this.1, if_neg hv0]
      have hk : limbCount (val vec) = v.length := by
        unfold limbCount
        rw [Bpow] at hlb hub
        rw [← hvv]
        have hvp : val v ≠ 0 := by omega
        have l1 : 64 * (v.length - 1) ≤ (val v).log2 := (Nat.le_log2 hvp).2 hlb
        have l2 : (val v).log2 < 64 * v.length := (Nat.log2_lt hvp).2 hub
        omega
      have e3 : ((B ^ v.length : Nat) : Int) = 2 ^ (64 * v.length) := by rw [Bpow]; push_cast; rfl
      rw [hk, ← e3, ← hvv]
      generalize B ^ v.length = X at *
      omega

/-- the answer of the code is right exactly if no limb is lost -/
theorem bitResult_eq_iff {N : Nat} {z : Int} (hz : -(2 : Int) ^ (64 * N) ≤ z)
    (hN : z < 0 → 0 < N) :
    bitResult N z = z ↔ 0 ≤ z ∨ (2 : Int) ^ (64 * (N - 1)) - 2 ^ (64 * N) ≤ z := by
  unfold bitResult
  by_cases h0 : 0 ≤ z
  · simp [h0]
  · rw [if_neg h0]
    have hN' := hN (by omega)
    simp only [h0, false_or]
    obtain ⟨w, hw⟩ : ∃ w : Nat, (2 : Int) ^ (64 * N) + z = w := ⟨((2 : Int) ^ (64 * N) + z).toNat, by omega⟩
    rw [hw, Int.toNat_natCast]
    have hz' : z = w - 2 ^ (64 * N) := by omega
    have hwN : w < 2 ^ (64 * N) := by
      have : (w : Int) < ((2 ^ (64 * N) : Nat) : Int) := by push_cast; omega
      omega
    have hcond : (2 : Int) ^ (64 * (N - 1)) - 2 ^ (64 * N) ≤ z ↔ 2 ^ (64 * (N - 1)) ≤ w := by
      rw [hz']
      have : ((2 ^ (64 * (N - 1)) : Nat) : Int) = 2 ^ (64 * (N - 1)) := by push_cast; rfl
      rw [← this]
      omega
    rw [hcond]
    have hpw : (0 : Nat) < 2 ^ (64 * (N - 1)) := by positivity
    by_cases w0 : w = 0
    · subst w0
      have h2 : (2 : Int) ^ (64 * N) ≠ 1 := by
        have : 1 < 2 ^ (64 * N) := Nat.one_lt_two_pow (by omega)
        have h3 : ((2 ^ (64 * N) : Nat) : Int) = 2 ^ (64 * N) := by push_cast; rfl
        omega
      simp only [if_true]
      constructor
      · intro h; simp at hz'; omega
      · intro h; omega
    · rw [if_neg w0, hz']
      have key : limbCount w = N ↔ 2 ^ (64 * (N - 1)) ≤ w := by
        unfold limbCount
        have l2 : w.log2 < 64 * N := (Nat.log2_lt w0).2 hwN
        have l1 : 64 * (N - 1) ≤ w.log2 ↔ 2 ^ (64 * (N - 1)) ≤ w := Nat.le_log2 w0
        rw [← l1]
        omega
      rw [← key]
      constructor
      · intro h
        have h2 : (2 : Int) ^ (64 * limbCount w) = 2 ^ (64 * N) := by omega
        have h3 : 2 ^ (64 * limbCount w) = 2 ^ (64 * N) := by exact_mod_cast h2
        have := Nat.pow_right_injective (Nat.le_refl 2) h3
        omega
      · intro h; rw [h]


theorem int_sign_testBit (x : Int) : ∃ n, ∀ i, n ≤ i → Int.testBit x i = decide (x < 0) := by
  cases x with
  | ofNat m =>
    refine ⟨m, fun i hi => ?_⟩
    have : ¬ (Int.ofNat m < 0) := by simp
    rw [decide_eq_false this]
    exact Nat.testBit_lt_two_pow (lt_of_lt_of_le Nat.lt_two_pow_self
      (Nat.pow_le_pow_right (by omega) hi))
  | negSucc m =>
    refine ⟨m, fun i hi => ?_⟩
    have : Int.negSucc m < 0 := Int.negSucc_lt_zero m
    rw [decide_eq_true this]
    simp only [Int.testBit, Nat.testBit_lt_two_pow (lt_of_lt_of_le Nat.lt_two_pow_self
      (Nat.pow_le_pow_right (by omega) hi))]
    rfl

theorem sign_of_bits {x y z : Int} {g : Bool → Bool → Bool}
    (hz : ∀ i, Int.testBit z i = g (Int.testBit x i) (Int.testBit y i)) :
    decide (z < 0) = g (decide (x < 0)) (decide (y < 0)) := by
  obtain ⟨n1, h1⟩ := int_sign_testBit x
  obtain ⟨n2, h2⟩ := int_sign_testBit y
  obtain ⟨n3, h3⟩ := int_sign_testBit z
  rw [← h1 (n1 + n2 + n3) (by omega), ← h2 (n1 + n2 + n3) (by omega),
    ← h3 (n1 + n2 + n3) (by omega), hz]

theorem toTwos_sign {a : JsBig} (ha : a.Canon) : (toTwos a).sign = .neg ↔ a.toInt < 0 :=
  (toTwos_rep ha).2.2.2

theorem and_sign {a b : JsBig} (ha : a.Canon) (hb : b.Canon) {z : Int}
    (hz : ∀ i, Int.testBit z i = (Int.testBit a.toInt i && Int.testBit b.toInt i)) :
    (andTwos (toTwos a) (toTwos b)).sign = .neg ↔ z < 0 := by
  have hsz := sign_of_bits (g := Bool.and) hz
  have h1 := toTwos_sign ha
  have h2 := toTwos_sign hb
  have hsz' : z < 0 ↔ a.toInt < 0 ∧ b.toInt < 0 := by
    by_cases x1 : z < 0 <;> by_cases x2 : a.toInt < 0 <;> by_cases x3 : b.toInt < 0 <;>
      simp [x1, x2, x3] at hsz ⊢
  rw [hsz', ← h1, ← h2]
  unfold andTwos
  cases (toTwos a).sign <;> cases (toTwos b).sign <;> simp

theorem or_sign {a b : JsBig} (ha : a.Canon) (hb : b.Canon) {z : Int}
    (hz : ∀ i, Int.testBit z i = (Int.testBit a.toInt i || Int.testBit b.toInt i)) :
    (orTwos (toTwos a) (toTwos b)).sign = .neg ↔ z < 0 := by
  have hsz := sign_of_bits (g := Bool.or) hz
  have h1 := toTwos_sign ha
  have h2 := toTwos_sign hb
  have hsz' : z < 0 ↔ a.toInt < 0 ∨ b.toInt < 0 := by
    by_cases x1 : z < 0 <;> by_cases x2 : a.toInt < 0 <;> by_cases x3 : b.toInt < 0 <;>
      simp [x1, x2, x3] at hsz ⊢
  rw [hsz', ← h1, ← h2]
  unfold orTwos
  cases (toTwos a).sign <;> cases (toTwos b).sign <;> simp

theorem xor_sign {a b : JsBig} (ha : a.Canon) (hb : b.Canon) {z : Int}
    (hz : ∀ i, Int.testBit z i = (Int.testBit a.toInt i ^^ Int.testBit b.toInt i)) :
    (xorTwos (toTwos a) (toTwos b)).sign = .neg ↔ z < 0 := by
  have hsz := sign_of_bits (g := Bool.xor) hz
  have h1 := toTwos_sign ha
  have h2 := toTwos_sign hb
  have hsz' : z < 0 ↔ ¬ (a.toInt < 0 ↔ b.toInt < 0) := by
    by_cases x1 : z < 0 <;> by_cases x2 : a.toInt < 0 <;> by_cases x3 : b.toInt < 0 <;>
      simp [x1, x2, x3] at hsz ⊢
  rw [hsz', ← h1, ← h2]
  unfold xorTwos
  cases (toTwos a).sign <;> cases (toTwos b).sign <;> simp

/-- `z` fits the limb count of the operands without a vanishing top limb. -/
def KeepsTopLimb (a b : JsBig) (z : Int) : Prop :=
  0 ≤ z ∨ (2 : Int) ^ (64 * (maxLimbs a b - 1)) - 2 ^ (64 * maxLimbs a b) ≤ z

/-- Proved part of C09 for `&`: if `z` is the integer whose bits are the conjunctions of
the operand bits, and it is non-negative or its two's complement in the common limb
count has a non-zero top limb, then the code computes `z`, canonically.
Missing: the negative results whose top limb is zero, where the code is wrong. -/
theorem C09_and_partial (a b : JsBig) (ha : a.Canon) (hb : b.Canon) (z : Int)
    (hz : ∀ i, ibit z i = (ibit a.toInt i && ibit b.toInt i)) (hk : KeepsTopLimb a b z) :
    (JsBig.and a b).toInt = z ∧ (JsBig.and a b).Canon := by
  have hz' : ∀ i, Int.testBit z i = (Int.testBit a.toInt i && Int.testBit b.toInt i) := by
    intro i; rw [← ibit_eq, ← ibit_eq, ← ibit_eq]; exact hz i
  have hsz := sign_of_bits (g := Bool.and) hz'
  refine bitop_ok a b ha hb (· &&& ·) Bool.and (fun a b i => Nat.testBit_and a b i) rfl
    Bool.and_comm z hz' hsz _ ?_ hk
  have h1 := toTwos_sign ha
  have h2 := toTwos_sign hb
  have hsz' : z < 0 ↔ a.toInt < 0 ∧ b.toInt < 0 := by
    by_cases x1 : z < 0 <;> by_cases x2 : a.toInt < 0 <;> by_cases x3 : b.toInt < 0 <;>
      simp [x1, x2, x3] at hsz ⊢
  rw [hsz', ← h1, ← h2]
  cases (toTwos a).sign <;> cases (toTwos b).sign <;> simp

/-- Proved part of C09 for `|`. -/
theorem C09_or_partial (a b : JsBig) (ha : a.Canon) (hb : b.Canon) (z : Int)
    (hz : ∀ i, ibit z i = (ibit a.toInt i || ibit b.toInt i)) (hk : KeepsTopLimb a b z) :
    (JsBig.or a b).toInt = z ∧ (JsBig.or a b).Canon := by
  have hz' : ∀ i, Int.testBit z i = (Int.testBit a.toInt i || Int.testBit b.toInt i) := by
    intro i; rw [← ibit_eq, ← ibit_eq, ← ibit_eq]; exact hz i
  have hsz := sign_of_bits (g := Bool.or) hz'
  refine bitop_ok a b ha hb (· ||| ·) Bool.or (fun a b i => Nat.testBit_or a b i) rfl
    Bool.or_comm z hz' hsz _ ?_ hk
  have h1 := toTwos_sign ha
  have h2 := toTwos_sign hb
  have hsz' : z < 0 ↔ a.toInt < 0 ∨ b.toInt < 0 := by
    by_cases x1 : z < 0 <;> by_cases x2 : a.toInt < 0 <;> by_cases x3 : b.toInt < 0 <;>
      simp [x1, x2, x3] at hsz ⊢
  rw [hsz', ← h1, ← h2]
  cases (toTwos a).sign <;> cases (toTwos b).sign <;> simp

/-- Proved part of C09 for `^`. -/
theorem C09_xor_partial (a b : JsBig) (ha : a.Canon) (hb : b.Canon) (z : Int)
    (hz : ∀ i, ibit z i = (ibit a.toInt i ^^ ibit b.toInt i)) (hk : KeepsTopLimb a b z) :
    (JsBig.xor a b).toInt = z ∧ (JsBig.xor a b).Canon := by
  have hz' : ∀ i, Int.testBit z i = (Int.testBit a.toInt i ^^ Int.testBit b.toInt i) := by
    intro i; rw [← ibit_eq, ← ibit_eq, ← ibit_eq]; exact hz i
  have hsz := sign_of_bits (g := Bool.xor) hz'
  refine bitop_ok a b ha hb (· ^^^ ·) Bool.xor (fun a b i => Nat.testBit_xor a b i) rfl
    Bool.xor_comm z hz' hsz _ ?_ hk
  have h1 := toTwos_sign ha
  have h2 := toTwos_sign hb
  have hsz' : z < 0 ↔ ¬ (a.toInt < 0 ↔ b.toInt < 0) := by
    by_cases x1 : z < 0 <;> by_cases x2 : a.toInt < 0 <;> by_cases x3 : b.toInt < 0 <;>
      simp [x1, x2, x3] at hsz ⊢
  rw [hsz', ← h1, ← h2]
  cases (toTwos a).sign <;> cases (toTwos b).sign <;> simp

/-- Such an integer `z` always exists (it is unique), so the previous three theorems speak
about every pair of operands. -/
theorem C09_result_exists (x y : Int) :
    (∃ z, ∀ i, ibit z i = (ibit x i && ibit y i)) ∧ (∃ z, ∀ i, ibit z i = (ibit x i || ibit y i)) ∧
    (∃ z, ∀ i, ibit z i = (ibit x i ^^ ibit y i)) := by
  simp only [ibit_eq]
  exact ⟨⟨Int.land x y, Int.testBit_land x y⟩, ⟨Int.lor x y, Int.testBit_lor x y⟩,
    ⟨Int.xor x y, Int.testBit_lxor x y⟩⟩

/-- For non-negative operands all three operations are correct without any side condition. -/
theorem C09_nonneg (a b : JsBig) (ha : a.Canon) (hb : b.Canon) (h1 : 0 ≤ a.toInt)
    (h2 : 0 ≤ b.toInt) (i : Nat) :
    ibit (JsBig.and a b).toInt i = (ibit a.toInt i && ibit b.toInt i) ∧
    ibit (JsBig.or a b).toInt i = (ibit a.toInt i || ibit b.toInt i) ∧
    ibit (JsBig.xor a b).toInt i = (ibit a.toInt i ^^ ibit b.toInt i) := by
  obtain ⟨⟨x, hx⟩, ⟨y, hy⟩, ⟨z, hz⟩⟩ := C09_result_exists a.toInt b.toInt
  have n1 : ¬ a.toInt < 0 := by omega
  have n2 : ¬ b.toInt < 0 := by omega
  have px : 0 ≤ x := by
    have := sign_of_bits (g := Bool.and) (fun i => by simpa only [ibit_eq] using hx i)
    simpa [n1, n2] using this
  have py : 0 ≤ y := by
    have := sign_of_bits (g := Bool.or) (fun i => by simpa only [ibit_eq] using hy i)
    simpa [n1, n2] using this
  have pz : 0 ≤ z := by
    have := sign_of_bits (g := Bool.xor) (fun i => by simpa only [ibit_eq] using hz i)
    simpa [n1, n2] using this
  rw [(C09_and_partial a b ha hb x hx (Or.inl px)).1, (C09_or_partial a b ha hb y hy (Or.inl py)).1,
    (C09_xor_partial a b ha hb z hz (Or.inl pz)).1]
  exact ⟨hx i, hy i, hz i⟩

/-- a negative two-limb result that meets the side condition -/
example : (new .neg [5, 1]).Canon ∧ (new .neg [7, 9]).Canon ∧
    KeepsTopLimb (new .neg [5, 1]) (new .neg [7, 9]) (-(7 + 9 * 2 ^ 64)) ∧
    (JsBig.and (new .neg [5, 1]) (new .neg [7, 9])).toInt = -(7 + 9 * 2 ^ 64) := by
  refine ⟨by decide +kernel, by decide +kernel, Or.inr ?_, by decide +kernel⟩
  decide +kernel

/-- What the code computes for all operands: `bitResult` of the mathematical result, canonically. -/
theorem C09_exact_partial (a b : JsBig) (ha : a.Canon) (hb : b.Canon) (x y z : Int)
    (hx : ∀ i, ibit x i = (ibit a.toInt i && ibit b.toInt i))
    (hy : ∀ i, ibit y i = (ibit a.toInt i || ibit b.toInt i))
    (hz : ∀ i, ibit z i = (ibit a.toInt i ^^ ibit b.toInt i)) :
    ((JsBig.and a b).toInt = bitResult (maxLimbs a b) x ∧ (JsBig.and a b).Canon) ∧
    ((JsBig.or a b).toInt = bitResult (maxLimbs a b) y ∧ (JsBig.or a b).Canon) ∧
    ((JsBig.xor a b).toInt = bitResult (maxLimbs a b) z ∧ (JsBig.xor a b).Canon) := by
  simp only [ibit_eq] at hx hy hz
  refine ⟨?_, ?_, ?_⟩
  · have := bitop_all a b ha hb (· &&& ·) Bool.and (fun a b i => Nat.testBit_and a b i) rfl
      Bool.and_comm x hx (sign_of_bits (g := Bool.and) hx) _ (and_sign ha hb hx)
    exact ⟨this.1, this.2.1⟩
  · have := bitop_all a b ha hb (· ||| ·) Bool.or (fun a b i => Nat.testBit_or a b i) rfl
      Bool.or_comm y hy (sign_of_bits (g := Bool.or) hy) _ (or_sign ha hb hy)
    exact ⟨this.1, this.2.1⟩
  · have := bitop_all a b ha hb (· ^^^ ·) Bool.xor (fun a b i => Nat.testBit_xor a b i) rfl
      Bool.xor_comm z hz (sign_of_bits (g := Bool.xor) hz) _ (xor_sign ha hb hz)
    exact ⟨this.1, this.2.1⟩

/-- a negative result needs operands with limbs -/
theorem maxLimbs_pos {a b : JsBig} {z : Int} {g : Bool → Bool → Bool} (hg : g false false = false)
    (hsz : decide (z < 0) = g (decide (a.toInt < 0)) (decide (b.toInt < 0))) (hz : z < 0) :
    0 < maxLimbs a b := by
  by_contra h
  have l1 : a.items.length = 0 := by unfold maxLimbs at h; omega
  have l2 : b.items.length = 0 := by unfold maxLimbs at h; omega
  have e1 : a.toInt = 0 := by
    rw [toInt_eq_signed, List.length_eq_zero_iff.1 l1]; cases a.sign <;> rfl
  have e2 : b.toInt = 0 := by
    rw [toInt_eq_signed, List.length_eq_zero_iff.1 l2]; cases b.sign <;> rfl
  rw [e1, e2] at hsz
  simp [hz, hg] at hsz

/-- The answer is right exactly for the results that keep their top limb. -/
theorem C09_iff_partial (a b : JsBig) (ha : a.Canon) (hb : b.Canon) (x y z : Int)
    (hx : ∀ i, ibit x i = (ibit a.toInt i && ibit b.toInt i))
    (hy : ∀ i, ibit y i = (ibit a.toInt i || ibit b.toInt i))
    (hz : ∀ i, ibit z i = (ibit a.toInt i ^^ ibit b.toInt i)) :
    ((JsBig.and a b).toInt = x ↔ KeepsTopLimb a b x) ∧
    ((JsBig.or a b).toInt = y ↔ KeepsTopLimb a b y) ∧
    ((JsBig.xor a b).toInt = z ↔ KeepsTopLimb a b z) := by
  obtain ⟨⟨e1, _⟩, ⟨e2, _⟩, ⟨e3, _⟩⟩ := C09_exact_partial a b ha hb x y z hx hy hz
  rw [e1, e2, e3]
  simp only [ibit_eq] at hx hy hz
  have s1 := sign_of_bits (g := Bool.and) hx
  have s2 := sign_of_bits (g := Bool.or) hy
  have s3 := sign_of_bits (g := Bool.xor) hz
  refine ⟨bitResult_eq_iff ?_ (maxLimbs_pos rfl s1), bitResult_eq_iff ?_ (maxLimbs_pos rfl s2),
    bitResult_eq_iff ?_ (maxLimbs_pos rfl s3)⟩
  · exact (bitop_all a b ha hb (· &&& ·) Bool.and (fun a b i => Nat.testBit_and a b i) rfl
      Bool.and_comm x hx s1 _ (and_sign ha hb hx)).2.2
  · exact (bitop_all a b ha hb (· ||| ·) Bool.or (fun a b i => Nat.testBit_or a b i) rfl
      Bool.or_comm y hy s2 _ (or_sign ha hb hy)).2.2
  · exact (bitop_all a b ha hb (· ^^^ ·) Bool.xor (fun a b i => Nat.testBit_xor a b i) rfl
      Bool.xor_comm z hz s3 _ (xor_sign ha hb hz)).2.2

/-- `-(2^128-1) | 0`: the correct result loses its upper limb, the code answers `-(2^64-1)` -/
example : (new .neg [B - 1, B - 1]).Canon ∧ ¬ KeepsTopLimb (new .neg [B - 1, B - 1]) zero (-(2 ^ 128 - 1)) ∧
    bitResult 2 (-(2 ^ 128 - 1)) = -(2 ^ 64 - 1) ∧
    (JsBig.or (new .neg [B - 1, B - 1]) zero).toInt = -(2 ^ 64 - 1) := by
  refine ⟨by decide +kernel, ?_, by decide +kernel, by decide +kernel⟩
  unfold KeepsTopLimb; decide +kernel

end Nanvm
