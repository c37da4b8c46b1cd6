import Verif.Props.JsBigintDiv
import Verif.Spec.Shift
/-!
# What the right shift loop loses

The mask of the right shift (js_bigint.rs:586, big_uint.rs:341) has one bit, `s - 1`, of the `s` bits
that move from a limb to the one below it.
-/
namespace Nanvm
open JsBig

/-- the bits that are lost by the loop, as a number -/
def lost (s : Nat) : List Nat → Nat
  | [] => 0
  | [_] => 0
  | _ :: e :: ds => (e % 2 ^ s - (e &&& 2 ^ (s - 1))) * 2 ^ (64 - s) + B * lost s (e :: ds)

theorem and_le_mod {s : Nat} (hs : 0 < s) (e : Nat) : e &&& 2 ^ (s - 1) ≤ e % 2 ^ s := by
  have h : e &&& 2 ^ (s - 1) = (e % 2 ^ s) &&& 2 ^ (s - 1) := by
    apply Nat.eq_of_testBit_eq
    intro i
    rw [Nat.testBit_and, Nat.testBit_and, Nat.testBit_mod_two_pow, Nat.testBit_two_pow]
    by_cases hi : s - 1 = i
    · have : i < s := by omega
      simp [this]
    · simp [hi]
  rw [h]
  exact Nat.and_le_left

/-- the mask keeps all bits iff the others are zero -/
theorem and_eq_mod_iff {s : Nat} (hs : 0 < s) (e : Nat) :
    e &&& 2 ^ (s - 1) = e % 2 ^ s ↔ ∀ j, j + 1 < s → e.testBit j = false := by
  constructor
  · intro h j hj
    have := congrArg (fun x => Nat.testBit x j) h
    simp only [Nat.testBit_and, Nat.testBit_mod_two_pow, Nat.testBit_two_pow] at this
    have h1 : j < s := by omega
    have h2 : ¬ (s - 1 = j) := by omega
    simpa [h1, h2] using this
  · intro h
    apply Nat.eq_of_testBit_eq
    intro i
    rw [Nat.testBit_and, Nat.testBit_mod_two_pow, Nat.testBit_two_pow]
    by_cases hi : s - 1 = i
    · have : i < s := by omega
      simp [hi, this]
    · by_cases hi2 : i < s
      · simp [hi, hi2, h i (by omega)]
      · simp [hi, hi2]

theorem shrLoop_lost {s : Nat} (h0 : 0 < s) (hs : s ≤ 64) (l : List Nat) (hl : Limbs l) :
    val (shrLoop s (2 ^ (s - 1)) l) + lost s l = val l / 2 ^ s ∧
      Limbs (shrLoop s (2 ^ (s - 1)) l) := by
  have hB := B_split hs
  have hp : 0 < 2 ^ s := by positivity
  induction l with
  | nil => simp [shrLoop, lost]
  | cons d ds ih =>
    cases ds with
    | nil =>
      simp only [shrLoop, lost, val_cons, val_nil, Nat.mul_zero, Nat.add_zero, limbs_cons, limbs_nil,
        and_true, true_and]
      rw [limbs_cons] at hl
      exact Nat.lt_of_le_of_lt (Nat.div_le_self _ _) hl.1
    | cons e es =>
      rw [limbs_cons] at hl
      obtain ⟨hv, hlim⟩ := ih hl.2
      have hq : d / 2 ^ s < 2 ^ (64 - s) := by
        rw [Nat.div_lt_iff_lt_mul hp, Nat.mul_comm, ← hB]; exact hl.1
      have hmod : e % 2 ^ s < 2 ^ s := Nat.mod_lt _ hp
      have hle := and_le_mod h0 e
      have hlt : (e &&& 2 ^ (s - 1)) * 2 ^ (64 - s) < B := by
        rw [hB]; exact Nat.mul_lt_mul_of_pos_right (by omega) (by positivity)
      have hor : d / 2 ^ s ||| (e &&& 2 ^ (s - 1)) * 2 ^ (64 - s) =
          (e &&& 2 ^ (s - 1)) * 2 ^ (64 - s) + d / 2 ^ s := by
        rw [Nat.or_comm]; exact or_eq_add (Dvd.intro_left _ rfl) hq
      rw [shrLoop, Nat.mod_eq_of_lt hlt, hor, lost]
      constructor
      · rw [val_cons]
        simp only [val_cons] at hv ⊢
        generalize val es = w at *
        have h1 : d + B * (e + B * w) = d + 2 ^ s * (2 ^ (64 - s) * (e + B * w)) := by
          rw [← Nat.mul_assoc, ← hB]
        rw [h1, Nat.add_mul_div_left _ _ hp]
        have h2 := Nat.mod_add_div (e + B * w) (2 ^ s)
        have h3 : (e + B * w) % 2 ^ s = e % 2 ^ s := by
          rw [hB, Nat.mul_assoc, Nat.add_mul_mod_self_left]
        rw [h3] at h2
        have hB' : B * ((e + B * w) / 2 ^ s) = 2 ^ (64 - s) * (2 ^ s * ((e + B * w) / 2 ^ s)) := by
          rw [← Nat.mul_assoc, Nat.mul_comm (2 ^ (64 - s)), ← hB]
        obtain ⟨x, hx⟩ := Nat.exists_eq_add_of_le hle
        rw [hx] at h2 ⊢
        rw [Nat.add_sub_cancel_left]
        generalize (e + B * w) / 2 ^ s = z at *
        generalize (e &&& 2 ^ (s - 1)) = y at *
        generalize val (shrLoop s (2 ^ (s - 1)) (e :: es)) = p at *
        generalize lost s (e :: es) = q at *
        rw [← h2]
        have h4 : B * p + B * q = 2 ^ (64 - s) * (2 ^ s * z) := by rw [← hB', ← hv]; ring
        have h5 : y * 2 ^ (64 - s) + d / 2 ^ s + B * p + (x * 2 ^ (64 - s) + B * q) =
          d / 2 ^ s + (y + x) * 2 ^ (64 - s) + (B * p + B * q) := by ring
        rw [h5, h4]; ring
      · rw [limbs_cons]
        refine ⟨?_, hlim⟩
        have h2 : (e % 2 ^ s + 1) * 2 ^ (64 - s) ≤ 2 ^ s * 2 ^ (64 - s) :=
          Nat.mul_le_mul_right _ hmod
        rw [← hB] at h2
        have h3 : (e &&& 2 ^ (s - 1)) * 2 ^ (64 - s) ≤ e % 2 ^ s * 2 ^ (64 - s) :=
          Nat.mul_le_mul_right _ hle
        generalize e % 2 ^ s = y at *
        generalize d / 2 ^ s = z at *
        nlinarith

theorem lost_zero {s : Nat} (h0 : 0 < s) (l : List Nat) :
    lost s l = 0 ↔ ∀ e ∈ l.tail, ∀ j, j + 1 < s → e.testBit j = false := by
  induction l with
  | nil => simp [lost]
  | cons d ds ih =>
    cases ds with
    | nil => simp [lost]
    | cons e es =>
      rw [lost]
      have hle := and_le_mod h0 e
      have h1 : (e % 2 ^ s - (e &&& 2 ^ (s - 1))) * 2 ^ (64 - s) + B * lost s (e :: es) = 0 ↔
          (e &&& 2 ^ (s - 1)) = e % 2 ^ s ∧ lost s (e :: es) = 0 := by
        have hB := B_pos
        have hp : 0 < 2 ^ (64 - s) := by positivity
        rw [Nat.add_eq_zero_iff, Nat.mul_eq_zero, Nat.mul_eq_zero]
        constructor
        · rintro ⟨h | h, h' | h'⟩
          · omega
          · exact ⟨by omega, h'⟩
          · omega
          · omega
        · rintro ⟨h, h'⟩
          exact ⟨.inl (by omega), .inr h'⟩
      rw [h1, and_eq_mod_iff h0, ih]
      simp only [List.tail_cons, List.mem_cons, forall_eq_or_imp]

theorem lost_even {s : Nat} (hs : s < 64) (l : List Nat) : 2 ∣ lost s l := by
  induction l with
  | nil => simp [lost]
  | cons d ds ih =>
    cases ds with
    | nil => simp [lost]
    | cons e es =>
      rw [lost]
      refine Nat.dvd_add (Nat.dvd_trans ?_ (Nat.dvd_mul_left _ _)) (Nat.dvd_trans ih (Nat.dvd_mul_left _ _))
      exact Dvd.dvd.pow (dvd_refl 2) (by omega)

/-- the bits of the limbs are the bits of the value -/
theorem val_testBit {l : List Nat} (hl : Limbs l) (i j : Nat) (hj : j < 64) :
    (val l).testBit (64 * i + j) = (l.getD i 0).testBit j := by
  induction l generalizing i with
  | nil => simp
  | cons d ds ih =>
    rw [limbs_cons, B_eq] at hl
    have hB : B = 2 ^ 64 := B_eq
    rw [val_cons, hB, Nat.add_comm]
    cases i with
    | zero =>
      rw [Nat.testBit_two_pow_mul_add _ hl.1, if_pos (by omega)]; simp
    | succ i =>
      rw [Nat.testBit_two_pow_mul_add _ hl.1, if_neg (by omega)]
      have : 64 * (i + 1) + j - 64 = 64 * i + j := by omega
      rw [this, ih hl.2]; simp

theorem noLostBits_iff {l : List Nat} (hl : Limbs l) (n : Nat) :
    NoLostBits (val l) n ↔ ∀ e ∈ (l.drop (n / 64)).tail, ∀ j, j + 1 < n % 64 → e.testBit j = false := by
  rw [List.tail_drop]
  constructor
  · intro h e he j hj
    obtain ⟨k, hk⟩ := List.mem_iff_getElem?.1 he
    rw [List.getElem?_drop] at hk
    have := h (n / 64 + 1 + k) (by omega) j hj
    rw [val_testBit hl _ _ (by omega), List.getD_eq_getElem?_getD, hk] at this
    exact this
  · intro h i hi j hj
    rw [val_testBit hl _ _ (by omega), List.getD_eq_getElem?_getD]
    cases hk : l[i]? with
    | none => simp
    | some e =>
      refine h e (List.mem_iff_getElem?.2 ⟨i - (n / 64 + 1), ?_⟩) j hj
      rw [List.getElem?_drop, ← hk]; congr 1; omega

/-- the value computed by `shr_on_u64`, in all cases -/
theorem shrOnU64_lost (a : JsBig) (ha : a.Canon) (n : Nat) :
    ∃ m x, m + x = val a.items / 2 ^ n ∧ 2 ∣ x ∧ (x = 0 ↔ NoLostBits (val a.items) n) ∧
      (shrOnU64 a n).Canon ∧
      (shrOnU64 a n).toInt = if a.sign = .neg ∧ m = 0 then -1 else signed a.sign m := by
  have e2n : 2 ^ n = B ^ (n / 64) * 2 ^ (n % 64) := by
    rw [Bpow, ← pow_add]; congr 1; omega
  have big : (shrOnBig a.sign).Canon ∧ (shrOnBig a.sign).toInt = if a.sign = .neg then -1 else 0 := by
    cases a.sign
    · exact ⟨zero_canon, by rw [shrOnBig, zero_toInt]; rfl⟩
    · exact ⟨fromU64_canon (by decide), by rw [shrOnBig, fromU64_toInt]; rfl⟩
  unfold shrOnU64
  rw [and_63]
  dsimp only
  split
  · rename_i h
    have hlt : val a.items < 2 ^ n := by
      have := val_lt ha.limbs
      calc val a.items < B ^ a.items.length := this
        _ ≤ B ^ (n / 64) := Nat.pow_le_pow_right B_pos h
        _ ≤ 2 ^ n := by rw [Bpow]; exact Nat.pow_le_pow_right (by omega) (by omega)
    refine ⟨0, 0, by rw [Nat.div_eq_of_lt hlt], by simp, ?_, big.1, ?_⟩
    · rw [noLostBits_iff ha.limbs, List.drop_eq_nil_of_le h]; simp
    · rw [big.2]
      cases a.sign <;> simp [signed]
  · rename_i h
    have hdl : Limbs (a.items.drop (n / 64)) := fun d hd => ha.limbs d (List.mem_of_mem_drop hd)
    obtain ⟨v1, x, hv1, h1, hl1, h2, hz⟩ : ∃ v1 x, v1 = (if n % 64 > 0 then
        shrLoop (n % 64) (2 ^ (n % 64 - 1)) (a.items.drop (n / 64)) else a.items.drop (n / 64)) ∧
        val v1 + x = val a.items / 2 ^ n ∧ Limbs v1 ∧ 2 ∣ x ∧
        (x = 0 ↔ NoLostBits (val a.items) n) := by
      rw [e2n, ← Nat.div_div_eq_div_mul, ← val_drop ha.limbs, noLostBits_iff ha.limbs]
      split
      · rename_i h0
        obtain ⟨q1, q2⟩ := shrLoop_lost h0 (by omega) _ hdl
        exact ⟨_, _, rfl, q1, q2, lost_even (by omega) _, lost_zero h0 _⟩
      · rename_i h0
        refine ⟨_, 0, rfl, ?_, hdl, by simp, ?_⟩
        · rw [show n % 64 = 0 by omega]; simp
        · simp only [true_iff]; intro e _ j hj; omega
    rw [← hv1]
    refine ⟨val v1, x, h1, h2, hz, ?_⟩
    have hcan : (new a.sign (normalizeVec v1)).Canon :=
      new_canon (limbs_normalize hl1) (norm_normalize _)
    have hem : (normalizeVec v1).isEmpty = true ↔ val v1 = 0 := by
      rw [← val_normalize, val_eq_zero_iff (norm_normalize _)]; simp
    split
    · rename_i h2
      refine ⟨fromU64_canon (by decide), ?_⟩
      rw [if_pos ⟨h2.2, hem.1 h2.1⟩, fromU64_toInt]; rfl
    · rename_i h2
      refine ⟨hcan, ?_⟩
      rw [new_toInt, val_normalize, if_neg]
      rintro ⟨h3, h4⟩
      exact h2 ⟨hem.2 h4, h3⟩

end Nanvm
