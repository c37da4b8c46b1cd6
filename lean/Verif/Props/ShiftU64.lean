import Verif.Props.ShiftRight
/-!
# Property theorems C81: operations with a machine word

`shl_on_u64`, `shr_on_u64`, `pow_u64` and `get_last_bit` are public; they can be called for every bigint and every `u64`, not
only from `shl`, `shr` and `pow`.
-/
namespace Nanvm
open JsBig

/-- `shl_on_u64` multiplies by `2^n`, or panics (`len - 1` with an empty vector); it panics exactly for
zero with a shift that is no multiple of 64. -/
theorem C81_shl_partial (a : JsBig) (ha : a.Canon) (n : Nat) :
    (∃ c, shlOnU64 a n = .ok c ∧ c.toInt = a.toInt * 2 ^ n ∧ c.Canon ∧ ¬ (a.toInt = 0 ∧ n % 64 ≠ 0)) ∨
      (shlOnU64 a n = .error (.panic .overflow) ∧ a.toInt = 0 ∧ n % 64 ≠ 0) := by
  by_cases h : a.items = []
  · have h0 : a.toInt = 0 := by rw [toInt_eq_signed a, h]; cases a.sign <;> simp [signed]
    by_cases hn : n % 64 = 0
    · left
      have v : val (normalizeVec (if n / 64 > 0 then List.replicate (n / 64) 0 ++ [] else [])) = 0 := by
        rw [val_normalize]; split <;> simp [val_replicate]
      have l : Limbs (if n / 64 > 0 then List.replicate (n / 64) 0 ++ [] else []) := by
        split
        · simpa using limbs_replicate _
        · simp [Limbs]
      refine ⟨new a.sign (normalizeVec (if n / 64 > 0 then List.replicate (n / 64) 0 ++ [] else [])), ?_, ?_,
        new_canon (limbs_normalize l) (norm_normalize _), fun x => x.2 hn⟩
      · unfold shlOnU64; simp [and_63, hn, h]
      · rw [new_toInt, v, h0]; cases a.sign <;> simp [signed]
    · right
      refine ⟨?_, h0, hn⟩
      unfold shlOnU64
      rw [and_63, if_pos ⟨by omega, h⟩]
  · left
    obtain ⟨c, e, v, cc⟩ := shlOnU64_ok a ha h n
    refine ⟨c, e, v, cc, fun x => ?_⟩
    have := val_pos ha.norm h
    have z := x.1
    rw [toInt_eq_signed a] at z
    cases e' : a.sign <;> rw [e'] at z <;> simp only [signed] at z <;> omega

example : JsBig.Canon zero ∧ shlOnU64 zero 128 = .ok zero ∧ shlOnU64 (fromU64 .neg 3) 65 = .ok (new .neg [0, 6]) := by
  decide +kernel

/-- **C81** violated: zero shifted to the left by one panics. -/
theorem C81_shl_violated : ∃ a : JsBig, a.Canon ∧ a.toInt = 0 ∧ shlOnU64 a 1 = .error (.panic .overflow) :=
  ⟨zero, by decide, by decide, by decide⟩

/-- `shr_on_u64` never panics and gives a canonical number; when that is the floor of the quotient. -/
theorem C81_shr_partial (a : JsBig) (ha : a.Canon) (n : Nat) (hn : n < 2 ^ 64) :
    (shrOnU64 a n).Canon ∧ ((shrOnU64 a n).toInt = a.toInt.fdiv (2 ^ n) ↔
      NoLostBits a.toInt.natAbs n ∧
        (0 ≤ a.toInt ∨ (2 ^ n : Int) ∣ a.toInt ∨ a.toInt.natAbs < 2 ^ n)) := by
  by_cases h : a.items = []
  · have h0 : a.toInt = 0 := by rw [toInt_eq_signed a, h]; cases a.sign <;> simp [signed]
    have s : a.sign = .pos := by
      rcases canon_len_sign ha with ⟨s, -, -⟩ | ⟨s, -, -, v⟩
      · exact s
      · rw [h] at v; simp at v
    have e : shrOnU64 a n = zero := by unfold shrOnU64; simp [h, s, shrOnBig]
    rw [e, h0]
    exact ⟨zero_canon, by simp [zero_toInt, NoLostBits]⟩
  · rcases Nat.eq_zero_or_pos n with rfl | hp
    · have e : (shrOnU64 a 0).Canon ∧ (shrOnU64 a 0).toInt = a.toInt := by
        have nv : normalizeVec a.items = a.items :=
          val_inj (limbs_normalize ha.limbs) ha.limbs (norm_normalize _) ha.norm (val_normalize _)
        have : shrOnU64 a 0 = new a.sign a.items := by
          unfold shrOnU64; simp [h, nv]
        rw [this, new_toInt, ← toInt_eq_signed]
        exact ⟨new_canon ha.limbs ha.norm, rfl⟩
      exact ⟨e.1, by simp [e.2, NoLostBits]⟩
    · have cr : (new .pos [n]).Canon := new_canon
        (by rw [limbs_cons]; exact ⟨by rw [B_eq]; exact hn, by simp⟩)
        (by simp only [Norm, List.getLast?_singleton, ne_eq, Option.some.injEq]; omega)
      obtain ⟨c, e, r⟩ := C08_shr_iff_partial a (new .pos [n]) ha cr n hn
        (by rw [new_toInt]; simp [signed, val_cons])
      have hz : a.isZero = false := by
        rw [Bool.eq_false_iff]; intro x; exact h (isZero_iff.mp x)
      have e' : shr a (new .pos [n]) = .ok (shrOnU64 a n) := by
        unfold shr
        rw [hz]
        have : (new .pos [n]).isZero = false := rfl
        simp [this, new_items, new_sign]
      rw [e'] at e; cases e
      exact r

example : JsBig.Canon (new .pos [0, 6]) ∧ (shrOnU64 (new .pos [0, 6]) 65).toInt = 3 := by decide +kernel

/-- `get_last_bit` is the bit that a right shift by one loses. -/
theorem C81_last_bit (a : JsBig) (ha : a.Canon) : (a.getLastBit : Int) = a.toInt % 2 := by
  have h : a.getLastBit = val a.items % 2 := by
    unfold getLastBit
    split
    · rename_i h; simp [h]
    · rename_i d xs e
      rw [e, val_cons, Nat.and_one_is_mod, B_eq]
      omega
  rw [h, toInt_eq_signed a]
  cases a.sign <;> simp only [signed] <;> omega

example : JsBig.Canon (new .neg [7, 9]) ∧ (new .neg [7, 9]).getLastBit = 1 := by decide

/-- `pow_u64` is the power, or it panics, exactly for zero to a positive power. -/
theorem C81_pow_partial (a : JsBig) (ha : a.Canon) (n : Nat) (hn : n < 2 ^ 64) :
    (∃ c, powU64 a n = .ok c ∧ c.toInt = a.toInt ^ n ∧ c.Canon ∧ ¬ (a.toInt = 0 ∧ n ≠ 0)) ∨
      (powU64 a n = .error (.panic .overflow) ∧ a.toInt = 0 ∧ n ≠ 0) := by
  by_cases h : a.toInt = 0
  · have z : a = zero := by
      have hi : a.items = [] := by
        by_contra x
        have := val_pos ha.norm x
        rw [toInt_eq_signed a] at h
        cases e' : a.sign <;> rw [e'] at h <;> simp only [signed] at h <;> omega
      have hl := ha.len
      cases a; simp_all [zero, new]
    subst z
    by_cases hz : n = 0
    · subst hz
      exact .inl ⟨_, rfl, by decide, by decide, by simp⟩
    · exact .inr ⟨C06_pow_u64_zero_violated n hz, h, hz⟩
  · obtain ⟨c, e, v, cc⟩ := C06_pow_u64_partial a ha h n hn
    exact .inl ⟨c, e, v, cc, fun x => h x.1⟩

example : JsBig.Canon (fromU64 .neg 3) ∧ powU64 (fromU64 .neg 3) 3 = .ok (fromU64 .neg 27) := by decide +kernel

end Nanvm
