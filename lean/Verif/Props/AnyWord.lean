import Verif.Model.AnyWord
import Mathlib.Tactic.Common
/-!
# Property theorems C19–C21: value words and bit subsets
-/
namespace Nanvm
open BitSubset

/-! ## C21: the algebra of bit subsets -/

/-- Specification: `v` belongs to the pattern `(tag, mask)` when it agrees with the tag on
every bit of the mask. -/
def Agrees (tag mask v : W) : Prop :=
  ∀ i < 64, mask.getLsbD i = true → v.getLsbD i = tag.getLsbD i

/-- every bit of `a` is a bit of `b` -/
def SubBits (a b : W) : Prop := ∀ i < 64, a.getLsbD i = true → b.getLsbD i = true

/-- the representation invariant of a subset -/
def BitSubset.Valid (s : BitSubset) : Prop := SubBits s.tag s.mask

theorem bv_eq_iff {a b : W} : a = b ↔ ∀ i < 64, a.getLsbD i = b.getLsbD i :=
  ⟨fun h i _ => by rw [h], fun h => BitVec.eq_of_getLsbD_eq (fun i hi => h i hi)⟩

theorem zbit (i : Nat) : (0 : W).getLsbD i = false := BitVec.getLsbD_zero

theorem has_iff (s : BitSubset) (v : W) :
    s.has v = true ↔ ∀ i < 64, (v.getLsbD i && s.mask.getLsbD i) = s.tag.getLsbD i := by
  rw [BitSubset.has, beq_iff_eq, bv_eq_iff]
  simp only [BitVec.getLsbD_and]

theorem valid_iff (tag mask : W) : (mask &&& tag == tag) = true ↔ SubBits tag mask := by
  rw [beq_iff_eq, bv_eq_iff]
  simp only [BitVec.getLsbD_and, SubBits]
  constructor
  · intro h i hi ht; have := h i hi; rw [ht] at this; simpa using this
  · intro h i hi
    cases ht : tag.getLsbD i
    · simp
    · simp [h i hi ht]

theorem has_agrees {s : BitSubset} (h : s.Valid) (v : W) :
    s.has v = true ↔ Agrees s.tag s.mask v := by
  rw [has_iff]
  constructor
  · intro hh i hi hm; have := hh i hi; rw [hm, Bool.and_true] at this; exact this
  · intro hh i hi
    cases hm : s.mask.getLsbD i
    · cases ht : s.tag.getLsbD i
      · simp
      · have := h i hi ht; rw [hm] at this; cases this
    · rw [Bool.and_true, hh i hi hm]

/-- `from_tag_and_mask` fails exactly when the tag has a bit outside the mask; otherwise
the subset contains exactly the words agreeing with the tag on the mask. -/
theorem C21_from_tag_and_mask (tag mask : W) :
    (SubBits tag mask ∧ ∃ s, fromTagAndMask tag mask = .ok s ∧ s.Valid ∧
      ∀ v, s.has v = true ↔ Agrees tag mask v) ∨
    (¬ SubBits tag mask ∧ fromTagAndMask tag mask = .error (.panic .assert)) := by
  unfold fromTagAndMask BitSubset.assert
  by_cases h : (mask &&& tag == tag) = true
  · left
    rw [if_pos h]
    have hv := (valid_iff tag mask).1 h
    exact ⟨hv, ⟨tag, mask⟩, rfl, hv, fun v => has_agrees (s := ⟨tag, mask⟩) hv v⟩
  · right
    rw [if_neg h]
    exact ⟨fun hh => h ((valid_iff tag mask).2 hh), rfl⟩

theorem fromTagAndMask_ok {tag mask : W} (h : SubBits tag mask) :
    fromTagAndMask tag mask = .ok ⟨tag, mask⟩ := by
  unfold fromTagAndMask BitSubset.assert
  rw [(valid_iff tag mask).2 h]; rfl

/-- `split` succeeds exactly for a non-empty sub-mask of free bits, and then yields two
valid, disjoint subsets of the original; with a single-bit sub-mask they cover it. -/
theorem C21_split (s : BitSubset) (hs : s.Valid) (sub : W) :
    ((sub ≠ 0 ∧ ∀ i < 64, sub.getLsbD i = true → s.mask.getLsbD i = false) ∧
      ∃ a b, s.split sub = .ok (a, b) ∧ a.Valid ∧ b.Valid ∧
        (∀ v, a.has v = true → s.has v = true) ∧ (∀ v, b.has v = true → s.has v = true) ∧
        (∀ v, ¬ (a.has v = true ∧ b.has v = true)) ∧
        (∀ j < 64, (∀ i < 64, sub.getLsbD i = decide (i = j)) →
          ∀ v, s.has v = true → (if v.getLsbD j then b.has v else a.has v) = true)) ∨
    (¬ (sub ≠ 0 ∧ ∀ i < 64, sub.getLsbD i = true → s.mask.getLsbD i = false) ∧
      s.split sub = .error (.panic .assert)) := by
  unfold BitSubset.split BitSubset.assert
  by_cases h0 : sub = 0
  · right
    refine ⟨fun h => h.1 h0, ?_⟩
    subst h0; rfl
  have h0' : (sub != 0) = true := by simpa using h0
  rw [h0']
  by_cases h1 : (sub &&& s.mask == 0) = true
  · left
    rw [h1]
    rw [beq_iff_eq, bv_eq_iff] at h1
    simp only [BitVec.getLsbD_and, zbit] at h1
    have hfree : ∀ i < 64, sub.getLsbD i = true → s.mask.getLsbD i = false := by
      intro i hi h; have := h1 i hi; rw [h] at this; simpa using this
    refine ⟨⟨h0, hfree⟩, ⟨s.tag, s.mask ||| sub⟩, ⟨s.tag ||| sub, s.mask ||| sub⟩, ?_, ?_, ?_, ?_, ?_, ?_, ?_⟩
    · have e1 : fromTagAndMask s.tag (s.mask ||| sub) = .ok ⟨s.tag, s.mask ||| sub⟩ :=
        fromTagAndMask_ok (fun i hi h => by
          rw [BitVec.getLsbD_or, hs i hi h, Bool.true_or])
      have e2 : fromTagAndMask (s.tag ||| sub) (s.mask ||| sub) =
          .ok ⟨s.tag ||| sub, s.mask ||| sub⟩ :=
        fromTagAndMask_ok (fun i hi h => by
          rw [BitVec.getLsbD_or] at h ⊢
          rcases Bool.or_eq_true_iff.1 h with h | h
          · rw [hs i hi h, Bool.true_or]
          · rw [h, Bool.or_true])
      simp only [e1, e2]; rfl
    · intro i hi h
      rw [BitVec.getLsbD_or, hs i hi h, Bool.true_or]
    · intro i hi h
      dsimp only at h ⊢
      rw [BitVec.getLsbD_or] at h ⊢
      rcases Bool.or_eq_true_iff.1 h with h | h
      · rw [hs i hi h, Bool.true_or]
      · rw [h, Bool.or_true]
    · intro v hv
      rw [has_iff] at hv ⊢
      intro i hi
      have := hv i hi
      dsimp only at this
      rw [BitVec.getLsbD_or] at this
      have hv' := hs i hi
      revert this hv'
      have := hfree i hi
      revert this
      cases v.getLsbD i <;> cases s.mask.getLsbD i <;> cases s.tag.getLsbD i <;>
        cases sub.getLsbD i <;> simp
    · intro v hv
      rw [has_iff] at hv ⊢
      intro i hi
      have := hv i hi
      dsimp only at this
      rw [BitVec.getLsbD_or, BitVec.getLsbD_or] at this
      have hv' := hs i hi
      revert this hv'
      have := hfree i hi
      revert this
      cases v.getLsbD i <;> cases s.mask.getLsbD i <;> cases s.tag.getLsbD i <;>
        cases sub.getLsbD i <;> simp
    · rintro v ⟨ha, hb⟩
      rw [has_iff] at ha hb
      apply h0
      rw [bv_eq_iff]
      intro i hi
      have h2 := ha i hi
      have h3 := hb i hi
      dsimp only at h2 h3
      rw [h2, BitVec.getLsbD_or] at h3
      rw [zbit]
      have hv' := hs i hi
      have hf := hfree i hi
      revert h3 hv' hf
      cases s.tag.getLsbD i <;> cases sub.getLsbD i <;> cases s.mask.getLsbD i <;> simp
    · intro j hj hsub v hv
      rw [has_iff] at hv
      have hmj : s.mask.getLsbD j = false := hfree j hj (by rw [hsub j hj]; simp)
      cases hvj : v.getLsbD j
      · simp only [Bool.false_eq_true, if_false]
        rw [has_iff]
        intro i hi
        have h2 := hv i hi
        dsimp only
        rw [BitVec.getLsbD_or, hsub i hi]
        by_cases hij : i = j
        · subst hij
          rw [hvj] at h2 ⊢; simpa using h2
        · simpa [hij] using h2
      · simp only [if_true]
        rw [has_iff]
        intro i hi
        have h2 := hv i hi
        dsimp only
        rw [BitVec.getLsbD_or, BitVec.getLsbD_or, hsub i hi]
        by_cases hij : i = j
        · subst hij
          rw [hvj]; simp
        · simpa [hij] using h2
  · right
    refine ⟨?_, ?_⟩
    · rintro ⟨-, h2⟩
      apply h1
      rw [beq_iff_eq, bv_eq_iff]
      intro i hi
      rw [BitVec.getLsbD_and, zbit]
      cases h3 : sub.getLsbD i
      · simp
      · simp [h2 i hi h3]
    · have : (sub &&& s.mask == 0) = false := by simpa using h1
      rw [this]; rfl

theorem union_bit (s : BitSubset) (i : Nat) (hi : i < 64) :
    s.union.getLsbD i = (s.tag.getLsbD i ^^ !s.mask.getLsbD i) := by
  unfold BitSubset.union BitSubset.superposition
  rw [BitVec.getLsbD_xor, BitVec.getLsbD_not]; simp [hi]

/-- `or_unchecked` never fails; its result is the least subset containing both operands. -/
theorem C21_or_unchecked (a b : BitSubset) (ha : a.Valid) (hb : b.Valid) :
    ∃ c, orUnchecked a b = .ok c ∧ c.Valid ∧
      (∀ v, a.has v = true ∨ b.has v = true → c.has v = true) ∧
      (∀ d : BitSubset, d.Valid → (∀ v, a.has v = true ∨ b.has v = true → d.has v = true) →
        ∀ v, c.has v = true → d.has v = true) := by
  have hm : ∀ i < 64, (~~~ (a.tag &&& b.tag ^^^ (a.union ||| b.union))).getLsbD i =
      (a.mask.getLsbD i && b.mask.getLsbD i && (a.tag.getLsbD i == b.tag.getLsbD i)) := by
    intro i hi
    rw [BitVec.getLsbD_not, BitVec.getLsbD_xor, BitVec.getLsbD_and, BitVec.getLsbD_or,
      union_bit a i hi, union_bit b i hi]
    have h1 := ha i hi
    have h2 := hb i hi
    revert h1 h2
    simp only [hi, decide_true, Bool.true_and]
    cases a.tag.getLsbD i <;> cases b.tag.getLsbD i <;> cases a.mask.getLsbD i <;>
      cases b.mask.getLsbD i <;> simp
  have hv : SubBits (a.tag &&& b.tag) (~~~ (a.tag &&& b.tag ^^^ (a.union ||| b.union))) := by
    intro i hi h
    rw [hm i hi]
    rw [BitVec.getLsbD_and, Bool.and_eq_true] at h
    rw [ha i hi h.1, hb i hi h.2, h.1, h.2]; rfl
  refine ⟨⟨_, _⟩, fromTagAndMask_ok hv, hv, ?_, ?_⟩
  · intro v h
    rw [has_iff]
    intro i hi
    dsimp only
    rw [hm i hi, BitVec.getLsbD_and]
    have h1 := ha i hi
    have h2 := hb i hi
    rcases h with h | h
    · have h3 := (has_iff a v).1 h i hi
      revert h1 h2 h3
      cases a.tag.getLsbD i <;> cases b.tag.getLsbD i <;> cases a.mask.getLsbD i <;>
        cases b.mask.getLsbD i <;> cases v.getLsbD i <;> simp
    · have h3 := (has_iff b v).1 h i hi
      revert h1 h2 h3
      cases a.tag.getLsbD i <;> cases b.tag.getLsbD i <;> cases a.mask.getLsbD i <;>
        cases b.mask.getLsbD i <;> cases v.getLsbD i <;> simp
  · intro d hd hall v hc
    rw [has_iff] at hc ⊢
    intro i hi
    have hci := hc i hi
    dsimp only at hci
    rw [hm i hi, BitVec.getLsbD_and] at hci
    -- the extreme members of `a` and `b`
    have mem : ∀ s : BitSubset, s.Valid → ∀ x : W, s.has (s.tag ||| (x &&& ~~~ s.mask)) = true := by
      intro s hs x
      rw [has_iff]
      intro j hj
      have := hs j hj
      rw [BitVec.getLsbD_or, BitVec.getLsbD_and, BitVec.getLsbD_not]
      simp only [hj, decide_true, Bool.true_and]
      revert this
      cases s.tag.getLsbD j <;> cases s.mask.getLsbD j <;> cases x.getLsbD j <;> simp
    have bit : ∀ s : BitSubset, ∀ x : W, (s.tag ||| (x &&& ~~~ s.mask)).getLsbD i =
        (s.tag.getLsbD i || (x.getLsbD i && !s.mask.getLsbD i)) := by
      intro s x
      rw [BitVec.getLsbD_or, BitVec.getLsbD_and, BitVec.getLsbD_not]; simp [hi]
    have d1 := (has_iff d _).1 (hall _ (Or.inl (mem a ha 0))) i hi
    have d2 := (has_iff d _).1 (hall _ (Or.inl (mem a ha (BitVec.allOnes 64)))) i hi
    have d3 := (has_iff d _).1 (hall _ (Or.inr (mem b hb 0))) i hi
    have d4 := (has_iff d _).1 (hall _ (Or.inr (mem b hb (BitVec.allOnes 64)))) i hi
    rw [bit] at d1 d2 d3 d4
    simp only [zbit, BitVec.getLsbD_allOnes, hi, decide_true] at d1 d2 d3 d4
    have h1 := ha i hi
    have h2 := hb i hi
    revert h1 h2 d1 d2 d3 d4 hci
    cases a.tag.getLsbD i <;> cases b.tag.getLsbD i <;> cases a.mask.getLsbD i <;>
      cases b.mask.getLsbD i <;> cases v.getLsbD i <;> cases d.mask.getLsbD i <;>
      cases d.tag.getLsbD i <;> simp

/-- the checked `or` is `or_unchecked` for equal free bits, otherwise an assertion failure -/
theorem C21_or (a b : BitSubset) (ha : a.Valid) (hb : b.Valid) :
    (a.mask = b.mask ∧ ∃ c, BitSubset.or a b = .ok c ∧ c.Valid ∧
      ∀ v, a.has v = true ∨ b.has v = true → c.has v = true) ∨
    (a.mask ≠ b.mask ∧ BitSubset.or a b = .error (.panic .assert)) := by
  unfold BitSubset.or BitSubset.assert BitSubset.superposition
  by_cases h : a.mask = b.mask
  · left
    obtain ⟨c, e, hv, hc, -⟩ := C21_or_unchecked a b ha hb
    refine ⟨h, c, ?_, hv, hc⟩
    rw [h, if_pos (by simp)]; exact e
  · right
    refine ⟨h, ?_⟩
    have : (~~~ a.mask == ~~~ b.mask) = false := by
      simpa using h
    rw [this]; rfl

/-- `and` is the intersection; it fails exactly when the intersection is empty. -/
theorem C21_and (a b : BitSubset) (ha : a.Valid) (hb : b.Valid) :
    (∃ c, BitSubset.and a b = .ok c ∧ c.Valid ∧ (∃ v, c.has v = true) ∧
      ∀ v, c.has v = true ↔ a.has v = true ∧ b.has v = true) ∨
    (BitSubset.and a b = .error (.panic .assert) ∧ ∀ v, ¬ (a.has v = true ∧ b.has v = true)) := by
  unfold BitSubset.and fromTagAndUnion fromTagAndSuperposition
  set mask := ~~~ ((a.tag ||| b.tag) ^^^ (a.union &&& b.union)) with hmask
  have hm : ∀ i < 64, mask.getLsbD i = !((a.tag.getLsbD i || b.tag.getLsbD i) ^^
      ((a.tag.getLsbD i ^^ !a.mask.getLsbD i) && (b.tag.getLsbD i ^^ !b.mask.getLsbD i))) := by
    intro i hi
    rw [hmask, BitVec.getLsbD_not, BitVec.getLsbD_xor, BitVec.getLsbD_or, BitVec.getLsbD_and,
      union_bit a i hi, union_bit b i hi]
    simp [hi]
  rcases C21_from_tag_and_mask (a.tag ||| b.tag) mask with ⟨hs, -⟩ | ⟨hs, e⟩
  · left
    refine ⟨⟨a.tag ||| b.tag, mask⟩, fromTagAndMask_ok hs, hs, ⟨a.tag ||| b.tag, ?_⟩, ?_⟩
    · rw [has_iff]
      intro i hi
      have := hs i hi
      dsimp only
      cases h : (a.tag ||| b.tag).getLsbD i
      · rfl
      · rw [this h]; rfl
    · intro v
      rw [has_iff, has_iff, has_iff, ← forall₂_and]
      apply forall₂_congr
      intro i hi
      have h1 := ha i hi
      have h2 := hb i hi
      have h3 := hs i hi
      dsimp only
      rw [hm i hi] at h3 ⊢
      rw [BitVec.getLsbD_or] at h3 ⊢
      revert h1 h2 h3
      cases a.tag.getLsbD i <;> cases b.tag.getLsbD i <;> cases a.mask.getLsbD i <;>
        cases b.mask.getLsbD i <;> cases v.getLsbD i <;> simp
  · right
    refine ⟨e, ?_⟩
    rintro v ⟨h1, h2⟩
    apply hs
    intro i hi h
    rw [BitVec.getLsbD_or] at h
    rw [hm i hi]
    have h3 := (has_iff a v).1 h1 i hi
    have h4 := (has_iff b v).1 h2 i hi
    have h5 := ha i hi
    have h6 := hb i hi
    revert h h3 h4 h5 h6
    cases a.tag.getLsbD i <;> cases b.tag.getLsbD i <;> cases a.mask.getLsbD i <;>
      cases b.mask.getLsbD i <;> cases v.getLsbD i <;> simp

/-- Raw values embed into a subset and are recovered; conversely a member is rebuilt from
its raw value. -/
theorem C21_raw_round_trip (s : BitSubset) (hs : s.Valid) :
    (∀ x, SubBits x s.superposition → s.has (s.fromRaw x) = true ∧ s.toRaw (s.fromRaw x) = x) ∧
    (∀ w, s.has w = true → SubBits (s.toRaw w) s.superposition ∧ s.fromRaw (s.toRaw w) = w) := by
  have hsup : ∀ i < 64, s.superposition.getLsbD i = !s.mask.getLsbD i := by
    intro i hi; unfold BitSubset.superposition; rw [BitVec.getLsbD_not]; simp [hi]
  constructor
  · intro x hx
    refine ⟨?_, ?_⟩
    · rw [has_iff]
      intro i hi
      have h1 := hs i hi
      have h2 := hx i hi
      rw [hsup i hi] at h2
      unfold BitSubset.fromRaw
      rw [BitVec.getLsbD_or]
      revert h1 h2
      cases s.tag.getLsbD i <;> cases s.mask.getLsbD i <;> cases x.getLsbD i <;> simp
    · rw [bv_eq_iff]
      intro i hi
      have h1 := hs i hi
      have h2 := hx i hi
      unfold BitSubset.toRaw BitSubset.fromRaw
      rw [BitVec.getLsbD_and, BitVec.getLsbD_or]
      rw [hsup i hi] at h2 ⊢
      revert h1 h2
      cases s.tag.getLsbD i <;> cases s.mask.getLsbD i <;> cases x.getLsbD i <;> simp
  · intro w hw
    rw [has_iff] at hw
    refine ⟨?_, ?_⟩
    · intro i hi h
      unfold BitSubset.toRaw at h
      rw [BitVec.getLsbD_and, Bool.and_eq_true] at h
      exact h.1
    · rw [bv_eq_iff]
      intro i hi
      have h1 := hw i hi
      unfold BitSubset.toRaw BitSubset.fromRaw
      rw [BitVec.getLsbD_or, BitVec.getLsbD_and, hsup i hi]
      revert h1
      cases s.tag.getLsbD i <;> cases s.mask.getLsbD i <;> cases w.getLsbD i <;> simp

/-- the constants of `bitset.rs` evaluate without a failed assertion to the values used -/
theorem C21_constants :
    fromTag 0xFFF8_0000_0000_0000 = .ok EXTENSION ∧
    EXTENSION.split 0x0004_0000_0000_0000 = .ok (SIMPLE, REF) ∧
    SIMPLE.split 0x0002_0000_0000_0000 = .ok (BOOL, NULL) ∧
    REF.split 0x0002_0000_0000_0000 = .ok (REF_SPLIT0, REF_SPLIT1) ∧
    REF_SPLIT0.split 0x0001_0000_0000_0000 = .ok (STRING, OBJECT) ∧
    REF_SPLIT1.split 0x0001_0000_0000_0000 = .ok (ARRAY, BIGINT) := by decide +kernel

example : BitSubset.Valid ⟨0b000110, ~~~ 1⟩ ∧ BitSubset.Valid ⟨0b010100, ~~~ 0b01011⟩ := by
  constructor <;> · unfold BitSubset.Valid; rw [← valid_iff]; decide

/-! ## C19: every word has exactly one type -/

theorem ext_valid : EXTENSION.Valid ∧ SIMPLE.Valid ∧ REF.Valid ∧ REF_SPLIT0.Valid ∧ REF_SPLIT1.Valid ∧
    BOOL.Valid ∧ NULL.Valid ∧ STRING.Valid ∧ OBJECT.Valid ∧ ARRAY.Valid ∧ BIGINT.Valid := by
  unfold BitSubset.Valid
  simp only [← valid_iff]
  decide

theorem split_bit {s a b : BitSubset} {sub : W} (hs : s.Valid) (h : s.split sub = .ok (a, b))
    (j : Nat) (hj : j < 64) (hb : ∀ i < 64, sub.getLsbD i = decide (i = j)) (v : W) :
    (a.has v = (s.has v && !v.getLsbD j)) ∧ (b.has v = (s.has v && v.getLsbD j)) := by
  rcases C21_split s hs sub with ⟨-, a', b', e, -, -, h1, h2, h3, h4⟩ | ⟨-, e⟩
  · rw [h] at e
    cases e
    have h1 := h1 v
    have h2 := h2 v
    have h3 := h3 v
    have h4 := h4 j hj hb v
    revert h1 h2 h3 h4
    cases a.has v <;> cases b.has v <;> cases s.has v <;> cases v.getLsbD j <;> simp
  · rw [h] at e; cases e

/-- membership of the final subsets in terms of `EXTENSION` and bits 48, 49, 50 -/
theorem type_bits (w : W) :
    REF.has w = (EXTENSION.has w && w.getLsbD 50) ∧
    BOOL.has w = (EXTENSION.has w && !w.getLsbD 50 && !w.getLsbD 49) ∧
    NULL.has w = (EXTENSION.has w && !w.getLsbD 50 && w.getLsbD 49) ∧
    STRING.has w = (EXTENSION.has w && w.getLsbD 50 && !w.getLsbD 49 && !w.getLsbD 48) ∧
    OBJECT.has w = (EXTENSION.has w && w.getLsbD 50 && !w.getLsbD 49 && w.getLsbD 48) ∧
    ARRAY.has w = (EXTENSION.has w && w.getLsbD 50 && w.getLsbD 49 && !w.getLsbD 48) ∧
    BIGINT.has w = (EXTENSION.has w && w.getLsbD 50 && w.getLsbD 49 && w.getLsbD 48) := by
  obtain ⟨v0, v1, v2, v3, v4, -⟩ := ext_valid
  obtain ⟨-, e1, e2, e3, e4, e5⟩ := C21_constants
  obtain ⟨a1, b1⟩ := split_bit v0 e1 50 (by omega) (by decide) w
  obtain ⟨a2, b2⟩ := split_bit v1 e2 49 (by omega) (by decide) w
  obtain ⟨a3, b3⟩ := split_bit v2 e3 49 (by omega) (by decide) w
  obtain ⟨a4, b4⟩ := split_bit v3 e4 48 (by omega) (by decide) w
  obtain ⟨a5, b5⟩ := split_bit v4 e5 48 (by omega) (by decide) w
  rw [b1] at a3 b3
  rw [a1] at a2 b2
  rw [a3] at a4 b4
  rw [b3] at a5 b5
  exact ⟨b1, a2, b2, a4, b4, a5, b5⟩

theorem refType_bits (w : W) : refType w =
    (if w.getLsbD 49 then (if w.getLsbD 48 then 3 else 2) else (if w.getLsbD 48 then 1 else 0)) := by
  rw [bv_eq_iff]
  intro i hi
  unfold refType
  rw [BitVec.getLsbD_and, BitVec.getLsbD_ushiftRight]
  rcases Nat.lt_or_ge i 2 with h | h
  · have : i = 0 ∨ i = 1 := by omega
    rcases this with rfl | rfl
    · cases w.getLsbD 49 <;> cases w.getLsbD 48 <;> simp
    · cases w.getLsbD 49 <;> cases w.getLsbD 48 <;> simp
  · have h3 : ∀ c : W, c.toNat < 4 → c.getLsbD i = false := by
      intro c hc
      rw [BitVec.getLsbD]
      apply Nat.testBit_lt_two_pow
      calc c.toNat < 2 ^ 2 := hc
        _ ≤ 2 ^ i := Nat.pow_le_pow_right (by omega) h
    rw [h3 (0b11) (by decide), Bool.and_false]
    symm
    split <;> split <;> exact h3 _ (by decide)

/-- Exactly one type test holds for every word, and `get_type` reports it. -/
theorem C19_exactly_one_type (w : W) :
    ∃ t, getType w = .ok t ∧ ∀ t', isType t' w = true ↔ t' = t := by
  obtain ⟨h1, h2, h3, h4, h5, h6, h7⟩ := type_bits w
  have hr := refType_bits w
  unfold getType isRef
  have ht : ∀ t', isType t' w = match t' with
      | .number => !EXTENSION.has w
      | .bool => (EXTENSION.has w && !w.getLsbD 50 && !w.getLsbD 49)
      | .null => (EXTENSION.has w && !w.getLsbD 50 && w.getLsbD 49)
      | .string => (EXTENSION.has w && w.getLsbD 50 && !w.getLsbD 49 && !w.getLsbD 48)
      | .object => (EXTENSION.has w && w.getLsbD 50 && !w.getLsbD 49 && w.getLsbD 48)
      | .array => (EXTENSION.has w && w.getLsbD 50 && w.getLsbD 49 && !w.getLsbD 48)
      | .bigint => (EXTENSION.has w && w.getLsbD 50 && w.getLsbD 49 && w.getLsbD 48) := by
    intro t'
    cases t' <;> simp only [isType, subsetOf] <;> assumption
  simp only [ht, hr, h1]
  generalize EXTENSION.has w = e
  generalize w.getLsbD 50 = b50
  generalize w.getLsbD 49 = b49
  generalize w.getLsbD 48 = b48
  cases e <;> cases b50 <;> cases b49 <;> cases b48 <;>
    refine ⟨_, rfl, ?_⟩ <;> intro t' <;> cases t' <;> decide

/-- `to_visitor` never panics and hands the visitor a value of the one type of the word. -/
theorem C19_visitor (w : W) :
    ∃ v, toVisitor w = .ok v ∧ getType w = .ok v.type ∧ tryMove v.type w = some v := by
  obtain ⟨t, h, ht⟩ := C19_exactly_one_type w
  have hi := (ht t).2 rfl
  unfold toVisitor
  rw [h]
  refine ⟨fromAny t w, ?_, ?_, ?_⟩
  · cases t <;> simp [bind, Except.bind, tryMove, hi, pure, Except.pure, fromAny]
  · cases t <;> rfl
  · have : (fromAny t w).type = t := by cases t <;> rfl
    rw [this, tryMove, if_pos hi]

/-- The word holds a reference exactly when its type is one of the four heap types; the
block address is then its low 48 bits. -/
theorem C19_is_ref (w : W) :
    (isRef w = true ↔ getType w ∈ [.ok .string, .ok .object, .ok .array, .ok .bigint]) ∧
    (∀ p, blockAddr w = some p ↔ isRef w = true ∧ p.toNat = w.toNat % 2 ^ 48) := by
  constructor
  · obtain ⟨h1, h2, h3, -⟩ := type_bits w
    unfold getType isRef
    simp only [isType, subsetOf, h1, h3, refType_bits]
    generalize EXTENSION.has w = e
    generalize w.getLsbD 50 = b50
    generalize w.getLsbD 49 = b49
    generalize w.getLsbD 48 = b48
    cases e <;> cases b50 <;> cases b49 <;> cases b48 <;> decide
  · intro p
    have hb : (w &&& REF_SUBSET_SUPERPOSITION).toNat = w.toNat % 2 ^ 48 := by
      rw [BitVec.toNat_and]
      exact Nat.and_two_pow_sub_one_eq_mod _ 48
    unfold blockAddr
    by_cases h : isRef w = true
    · rw [if_pos h]
      simp only [Option.some.injEq, h, true_and]
      rw [← hb, ← BitVec.toNat_inj]
      exact eq_comm
    · rw [if_neg h]; simp [h]

/-- A reference is destroyed as the type it has, except that destroying a bigint panics
(any_internal.rs:68-76 has no arm for it). -/
theorem C19_delete_dispatch (w : W) (h : isRef w = true) :
    (getType w = .ok .bigint ∧ deleteType w = .error (.panic .unreachable)) ∨
    (getType w ≠ .ok .bigint ∧ deleteType w = getType w) := by
  obtain ⟨h1, h2, h3, -⟩ := type_bits w
  unfold isRef at h
  unfold getType deleteType isRef
  simp only [h, if_true, refType_bits]
  generalize w.getLsbD 49 = b49
  generalize w.getLsbD 48 = b48
  cases b49 <;> cases b48 <;> decide

example : isRef 0xFFFF_0000_1234_5678 = true ∧ isRef 0xFFFE_0000_1234_5678 = true ∧
    deleteType 0xFFFE_0000_1234_5678 = .ok .array := by decide

example : getType 0xFFFF_0000_1234_5678 = .ok .bigint ∧ getType 0x7FF8_0000_0000_0000 = .ok .number ∧
    getType 0xFFFB_0000_0000_0001 = .ok .null := by decide

/-! ## C20: storing and retrieving -/

/-- Full claim of C20: every typed value that the program can store (any double, any pointer
whose address fits into 48 bits) comes back unchanged, and only at its own type. -/
def RoundTrips (v : TVal) : Prop :=
  ∀ t, tryMove t (moveFrom v) = if t = v.type then some v else none

/-- pointers are 48-bit addresses -/
def TVal.AddrOk : TVal → Prop
  | .string p | .object p | .array p | .bigint p => p.toNat < 2 ^ 48
  | _ => True

/-- the sign bit, the eleven exponent bits and the quiet bit of a double are all set:
a negative quiet NaN -/
def NegQuietNaN (bits : W) : Prop := bits.toNat / 2 ^ 51 = 2 ^ 13 - 1

/-- The full claim is false: the negative quiet NaN (the default NaN of x86) comes back as
the boolean `false`, another one as a string pointer. -/
theorem C20_number_violated :
    ¬ RoundTrips (.number 0xFFF8_0000_0000_0000) ∧
    tryMove .bool (moveFrom (.number 0xFFF8_0000_0000_0000)) = some (.bool false) ∧
    tryMove .string (moveFrom (.number 0xFFFC_0000_DEAD_BEEF)) = some (.string 0xDEAD_BEEF) := by
  refine ⟨fun h => ?_, by decide, by decide⟩
  exact absurd (h .number) (by decide)

theorem ext_has_iff (w : W) : EXTENSION.has w = true ↔ NegQuietNaN w := by
  have hm : EXTENSION.mask.toNat = (2 ^ 13 - 1) * 2 ^ 51 := by decide
  have ht : EXTENSION.tag.toNat = (2 ^ 13 - 1) * 2 ^ 51 := by decide
  rw [has_agrees ext_valid.1]
  unfold NegQuietNaN
  constructor
  · intro h
    apply Nat.eq_of_testBit_eq
    intro i
    rw [Nat.testBit_div_two_pow, Nat.testBit_two_pow_sub_one]
    by_cases hi : i < 13
    · have : (∀ j < 13, EXTENSION.mask.getLsbD (j + 51) = true) ∧
          (∀ j < 13, EXTENSION.tag.getLsbD (j + 51) = true) := by decide
      have h2 := h (i + 51) (by omega) (this.1 i hi)
      rw [this.2 i hi] at h2
      simpa [hi, BitVec.getLsbD] using h2
    · simp only [hi, decide_false]
      apply Nat.testBit_lt_two_pow
      calc w.toNat < 2 ^ 64 := w.isLt
        _ ≤ 2 ^ (i + 51) := Nat.pow_le_pow_right (by omega) (by omega)
  · intro h i hi hm
    have hall : ∀ j < 64, EXTENSION.mask.getLsbD j = true → 51 ≤ j ∧ EXTENSION.tag.getLsbD j = true := by decide
    obtain ⟨h51, ht⟩ := hall i hi hm
    rw [ht]
    have : (w.toNat / 2 ^ 51).testBit (i - 51) = true := by
      rw [h, Nat.testBit_two_pow_sub_one]; simp; omega
    rw [Nat.testBit_div_two_pow, Nat.sub_add_cancel h51] at this
    exact this

theorem sub48 {s : BitSubset} (hs : s.superposition = 0xFFFF_FFFF_FFFF) {p : W} (hp : p.toNat < 2 ^ 48) :
    SubBits p s.superposition := by
  intro i hi h
  rw [hs]
  have h48 : i < 48 := by
    by_contra hc
    have : p.getLsbD i = false := by
      rw [BitVec.getLsbD]
      apply Nat.testBit_lt_two_pow
      exact Nat.lt_of_lt_of_le hp (Nat.pow_le_pow_right (by omega) (by omega))
    rw [this] at h; cases h
  have : ∀ i < 48, (0xFFFF_FFFF_FFFF : W).getLsbD i = true := by decide
  exact this i h48

theorem tryMove_of {t : JsType} {w : W} (h : isType t w = true) (t' : JsType) :
    tryMove t' w = if t' = t then some (fromAny t w) else none := by
  obtain ⟨t0, -, ht⟩ := C19_exactly_one_type w
  have e : t = t0 := (ht t).1 h
  subst e
  unfold tryMove
  by_cases h' : t' = t
  · subst h'; rw [if_pos h, if_pos rfl]
  · rw [if_neg (fun hh => h' ((ht t').1 hh)), if_neg h']

/-- Everything but negative quiet NaNs round trips, and is refused at every other type.
Missing from the full claim: exactly the doubles of `C20_nan_never`. -/
theorem C20_round_trip_partial (v : TVal) (ha : v.AddrOk)
    (hn : ∀ bits, v = .number bits → ¬ NegQuietNaN bits) : RoundTrips v := by
  obtain ⟨-, -, -, -, -, -, -, hS, hO, hA, hB⟩ := ext_valid
  intro t
  cases v with
  | null => exact tryMove_of (t := .null) (by decide) t
  | bool b => cases b <;> exact tryMove_of (t := .bool) (by decide) t
  | number bits =>
    have : isType .number bits = true := by
      have := hn bits rfl
      rw [← ext_has_iff] at this
      simpa [isType] using this
    exact tryMove_of this t
  | string p =>
    obtain ⟨h1, h2⟩ := (C21_raw_round_trip STRING hS).1 p (sub48 (by decide) ha)
    have := tryMove_of (t := .string) (w := moveFrom (.string p)) h1 t
    rw [this]; simp only [fromAny, moveFrom, h2, TVal.type]; rfl
  | object p =>
    obtain ⟨h1, h2⟩ := (C21_raw_round_trip OBJECT hO).1 p (sub48 (by decide) ha)
    have := tryMove_of (t := .object) (w := moveFrom (.object p)) h1 t
    rw [this]; simp only [fromAny, moveFrom, h2, TVal.type]; rfl
  | array p =>
    obtain ⟨h1, h2⟩ := (C21_raw_round_trip ARRAY hA).1 p (sub48 (by decide) ha)
    have := tryMove_of (t := .array) (w := moveFrom (.array p)) h1 t
    rw [this]; simp only [fromAny, moveFrom, h2, TVal.type]; rfl
  | bigint p =>
    obtain ⟨h1, h2⟩ := (C21_raw_round_trip BIGINT hB).1 p (sub48 (by decide) ha)
    have := tryMove_of (t := .bigint) (w := moveFrom (.bigint p)) h1 t
    rw [this]; simp only [fromAny, moveFrom, h2, TVal.type]; rfl

/-- The excluded doubles are exactly the ones that do not round trip. -/
theorem C20_nan_never (bits : W) : RoundTrips (.number bits) ↔ ¬ NegQuietNaN bits := by
  constructor
  · intro h hn
    have := h .number
    rw [← ext_has_iff] at hn
    simp [tryMove, isType, moveFrom, hn, TVal.type] at this
  · intro h
    exact C20_round_trip_partial _ (by simp [TVal.AddrOk]) (fun b hb => by cases hb; exact h)

/-- An address of more than 48 bits is not recovered: the bound is necessary. -/
theorem C20_address_bound_needed : ¬ RoundTrips (.string 0x0001_0000_0000_0000) := by
  intro h; exact absurd (h .string) (by decide)

example : (TVal.object 0x7FFF_1234_5670).AddrOk ∧ RoundTrips (.object 0x7FFF_1234_5670) :=
  ⟨(by unfold TVal.AddrOk; decide), C20_round_trip_partial _ (by unfold TVal.AddrOk; decide) (fun _ h => by cases h)⟩

example : ¬ NegQuietNaN 0x7FF8_0000_0000_0000 ∧ ¬ NegQuietNaN 0xFFF0_0000_0000_0000 ∧
    ¬ NegQuietNaN 0x8000_0000_0000_0000 := by unfold NegQuietNaN; decide

/-- a tag in the high sixteen bits of a word leaves the low 48 bits as they are -/
theorem tag_add {t : Nat} (ht : t < 2 ^ 16) {p : W} (hp : p.toNat < 2 ^ 48) :
    (BitVec.ofNat 64 (t * 2 ^ 48) ||| p).toNat = t * 2 ^ 48 + p.toNat := by
  rw [BitVec.toNat_or, BitVec.toNat_ofNat, Nat.mod_eq_of_lt (by omega), ← Nat.shiftLeft_eq,
    Nat.shiftLeft_add_eq_or_of_lt hp]

/-- The word of every value, as the comments of bitset.rs describe it: `null`, `false` and
`true` are three fixed words, a number is its own bits, and a reference has its type in the
high sixteen bits and its address in the other 48. -/
theorem C20_words :
    (moveFrom .null).toNat = 0xFFFA_0000_0000_0000 ∧
    (moveFrom (.bool false)).toNat = 0xFFF8_0000_0000_0000 ∧
    (moveFrom (.bool true)).toNat = 0xFFF8_0000_0000_0001 ∧
    (∀ bits, moveFrom (.number bits) = bits) ∧
    ∀ p : W, p.toNat < 2 ^ 48 →
      (moveFrom (.string p)).toNat = 0xFFFC * 2 ^ 48 + p.toNat ∧
      (moveFrom (.object p)).toNat = 0xFFFD * 2 ^ 48 + p.toNat ∧
      (moveFrom (.array p)).toNat = 0xFFFE * 2 ^ 48 + p.toNat ∧
      (moveFrom (.bigint p)).toNat = 0xFFFF * 2 ^ 48 + p.toNat :=
  ⟨by decide, by decide, by decide, fun _ => rfl, fun _ hp =>
    ⟨tag_add (t := 0xFFFC) (by decide) hp, tag_add (t := 0xFFFD) (by decide) hp,
      tag_add (t := 0xFFFE) (by decide) hp, tag_add (t := 0xFFFF) (by decide) hp⟩⟩

example : (moveFrom (.array 0x7FFF_1234_5670)).toNat = 0xFFFE_7FFF_1234_5670 := by decide

end Nanvm
