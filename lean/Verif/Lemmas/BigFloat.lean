import Verif.Model.BigFloat
import Verif.Lemmas.Double
import Verif.Props.JsBigintDiv
namespace Nanvm
open JsBig

/-- `j` is the canonical representation of the natural number `s` -/
def Is (j : JsBig) (s : Nat) : Prop := j.Canon ∧ j.toInt = (s : Int)

theorem Is.val {j : JsBig} {s : Nat} (h : Is j s) : Nanvm.val j.items = s := by
  have := natAbs_toInt j; rw [h.2] at this; omega

theorem Is.sign {j : JsBig} {s : Nat} (h : Is j s) : j.sign = .pos := by
  rcases canon_len_sign h.1 with ⟨e, -⟩ | ⟨e, -, -, v⟩
  · exact e
  · have := h.2; rw [toInt_eq_signed, e] at this; simp only [signed] at this; omega

theorem Is.isZero {j : JsBig} {s : Nat} (h : Is j s) : j.isZero = true ↔ s = 0 := by
  rw [isZero_iff, ← val_eq_zero_iff h.1.norm, h.val]

theorem Is.isZero_false {j : JsBig} {s : Nat} (h : Is j s) (hs : 0 < s) : j.isZero = false := by
  rw [Bool.eq_false_iff, ne_eq, h.isZero]; omega

theorem Is.compare {a b : JsBig} {s t : Nat} (ha : Is a s) (hb : Is b t) :
    JsBig.compare a b = Ord.compare (s : Int) t := by
  rw [C04_compare_partial a b ha.1 hb.1, ha.2, hb.2, if_neg (by omega)]

theorem Is.items {j : JsBig} {s : Nat} (h : Is j s) (h0 : 0 < s) (hs : s < 2 ^ 64) :
    j.items = [s] := by
  refine val_inj h.1.limbs (by rw [limbs_cons]; exact ⟨by rw [B_eq]; exact hs, by simp⟩)
    h.1.norm (by simp only [Norm, List.getLast?_singleton, ne_eq, Option.some.injEq]; omega)
    (by simp [val_cons, h.val])

/-- the number of limbs from the number of bits -/
theorem Is.length_le {j : JsBig} {s X : Nat} (h : Is j s) (hs : s < 2 ^ X) :
    64 * j.items.length ≤ X + 63 := by
  rcases Classical.em (j.items = []) with e | e
  · rw [e]; simp
  · have h1 := norm_ge h.1.norm e
    rw [h.val, B_eq, ← Nat.pow_mul] at h1
    have h2 : 64 * (j.items.length - 1) < X :=
      (Nat.pow_lt_pow_iff_right (by decide)).1 (lt_of_le_of_lt h1 hs)
    omega

theorem Is.lastBit {j : JsBig} {s : Nat} (h : Is j s) : j.getLastBit = s % 2 := by
  have hv := h.val
  unfold JsBig.getLastBit
  cases hi : j.items with
  | nil => rw [hi] at hv; simp only [val_nil] at hv; subst hv; rfl
  | cons d ds =>
    rw [hi, val_cons] at hv
    dsimp only
    rw [and_one, ← hv, B_eq]; omega

theorem is_fromU64 (n : Nat) (hn : n < 2 ^ 64) : Is (fromU64 .pos n) n :=
  ⟨fromU64_canon (by rw [B_eq]; exact hn), by rw [fromU64_toInt]; rfl⟩

theorem is_shl1 {j : JsBig} {s : Nat} (h : Is j s) (h0 : 0 < s) :
    ∃ c, shlOnU64 j 1 = .ok c ∧ Is c (s * 2) := by
  have hne : j.items ≠ [] := by
    intro he
    have := h.val; rw [he] at this; simp at this; omega
  obtain ⟨c, e, hv, hc⟩ := shlOnU64_ok j h.1 hne 1
  exact ⟨c, e, hc, by rw [hv, h.2]; push_cast; ring⟩

theorem is_shr1 {j : JsBig} {s : Nat} (h : Is j s) : Is (shrOnU64 j 1) (s / 2) := by
  obtain ⟨hc, hv⟩ := shrOnU64_ok j h.1 1 (Or.inl (by omega))
  refine ⟨hc, ?_⟩
  rw [hv, h.sign, h.val]
  simp [signed]

theorem is_pow2 (p : Nat) (hp : p < 2 ^ 64) : ∃ c, BigFloat.pow2 p = .ok c ∧ Is c (2 ^ p) := by
  obtain ⟨c, e, hv, hc⟩ := C07_shl_exact (fromU64 .pos 1) (fromU64 .pos p)
    (is_fromU64 1 (by omega)).1 p hp (is_fromU64 p hp).1 (is_fromU64 p hp).2
  refine ⟨c, e, hc, ?_⟩
  rw [hv, (is_fromU64 1 (by omega)).2]; push_cast; ring

namespace BigFloat

theorem i64_ok {x : Int} (h1 : -2 ^ 63 ≤ x) (h2 : x < 2 ^ 63) : i64 x = .ok x := by
  unfold i64; rw [if_pos ⟨h1, h2⟩]

theorem incLoop_ok {min : JsBig} {M : Nat} (hm : Is min M) (K : Nat) :
    ∀ (fuel s : Nat) (b : BigFloat), Is b.sig s → 0 < s → M ≤ s * 2 ^ K → K < fuel →
      -2 ^ 63 + (K : Int) ≤ b.exp → b.exp < 2 ^ 63 →
      ∃ k b', incLoop min fuel b = .ok b' ∧ k ≤ K ∧ Is b'.sig (s * 2 ^ k) ∧ b'.exp = b.exp - k ∧
        b'.sign = b.sign ∧ b'.rem = b.rem ∧ M ≤ s * 2 ^ k ∧ (k = 0 ∨ s * 2 ^ k < 2 * M) := by
  induction K with
  | zero =>
    intro fuel s b hs h0 hM hf he1 he2
    obtain ⟨f, rfl⟩ := Nat.exists_eq_add_of_lt hf
    rw [Nat.pow_zero, Nat.mul_one] at hM
    refine ⟨0, b, ?_, le_refl _, by simpa using hs, by simp, rfl, rfl, by simpa using hM, Or.inl rfl⟩
    rw [Nat.zero_add]
    unfold incLoop
    rw [hs.compare hm]
    rcases Nat.lt_or_ge M s with h | h
    · rw [ord_gt (by omega)]
    · rw [ord_eq (by omega)]
  | succ K ih =>
    intro fuel s b hs h0 hM hf he1 he2
    obtain ⟨f, rfl⟩ : ∃ f, fuel = f + 1 := ⟨fuel - 1, by omega⟩
    unfold incLoop
    rw [hs.compare hm]
    rcases Nat.lt_or_ge s M with h | h
    · rw [ord_lt (by omega)]
      obtain ⟨c, e, hc⟩ := is_shl1 hs h0
      have e64 : i64 (b.exp - 1) = .ok (b.exp - 1) := i64_ok (by push_cast at he1; omega) (by omega)
      obtain ⟨k, b', h1, h2, h3, h4, h5, h6, h7, h8⟩ := ih f (s * 2) { b with sig := c, exp := b.exp - 1 } hc
        (by omega) (by rw [pow_succ] at hM; rw [Nat.mul_assoc, Nat.mul_comm 2]; exact hM) (by omega)
        (by dsimp only; push_cast at he1; omega) (by dsimp only; omega)
      have ek : s * 2 * 2 ^ k = s * 2 ^ (k + 1) := by rw [pow_succ]; ring
      rw [ek] at h3 h7 h8
      refine ⟨k + 1, b', ?_, by omega, h3, by rw [h4]; push_cast; ring, h5, h6, h7, ?_⟩
      · simp only [e, e64]; exact h1
      · right
        rcases h8 with h8 | h8
        · subst h8; rw [Nat.zero_add, Nat.pow_one]; omega
        · exact h8
    · refine ⟨0, b, ?_, by omega, by simpa using hs, by simp, rfl, rfl, by simpa using h, Or.inl rfl⟩
      rcases Nat.lt_or_ge M s with h' | h'
      · rw [ord_gt (by omega)]
      · rw [ord_eq (by omega)]

/-- `increase_significand` multiplies the significand by the power of two needed -/
theorem increase_ok (p K : Nat) (hp : p < 2 ^ 64) (fuel s : Nat) (b : BigFloat) (hs : Is b.sig s)
    (h0 : 0 < s) (hM : 2 ^ p ≤ s * 2 ^ K) (hf : K < fuel) (he1 : -2 ^ 63 + (K : Int) ≤ b.exp)
    (he2 : b.exp < 2 ^ 63) :
    ∃ k b', increase fuel p b = .ok b' ∧ k ≤ K ∧ Is b'.sig (s * 2 ^ k) ∧ b'.exp = b.exp - k ∧
        b'.sign = b.sign ∧ b'.rem = b.rem ∧ 2 ^ p ≤ s * 2 ^ k ∧ (k = 0 ∨ s * 2 ^ k < 2 * 2 ^ p) := by
  obtain ⟨c, e, hc⟩ := is_pow2 p hp
  obtain ⟨k, b', h⟩ := incLoop_ok hc K fuel s b hs h0 hM hf he1 he2
  refine ⟨k, b', ?_, h.2⟩
  unfold increase increaseTo
  rw [hs.isZero_false h0, e]
  exact h.1

/-- the invariant of `decrease_significand` -/
theorem decLoop_ok {max : JsBig} {p : Nat} (hp : 0 < p) (hm : Is max (2 ^ p)) (x : ℚ) (K : Nat) :
    ∀ (fuel s : Nat) (b : BigFloat), Is b.sig s → 0 < s → s < 2 ^ (p + K) → K < fuel →
      -2 ^ 63 ≤ b.exp → b.exp + K < 2 ^ 63 → Approx x s b.exp b.rem →
      ∃ k s' b', decLoop max fuel b = .ok b' ∧ k ≤ K ∧ Is b'.sig s' ∧ b'.exp = b.exp + k ∧
        b'.sign = b.sign ∧ Approx x s' b'.exp b'.rem ∧ s' < 2 ^ p ∧
        (k = 0 ∧ b' = b ∨ 2 ^ (p - 1) ≤ s') ∧ 0 < s' := by
  induction K with
  | zero =>
    intro fuel s b hs h0 hM hf he1 he2 hx
    obtain ⟨f, rfl⟩ := Nat.exists_eq_add_of_lt hf
    rw [Nat.add_zero] at hM
    refine ⟨0, s, b, ?_, le_refl _, hs, by simp, rfl, hx, hM, Or.inl ⟨rfl, rfl⟩, h0⟩
    rw [Nat.zero_add]
    unfold decLoop
    rw [hs.compare hm, ord_lt (by exact_mod_cast hM), if_pos rfl]
  | succ K ih =>
    intro fuel s b hs h0 hM hf he1 he2 hx
    obtain ⟨f, rfl⟩ : ∃ f, fuel = f + 1 := ⟨fuel - 1, by omega⟩
    unfold decLoop
    rw [hs.compare hm]
    rcases Nat.lt_or_ge s (2 ^ p) with h | h
    · refine ⟨0, s, b, ?_, by omega, hs, by simp, rfl, hx, h, Or.inl ⟨rfl, rfl⟩, h0⟩
      rw [ord_lt (by exact_mod_cast h), if_pos rfl]
    · have hne : Ord.compare (s : Int) ((2 ^ p : Nat) : Int) ≠ .lt := by
        rcases Nat.lt_or_ge (2 ^ p) s with h' | h'
        · rw [ord_gt (by exact_mod_cast h')]; simp
        · rw [ord_eq (by exact_mod_cast (Nat.le_antisymm h' h))]; simp
      rw [if_neg hne]
      have e64 : i64 (b.exp + 1) = .ok (b.exp + 1) := i64_ok (by omega) (by push_cast at he2; omega)
      have h2p : 2 ^ p = 2 * 2 ^ (p - 1) := by
        rw [← pow_succ']; congr 1; omega
      have hx' := hx.shr1
      have hp1 : 0 < 2 ^ (p - 1) := by positivity
      have hs2 : 2 ^ (p - 1) ≤ s / 2 := by
        rw [Nat.le_div_iff_mul_le (by omega)]; omega
      obtain ⟨k, s', b', h1, h2, h3, h4, h5, h6, h7, h8, h9⟩ := ih f (s / 2)
        { b with sig := shrOnU64 b.sig 1, exp := b.exp + 1, rem := if b.sig.getLastBit = 1 then true else b.rem }
        (is_shr1 hs) (by omega)
        (by rw [Nat.div_lt_iff_lt_mul (by omega), ← pow_succ]; exact hM)
        (by omega) (by dsimp only; omega) (by dsimp only; push_cast at he2; omega)
        (by dsimp only; rw [hs.lastBit]; exact hx')
      refine ⟨k + 1, s', b', ?_, by omega, h3, by rw [h4]; push_cast; ring, h5, h6, h7, ?_, h9⟩
      · simp only [e64]; exact h1
      · right
        rcases h8 with ⟨-, h8⟩ | h8
        · rw [h8] at h3
          have := h3.2
          rw [(is_shr1 hs).2] at this
          have : s / 2 = s' := by exact_mod_cast this
          omega
        · exact h8

theorem decrease_ok (p K : Nat) (hp0 : 0 < p) (hp : p < 2 ^ 64) (x : ℚ) (fuel s : Nat) (b : BigFloat)
    (hs : Is b.sig s) (h0 : 0 < s) (hM : s < 2 ^ (p + K)) (hf : K < fuel) (he1 : -2 ^ 63 ≤ b.exp)
    (he2 : b.exp + K < 2 ^ 63) (hx : Approx x s b.exp b.rem) :
    ∃ k s' b', decrease fuel p b = .ok b' ∧ k ≤ K ∧ Is b'.sig s' ∧ b'.exp = b.exp + k ∧
        b'.sign = b.sign ∧ Approx x s' b'.exp b'.rem ∧ s' < 2 ^ p ∧
        (k = 0 ∧ b' = b ∨ 2 ^ (p - 1) ≤ s') ∧ 0 < s' := by
  obtain ⟨c, e, hc⟩ := is_pow2 p hp
  obtain ⟨k, s', b', h⟩ := decLoop_ok hp0 hc x K fuel s b hs h0 hM hf he1 he2 hx
  refine ⟨k, s', b', ?_, h.2⟩
  unfold decrease
  rw [hs.isZero_false h0, e]
  exact h.1

theorem getFracRound_ok (b : BigFloat) (s : Nat) (hs : Is b.sig s) (h0 : 0 < s) (h : s < 2 ^ 64) :
    getFracRound b = .ok (if (if s % 2 = 1 ∧ b.rem = false then s / 2 % 2 else s % 2) = 1
      then s / 2 + 1 else s / 2) := by
  unfold getFracRound
  rw [hs.lastBit, hs.items h0 h]
  simp only [idx, List.getElem?_cons_zero, and_one, bind, Except.bind, pure, Except.pure]
  congr 1
  cases b.rem <;> simp

/-- bitwise or of a sign bit and a magnitude is their sum -/
theorem or_sign (neg : Bool) (m : Nat) (hm : m < 2 ^ 63) :
    (if neg then 1 <<< 63 else 0) ||| m = (if neg then 2 ^ 63 else 0) + m := by
  cases neg
  · simp
  · simp only [if_true]
    have := Nat.two_pow_add_eq_or_of_lt hm 1
    simpa [Nat.shiftLeft_eq] using this.symm

end BigFloat
end Nanvm
