import Verif.Props.TokenizerTotal
import Verif.Props.BigFloatWell
/-!
# Property theorems C32: totality for literals with any exponent down to −2^59
-/
namespace Nanvm
namespace Tok
open NumLit LongDiv BigFloat

/-- C32, the part that holds, for smaller exponents too: a text is tokenized if the division by a power
of five goes well for each of its literals with more than 27 fraction digits.  Missing: literals for which
it goes wrong (`C32_total_violated`), and exponents that do not fit (`C32_total_overflow_violated`). -/
theorem C32_goes_well_partial (t : Text) (hlen : t.length < 2 ^ 56)
    (h : ∀ a (l : NumLit) c, t = a ++ (l.text ++ c) → l.Lax →
      (∀ e, l.exp = some e → decVal e.digits ≤ 2 ^ 58) ∧
      (l.expo < -27 → 0 < l.mant → ∀ a, Scaled l.mant (5 ^ l.expo.natAbs) a →
        GoesWell (5 ^ l.expo.natAbs) a)) :
    ∃ F, ∀ fuel ≥ F, ∃ ts, tokenize (BigFloat.toF64 fuel) t = .ok ts := by
  obtain ⟨N, hN⟩ : ∃ N : Nat, N = 2 ^ 59 := ⟨_, rfl⟩
  refine ⟨4 * t.length + 3 * 2 ^ 59 + 201 + (10 ^ t.length * 2 ^ (3 * N + 54) + 3 * N + 200),
    fun fuel hf => C32_total_conv t (by omega) ?_⟩
  intro a l c ht hl
  obtain ⟨h2, h3⟩ := h a l c ht hl
  refine ⟨fun e he => by have := h2 e he; omega, ?_⟩
  have hll : l.text.length ≤ t.length := by
    rw [ht]; simp only [List.length_append]; omega
  have hml := mant_length l
  obtain ⟨b, st, hb, -⟩ := run_mant (conv := fun _ => .ok 0) l hl (by omega)
  have hfr : (l.frac.getD []).length ≤ t.length := by
    have : (l.int ++ l.frac.getD []).length = l.int.length + (l.frac.getD []).length :=
      List.length_append
    omega
  have hup : l.expo ≤ 2 ^ 59 ∧ -2 ^ 59 ≤ l.expo := by
    unfold expo
    cases hx : l.exp with
    | none => simp only; omega
    | some e =>
      have := h2 e hx
      simp only [ExpPart.value]
      split <;> omega
  have hlog : l.mant.log2 < 2 ^ 59 := log2_digits (mant_digits hl) (by omega)
  have hlog' : l.mant.log2 ≤ 4 * (l.int ++ l.frac.getD []).length := log2_le_digits (mant_digits hl)
  have hlt : l.mant ≤ 10 ^ t.length := by
    refine le_trans (decVal_lt _ (mant_digits hl)).le (Nat.pow_le_pow_right (by norm_num) (by omega))
  have hc : ∃ v, BigFloat.toF64 fuel ⟨b, sg l.neg, l.expo, false⟩ = .ok v := by
    rcases Nat.eq_zero_or_pos l.mant with h0 | h0
    · exact ⟨0, toF64_zero _ (by simpa [h0] using hb) fuel⟩
    rcases lt_or_ge l.expo (-27) with hlow | hhigh
    · obtain ⟨v, hv, -⟩ := toF64_goesWell ⟨b, sg l.neg, l.expo, false⟩ l.mant l.expo.natAbs hb h0 rfl hlog
        (by dsimp only; omega) (by omega) (by omega) (h3 hlow h0)
      refine ⟨v, hv fuel ?_⟩
      have hn : l.expo.natAbs ≤ N := by omega
      have := Nat.mul_le_mul hlt (Nat.pow_le_pow_right (n := 2) (by norm_num)
        (show 3 * l.expo.natAbs + 54 ≤ 3 * N + 54 by omega))
      generalize 10 ^ t.length * 2 ^ (3 * N + 54) = X at *
      generalize l.mant * 2 ^ (3 * l.expo.natAbs + 54) = Y at *
      omega
    · obtain ⟨v, hv, -⟩ := toF64_fuel ⟨b, sg l.neg, l.expo, false⟩ l.mant hb h0 rfl hlog hhigh hup.1 fuel
        (by
          dsimp only
          generalize 10 ^ t.length * 2 ^ (3 * N + 54) = X at *
          omega)
      exact ⟨v, hv⟩
  obtain ⟨v, hv⟩ := hc
  unfold LitValue
  split
  · exact ⟨0, rfl⟩
  · exact ⟨v, b, hb, hv⟩

/-- the text `1e-53` -/
example : ∃ F, ∀ fuel ≥ F, ∃ ts, tokenize (BigFloat.toF64 fuel) ['1', 'e', '-', '5', '3'] = .ok ts := by
  refine C32_goes_well_partial _ (by decide) fun a l c ht hl => ?_
  have hfr : (l.frac.getD []).length ≤ 5 := by
    have h1 := mant_length l
    have h2 := congrArg List.length ht
    simp only [List.length_append, List.length_cons, List.length_nil] at h1 h2
    omega
  cases hx : l.exp with
  | none =>
    refine ⟨by simp, fun h => ?_⟩
    simp only [expo, hx] at h
    omega
  | some e =>
    have hm := (hl.exp e hx).marker
    have ht' : ['1', 'e', '-', '5', '3'] = (a ++ (signText l.neg ++ (l.int ++ fracText l.frac))) ++
        (e.marker :: (e.sign.toList ++ e.digits ++ c)) := by
      rw [ht]; simp [NumLit.text, expText, hx, ExpPart.text]
    have hi : l.int ≠ [] := by
      rcases hl.int with h | ⟨x, y, h, -⟩ <;> rw [h] <;> simp
    have hp : a ++ (signText l.neg ++ (l.int ++ fracText l.frac)) ≠ [] := by simp [hi]
    have hq : a ++ (signText l.neg ++ (l.int ++ fracText l.frac)) = ['1'] ∧
        ['-', '5', '3'] = e.sign.toList ++ e.digits ++ c := by
      revert hm
      generalize a ++ (signText l.neg ++ (l.int ++ fracText l.frac)) = p at ht' hp
      generalize e.sign.toList ++ e.digits ++ c = r at ht'
      rcases p with _ | ⟨x0, _ | ⟨x1, _ | ⟨x2, _ | ⟨x3, _ | ⟨x4, p⟩⟩⟩⟩⟩
      · exact absurd rfl hp
      all_goals simp only [List.cons_append, List.nil_append, List.cons.injEq] at ht'
      · intro _
        obtain ⟨h1, -, h2⟩ := ht'
        rw [← h1, ← h2]
        exact ⟨rfl, rfl⟩
      · rw [← ht'.2.2.1]; intro h; cases h
      · rw [← ht'.2.2.2.1]; intro h; cases h
      · rw [← ht'.2.2.2.2.1]; intro h; cases h
      · have := ht'.2.2.2.2.2; simp at this
    obtain ⟨hq, hr⟩ := hq
    have hint : l.int = ['1'] ∧ l.frac = none := by
      rcases hi' : l.int with _ | ⟨x, xs⟩
      · exact absurd hi' hi
      rw [hi'] at hq
      have hn := congrArg List.length hq
      simp only [List.length_append, List.length_cons, List.length_nil] at hn
      have h1 : a = [] := List.length_eq_zero_iff.1 (by omega)
      have h2 : signText l.neg = [] := List.length_eq_zero_iff.1 (by omega)
      have h3 : xs = [] := List.length_eq_zero_iff.1 (by omega)
      have h4 : fracText l.frac = [] := List.length_eq_zero_iff.1 (by omega)
      rw [h1, h2, h3, h4] at hq
      refine ⟨by rw [h3]; simpa using hq, ?_⟩
      cases hf : l.frac with
      | none => rfl
      | some ds => rw [hf] at h4; cases h4
    have hmant : l.mant = 1 := by unfold mant; rw [hint.1, hint.2]; decide
    have hv : e.value = 0 ∧ decVal e.digits = 0 ∨ e.value = -5 ∧ decVal e.digits = 5 ∨
        e.value = -53 ∧ decVal e.digits = 53 := by
      unfold ExpPart.value
      cases hs : e.sign with
      | none =>
        rw [hs] at hr
        rcases hd : e.digits with _ | ⟨d, ds⟩
        · simp [decVal]
        · rw [hd] at hr
          have := (hl.exp e hx).digits d (by rw [hd]; simp)
          simp only [Option.toList_none, List.nil_append, List.cons_append, List.cons.injEq] at hr
          rw [← hr.1] at this
          cases this
      | some g =>
        rw [hs] at hr
        simp only [Option.toList_some, List.cons_append, List.nil_append, List.cons.injEq] at hr
        obtain ⟨rfl, hr⟩ := hr
        rcases hd : e.digits with _ | ⟨d, _ | ⟨d', _ | ⟨d'', ds⟩⟩⟩
        · simp [decVal]
        all_goals
          rw [hd] at hr
          simp only [List.cons_append, List.nil_append, List.cons.injEq] at hr
        · rw [← hr.1]; exact .inr (.inl (by decide))
        · rw [← hr.1, ← hr.2.1]; exact .inr (.inr (by decide))
        · have := hr.2.2; simp at this
    refine ⟨fun e' he' => by cases he'; omega, fun hlow _ => ?_⟩
    have hexpo : l.expo = e.value := by
      simp only [expo, hx, hint.2, Option.getD_none, List.length_nil]; simp
    rcases hv with ⟨hv, -⟩ | ⟨hv, -⟩ | ⟨hv, -⟩
    · omega
    · omega
    · rw [hexpo, hv, hmant]
      exact well_53

end Tok
end Nanvm
