import Verif.Props.TokenizerWell
import Verif.Props.SerializerJson
import Verif.Lemmas.SerInjective
/-!
# Property theorems C16 and C51 for literals whose division by a power of five goes well
-/
namespace Nanvm
open Tok NumLit LongDiv BigFloat

/-- The literal has a negative decimal exponent, the division of its digits by the power of five goes
well, and its value is not between half and all of the smallest positive double. -/
structure NumLit.Well (l : NumLit) : Prop where
  expo : l.expo < 0
  digits : ∀ a, Scaled l.mant (5 ^ l.expo.natAbs) a → GoesWell (5 ^ l.expo.natAbs) a
  band : ¬ ((2 : ℚ) ^ (-1075 : Int) < l.value ∧ l.value < (2 : ℚ) ^ (-1074 : Int))

/-- C16 for literals in a text, with any negative exponent down to −2^58: if the division goes well, the
token is the double nearest to the written value.  Missing: literals for which it does not
(`C16_termination_violated`), and the sign of zero (`C16_negative_zero_violated`). -/
theorem C16_literal_well_partial (l : NumLit) (hl : l.Valid)
    (hlen : l.text.length < 2 ^ 56) (he : ∀ e, l.exp = some e → decVal e.digits ≤ 2 ^ 58)
    (hw : l.Well) (hz : 0 < l.mant) :
    ∃ bits, IsNearestDouble l.neg l.value bits ∧
      ∃ F, ∀ fuel ≥ F, LitValue (BigFloat.toF64 fuel) l bits ∧
        ∀ rem, NumEnd rem → tokenize (BigFloat.toF64 fuel) (l.text ++ rem) =
          (tokenize (BigFloat.toF64 fuel) rem).bind fun q => .ok (.number bits :: q) := by
  have hml := mant_length l
  have hfr : (l.frac.getD []).length < 2 ^ 56 := by
    have : (l.int ++ l.frac.getD []).length = l.int.length + (l.frac.getD []).length :=
      List.length_append
    omega
  have hlow : -2 ^ 59 ≤ l.expo := by
    unfold expo
    cases hx : l.exp with
    | none => simp only; omega
    | some e =>
      have := he e hx
      simp only [ExpPart.value]
      split <;> omega
  have hneg := hw.expo
  obtain ⟨b, st, hb, -⟩ := run_mant (conv := fun _ => .ok 0) l hl.1 (by omega)
  have hlog : l.mant.log2 < 2 ^ 59 :=
    log2_digits (mant_digits hl.1) (lt_of_le_of_lt (mant_length l) hlen)
  obtain ⟨bits, hF, hn⟩ := toF64_goesWell ⟨b, sg l.neg, l.expo, false⟩ l.mant l.expo.natAbs hb hz rfl hlog
    (by dsimp only; omega) (by omega) (by omega) hw.digits
  have hn := hn hw.band
  have hsg : (decide ((sg l.neg) = Sign.neg)) = l.neg := by cases l.neg <;> rfl
  refine ⟨bits, ?_, l.mant * 2 ^ (3 * l.expo.natAbs + 54) + 3 * l.expo.natAbs + 200, fun fuel hf => ?_⟩
  · rw [NumLit.value]
    simp only [hsg] at hn
    exact_mod_cast hn
  · have hv : LitValue (BigFloat.toF64 fuel) l bits := by
      rw [LitValue]
      split
      · rename_i hp
        have hm : l.mant = 0 := by simp [mant, hp.1, hp.2.1, decVal]
        omega
      · exact ⟨b, hb, hF fuel hf⟩
    refine ⟨hv, fun rem hr => C37_complete l bits rem hl hr (by omega) (fun e hx => ?_) hv⟩
    have := he e hx; omega

/-- the literal `1e-53` -/
example : ∃ bits, IsNearestDouble false (1 * 10 ^ (-53 : Int)) bits ∧ ∃ F, ∀ fuel ≥ F,
    tokenize (BigFloat.toF64 fuel) ['1', 'e', '-', '5', '3'] = .ok [.number bits] := by
  have hm : (⟨false, ['1'], none, some ⟨'e', some '-', ['5', '3']⟩⟩ : NumLit).mant = 1 := by decide
  have hx : (⟨false, ['1'], none, some ⟨'e', some '-', ['5', '3']⟩⟩ : NumLit).expo = -53 := by decide
  obtain ⟨bits, h1, F, h2⟩ := C16_literal_well_partial
    ⟨false, ['1'], none, some ⟨'e', some '-', ['5', '3']⟩⟩
    ⟨⟨.inr ⟨'1', [], rfl, by decide, by decide⟩, by simp, fun e h => by
      cases h; exact ⟨by decide, by simp, by decide⟩⟩, fun e h => by cases h; simp⟩ (by decide)
    (fun e h => by cases h; decide)
    ⟨by rw [hx]; norm_num, by rw [hm, hx]; exact well_53, by
      rw [NumLit.value, hm, hx]
      rintro ⟨-, h⟩
      have : (2 : ℚ) ^ (-1074 : Int) ≤ 2 ^ (-200 : Int) := zpow_le_zpow_right₀ (by norm_num) (by norm_num)
      have : (2 : ℚ) ^ (-200 : Int) ≤ 10 ^ (-53 : Int) := by norm_num
      simp only [Nat.cast_one, one_mul] at h
      linarith⟩
    (by rw [hm]; norm_num)
  refine ⟨bits, by rw [NumLit.value, hm, hx] at h1; exact_mod_cast h1, F, fun fuel hf => ?_⟩
  exact (h2 fuel hf).2 [] (fun _ _ h => by cases h)

open Ser Parser Grammar

variable {sh : Nat → Text}

/-- the text is a literal without exponent that goes well -/
def WellPrinted (t : Text) : Prop := ∃ l : NumLit, l.Valid ∧ l.exp = none ∧ l.text = t ∧ l.Well

/-- a finite number other than zero whose text goes well is read back -/
theorem number_reads_well (hp : PrintsDoubles sh) (b : Nat) (hf : FiniteBits b) (hz : b ≠ 2 ^ 63)
    (h0 : b ≠ 0) (hd : WellPrinted (sh b)) :
    ∃ F, ∀ fuel ≥ F, NumReads (BigFloat.toF64 fuel) (sh b) b := by
  obtain ⟨l, h1, h2, h3, h4, h5⟩ := hp b hf
  have hexp : ∀ e, l.exp ≠ some e := by rw [h2]; simp
  obtain ⟨l', w1, w2, w3, w4⟩ := hd
  have hll : l' = l := numLit_unique w1 h1 w2 h2 (by rw [w3, h4])
  rw [hll] at w4
  obtain ⟨bits, h6, F, h7⟩ := C16_literal_well_partial l h1 h3 (fun e he => absurd he (hexp e))
    w4 (by
    rcases Nat.eq_zero_or_pos l.mant with hm | hm
    · obtain ⟨m, hm1, hm2⟩ := h5
      have hv : l.value = dval 0 := by simp [NumLit.value, hm, dval, ulps]
      rw [hv] at hm1
      have := nearest_unique hm1 (nearest_self (Nat.zero_le _))
      rw [this] at hm2
      cases hn : l.neg <;> rw [hn] at hm2 <;> simp at hm2 <;> omega
    · exact hm)
  obtain ⟨m1, e1, e1'⟩ := h5
  obtain ⟨m2, e2, e2'⟩ := h6
  have e : bits = b := by rw [e1', e2', nearest_unique e1 e2]
  subst e
  refine ⟨F, fun fuel hf => ⟨l, h1, by omega, fun e he => absurd he (hexp e), h4, (h7 fuel hf).1⟩⟩

/-- **C51**, proved part, also for numbers that are printed with more than 27 fraction digits, if the
division by the power of five goes well for them.  Missing: strings with surrogates, infinities, `-0`,
numbers for which it does not, bigints. -/
theorem C51_goes_well_partial (hp : PrintsDoubles sh) (v : Val) (hb : ¬ v.HasBig)
    (hs : ∀ i s, (Val.str i s).Sub v → StrOk s)
    (hk : ∀ i l, (Val.obj i l).Sub v → ∀ m ∈ l, StrOk m.1)
    (hn : ∀ b, (Val.num b).Sub v → FiniteBits b ∧ b ≠ 2 ^ 63 ∧
      (FewPlaces (sh b) ∨ b ≠ 0 ∧ WellPrinted (sh b))) :
    ∃ F, ∀ F' ≥ F, ∃ t, toJson sh v = .ok t ∧
    ∀ (env : Env) fuel ctx, env.conv = BigFloat.toF64 F' → env.fs env.path = some t →
      ∃ ctx' w, parse env (fuel + 1) ctx = .ok (ctx', .ok (.json, w)) ∧ v.ReadAs w ∧ (Ordered v → v.Same w) := by
  obtain ⟨F, hF⟩ := eventually_all (fun fuel b => NumReads (BigFloat.toF64 fuel) (sh b) b) v
    fun b h => by
      obtain ⟨h1, h2, h3 | ⟨h3, h4⟩⟩ := hn b h
      · exact number_reads hp b h1 h2 h3
      · exact number_reads_well hp b h1 h2 h3 h4
  exact ⟨F, fun F' hF' => C51_read_back_partial v
    ⟨fun i b h => hb ⟨i, b, h⟩, hs, hk, fun b h => hF F' hF' b h⟩⟩

/-- the double `2^-53` is printed with 53 fraction digits and goes well -/
theorem wellPrinted_53 : WellPrinted (showExact 0x3CA0000000000000) ∧
    ¬ FewPlaces (showExact 0x3CA0000000000000) := by
  have hm := exactLit_mant 0x3CA0000000000000
  have em : digitsOf (ulps (0x3CA0000000000000 % 2 ^ 63)) = 5 ^ 53 := by decide +kernel
  have ex : places (ulps (0x3CA0000000000000 % 2 ^ 63)) = 53 := by decide +kernel
  rw [em, ex] at hm
  refine ⟨⟨exactLit 0x3CA0000000000000, exactLit_valid _, rfl, rfl, ?_, ?_, ?_⟩, ?_⟩
  · rw [hm.2]; norm_num
  · rw [hm.1, hm.2]
    have hg : GoesWell (5 ^ 53) (5 ^ 53 * 2 ^ 54) := by
      have h := (C05_right_iff_partial (JsBig.new .pos [2107684625609392128, 13908556677028642329, 587747175411143])
        (JsBig.new .pos [1475612373555897461, 601853107621011204]) (by decide) (by decide) (by decide) (by decide)).1.1
        ⟨20, JsBig.new .pos [2 ^ 54], JsBig.zero, by decide +kernel⟩
      have e1 : (JsBig.new .pos [2107684625609392128, 13908556677028642329, 587747175411143]).toInt.natAbs = 5 ^ 53 * 2 ^ 54 := by
        decide +kernel
      have e2 : (JsBig.new .pos [1475612373555897461, 601853107621011204]).toInt.natAbs = 5 ^ 53 := by
        decide +kernel
      rwa [e1, e2] at h
    rintro a ⟨k, rfl, h1, h2⟩
    have hk : k = 54 := by
      have l : 54 ≤ k := (Nat.pow_le_pow_iff_right (by norm_num)).1
        (Nat.le_of_mul_le_mul_left h1 (by norm_num))
      rcases h2 with h2 | h2
      · omega
      · have : 5 ^ 53 * 2 ^ k < 5 ^ 53 * 2 ^ 55 := lt_of_lt_of_eq h2 (by norm_num)
        have := (Nat.pow_lt_pow_iff_right (by norm_num)).1 (Nat.lt_of_mul_lt_mul_left this)
        omega
    rw [hk]
    exact hg
  · rw [NumLit.value, hm.1, hm.2]
    rintro ⟨-, h⟩
    have : (2 : ℚ) ^ (-1074 : Int) ≤ 2 ^ (-200 : Int) := zpow_le_zpow_right₀ (by norm_num) (by norm_num)
    have : (2 : ℚ) ^ (-200 : Int) ≤ ((5 ^ 53 : Nat) : ℚ) * 10 ^ (-(53 : Nat) : Int) := by norm_num
    linarith
  · intro h
    have e : showExact 0x3CA0000000000000 = ['0'] ++ '.' :: fixed 53 (5 ^ 53) := by decide +kernel
    have := h _ _ e
    rw [fixed_length] at this
    omega

/-- the array `[2^-53]` meets the hypotheses, and the numbers are beyond `C51_numbers_partial` -/
example : let v : Val := .arr 1 [.num 0x3CA0000000000000]
    ¬ v.HasBig ∧ (∀ b, (Val.num b).Sub v → FiniteBits b ∧ b ≠ 2 ^ 63 ∧ ¬ FewPlaces (showExact b) ∧
      b ≠ 0 ∧ WellPrinted (showExact b)) := by
  refine ⟨?_, ?_⟩
  · rintro ⟨i, b, h⟩
    cases h with
    | arr _ _ m hm h => rw [List.mem_singleton] at hm; subst hm; cases h
  · intro b h
    cases h with
    | arr _ _ m hm h =>
      rw [List.mem_singleton] at hm; subst hm
      cases h
      exact ⟨by unfold FiniteBits INF; decide, by decide, wellPrinted_53.2, by decide, wellPrinted_53.1⟩

/-- `1e-55` as it is printed without an exponent -/
def tinyText : Text := ['0', '.'] ++ (List.replicate 54 '0' ++ ['1'])

/-- the conversion never ends for a literal of the value `1e-55` -/
theorem tokenize_tiny (F : Nat) (ts : List Token) : tokenize (BigFloat.toF64 F) tinyText ≠ .ok ts := by
  intro h
  let l : NumLit := ⟨false, ['0'], some (List.replicate 54 '0' ++ ['1']), none⟩
  have hl : l.Lax := ⟨.inl rfl, fun ds h => by cases h; exact ⟨by simp, by decide⟩, by simp [l]⟩
  obtain ⟨b, st, hb, hr, hst⟩ := run_mant (conv := BigFloat.toF64 F) l hl (by decide)
  have hm : l.mant = 1 := by decide +kernel
  rw [hm] at hb
  have e : b = JsBig.new .pos [1] := C03_canonical_unique _ _ hb.1 (by decide) (by rw [hb.2]; decide)
  rcases hst with ⟨-, h2, -⟩ | ⟨-, h2, -⟩ | ⟨-, rfl⟩
  · cases h2
  · cases h2
  · rw [tokenize_eq, show tinyText = (signText l.neg ++ (l.int ++ fracText l.frac)) ++ [] by decide,
      finish_append hr, finish_nil] at h
    subst e
    have e2 : (-((l.frac.getD []).length : Int)) = -55 := by decide
    rw [e2] at h
    have hv := C16_termination_violated F
    have e3 : endTokens (BigFloat.toF64 F) (.parseFrac ⟨JsBig.new .pos [1], sg l.neg, -55⟩) =
        (BigFloat.toF64 F ⟨JsBig.new .pos [1], .pos, -55, false⟩).bind fun v => .ok [.number v] := by
      simp only [endTokens, floatToken, bind, Except.bind]
      rw [show sg l.neg = Sign.pos from rfl]
      cases BigFloat.toF64 F ⟨JsBig.new .pos [1], .pos, -55, false⟩ <;> rfl
    rw [e3] at h
    cases hx : BigFloat.toF64 F ⟨JsBig.new .pos [1], .pos, -55, false⟩ with
    | error e => rw [hx] at h; cases h
    | ok v => exact hv v hx

/-- **C51** is violated by the number `1e-55`: the serializer writes it, and the parser never ends on what
was written. -/
theorem C51_small_violated (hsh : sh 0x34839dae6f76d883 = tinyText) (env : Env) (F fuel : Nat) (ctx : Ctx)
    (hc : env.conv = BigFloat.toF64 F) (hf : env.fs env.path = some tinyText) :
    IsNearestDouble false (1 * 10 ^ (-55 : Int)) 0x34839dae6f76d883 ∧
    toJson sh (.num 0x34839dae6f76d883) = .ok tinyText ∧ ∀ r, parse env fuel ctx ≠ .ok r := by
  refine ⟨⟨0x34839dae6f76d883, nearest_down (b := 0x34839dae6f76d883) (by decide +kernel) (by decide +kernel) (by decide +kernel), rfl⟩, by rw [toJson, writeJson, hsh], fun r h => ?_⟩
  simp only [parse, hf, hc] at h
  cases ht : tokenize (BigFloat.toF64 F) tinyText with
  | error e => rw [ht] at h; cases h
  | ok ts => exact tokenize_tiny F ts ht

end Nanvm
