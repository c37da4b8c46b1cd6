import Verif.Props.TokenizerTotal
/-!
# Property theorems C83: the work of reading a number

`fuel` bounds the iterations of every loop of the conversion of a literal to a double, so an answer
`.error .fuel` says that some loop runs more than `fuel` times.
-/
namespace Nanvm
open Tok JsBig BigFloat NumLit

/-- Full claim of C83 with `c` iterations for each character of the literal. -/
def LiteralSteps (c : Nat) : Prop :=
  ∀ l : NumLit, l.Valid → l.text.length < 2 ^ 56 → (∀ e, l.exp = some e → decVal e.digits ≤ 2 ^ 59) →
    -27 ≤ l.expo → tokenize (toF64 (c * l.text.length)) l.text ≠ .error .fuel

namespace BigFloat

/-- the loop of `decrease_significand` removes one bit in an iteration -/
theorem decLoop_busy {max : JsBig} {p : Nat} (hm : Is max (2 ^ p)) :
    ∀ (fuel s : Nat) (b : BigFloat), Is b.sig s → 2 ^ (p + fuel) ≤ s →
      -2 ^ 63 ≤ b.exp → b.exp + fuel < 2 ^ 63 → decLoop max fuel b = .error .fuel := by
  intro fuel
  induction fuel with
  | zero => intros; rfl
  | succ f ih =>
    intro s b hs hge h1 h2
    have hp : 2 ^ p ≤ s := le_trans (Nat.pow_le_pow_right (by norm_num) (by omega)) hge
    unfold decLoop
    have hne : b.sig.compare max ≠ .lt := by
      rw [hs.compare hm]
      rcases Nat.lt_or_ge (2 ^ p) s with h' | h'
      · rw [ord_gt (by exact_mod_cast h')]; simp
      · rw [ord_eq (by exact_mod_cast (Nat.le_antisymm h' hp))]; simp
    rw [if_neg hne, i64_ok (x := b.exp + 1) (by omega) (by push_cast at h2; omega)]
    refine ih (s / 2) _ (is_shr1 hs) ?_ (by dsimp only; omega) (by push_cast at h2; dsimp only; omega)
    rw [Nat.le_div_iff_mul_le (by norm_num), ← Nat.pow_succ]
    exact hge

/-- a positive decimal exponent `n` costs more than `2 n - 54` iterations -/
theorem toF64_busy (b : BigFloat) (m n fuel : Nat) (hm : Is b.sig m) (h0 : 0 < m) (hn : b.exp = n)
    (hn2 : n ≤ 2 ^ 59) (hf : fuel + 54 ≤ 2 * n) : toF64 fuel b = .error .fuel := by
  have h5 : Is (fromU64 .pos 5) 5 := is_fromU64 5 (by norm_num)
  have h5ne : (fromU64 .pos 5).items ≠ [] := by decide
  have hnn : b.exp.toNat = n := by omega
  obtain ⟨p, ep, vp, cp⟩ := powU64_ok _ h5.1 h5ne n (by omega)
  obtain ⟨c, ec, vc, cc⟩ := C02_mul_exact b.sig p hm.1 cp
  have hc : Is c (m * 5 ^ n) := ⟨cc, by rw [vc, vp, hm.2, h5.2]; push_cast; ring⟩
  have hbig : 2 ^ (54 + fuel) ≤ m * 5 ^ n := by
    calc 2 ^ (54 + fuel) ≤ 2 ^ (2 * n) := Nat.pow_le_pow_right (by norm_num) (by omega)
      _ = 4 ^ n := by rw [Nat.pow_mul]
      _ ≤ 5 ^ n := Nat.pow_le_pow_left (by norm_num) n
      _ ≤ m * 5 ^ n := Nat.le_mul_of_pos_left _ h0
  have hpos : 0 < m * 5 ^ n := by positivity
  obtain ⟨mn, emn, hmn⟩ := is_pow2 54 (by norm_num)
  have hz : c.isZero = false := hc.isZero_false hpos
  have h54 : 2 ^ 54 ≤ m * 5 ^ n := le_trans (Nat.pow_le_pow_right (by norm_num) (by omega)) hbig
  have hinc : fuel ≠ 0 → increase fuel 54 { b with sig := c } = .ok { b with sig := c } := by
    intro hne
    obtain ⟨f, rfl⟩ : ∃ f, fuel = f + 1 := ⟨fuel - 1, by omega⟩
    unfold increase increaseTo
    simp only [hz, Bool.false_eq_true, if_false, emn, bind, Except.bind]
    unfold incLoop
    have : JsBig.compare c mn ≠ .lt := by
      rw [hc.compare hmn]
      rcases Nat.lt_or_ge (2 ^ 54) (m * 5 ^ n) with h' | h'
      · rw [ord_gt (by exact_mod_cast h')]; simp
      · rw [ord_eq (by exact_mod_cast (Nat.le_antisymm h' h54))]; simp
    dsimp only
    revert this
    cases JsBig.compare c mn <;> simp
  have hinc0 : fuel = 0 → increase fuel 54 { b with sig := c } = .error .fuel := by
    rintro rfl
    unfold increase increaseTo
    simp only [hz, Bool.false_eq_true, if_false, emn, bind, Except.bind]
    rfl
  have hdec : decrease fuel 54 { b with sig := c } = .error .fuel := by
    unfold decrease
    simp only [hz, Bool.false_eq_true, if_false, emn, bind, Except.bind]
    exact decLoop_busy hmn fuel _ _ hc hbig (by dsimp only; omega) (by dsimp only; omega)
  unfold toF64 toBin
  rw [hm.isZero_false h0]
  simp only [Bool.false_eq_true, if_false]
  rw [if_neg (by omega), if_pos (by omega), hnn, ep]
  simp only [bind, Except.bind, ec]
  by_cases hf0 : fuel = 0
  · rw [hinc0 hf0]
  · rw [hinc hf0]; simp only [hdec]

end BigFloat

theorem endTokens_exp (conv : BigFloat → Res Nat) (b : JsBig) (fe n m : Int)
    (h : i64 (fe + n) = .ok m) :
    endTokens conv (.parseExp ⟨b, .pos, fe, .pos, n⟩) =
      (conv ⟨b, .pos, m, false⟩).bind fun v => .ok [.number v] := by
  simp only [endTokens, expToken, bind, Except.bind, h]
  cases conv ⟨b, .pos, m, false⟩ <;> rfl

/-- the tokens of `1e<ds>` -/
theorem tokenize_exp (conv : BigFloat → Res Nat) (c : Char) (cs : Text) (hd : AllDigits (c :: cs))
    (h : decVal (c :: cs) < 2 ^ 62) :
    tokenize conv ('1' :: 'e' :: c :: cs) =
      (conv ⟨JsBig.fromU64 .pos 1, .pos, decVal (c :: cs), false⟩).bind fun v => .ok [.number v] := by
  have hc : isDigit c = true := hd c (by simp)
  have hcs : AllDigits cs := fun x hx => hd x (by simp [hx])
  rw [tokenize_eq, finish_cons (ts := []) (st' := .parseInt ⟨JsBig.fromU64 .pos 1, .pos⟩) rfl,
    finish_cons (ts := []) (st' := .parseExpBegin ⟨JsBig.fromU64 .pos 1, .pos, 0, .pos, 0⟩) rfl]
  have h1c : decVal [c] < 2 ^ 62 := by
    have := decVal_append_ge [c] cs
    simp only [List.singleton_append] at this
    omega
  have hrun := run_exp_digits (conv := conv) (JsBig.fromU64 .pos 1) .pos .pos 0 cs hcs [c]
    (by rw [List.singleton_append]; omega)
  rw [List.singleton_append] at hrun
  rw [finish_cons (ts := []) (st' := .parseExp ⟨JsBig.fromU64 .pos 1, .pos, 0, .pos, decVal [c]⟩)]
  rotate_left
  · have hfirst : ExpState.addDigit ⟨JsBig.fromU64 .pos 1, .pos, 0, .pos, 0⟩ c =
        .ok ⟨JsBig.fromU64 .pos 1, .pos, 0, .pos, decVal [c]⟩ := by
      rw [expAddDigit_total (n := 0) rfl hc (by simpa [decVal, digitNum] using h1c)]
      simp [decVal, digitNum]
    simp only [step, hc, if_true, hfirst]; rfl
  have hfin := finish_append (conv := conv) (b := []) hrun
  rw [List.append_nil, finish_nil] at hfin
  rw [hfin]
  have h0 : i64 (0 + (decVal (c :: cs) : Int)) = .ok (decVal (c :: cs) : Int) := by
    rw [Int.zero_add]; exact i64_of (by omega) (by omega)
  rw [endTokens_exp conv _ _ _ _ h0]
  cases conv ⟨JsBig.fromU64 .pos 1, .pos, decVal (c :: cs), false⟩ <;> rfl

/-- The literal `1e<ds>` keeps a loop of the conversion busy for at least twice the *value* of `ds`,
so the work is exponential in the length of the literal. -/
theorem C83_exponent_violated (c : Char) (cs : Text) (hd : AllDigits (c :: cs))
    (h : decVal (c :: cs) ≤ 2 ^ 59) (fuel : Nat) (hf : fuel + 54 ≤ 2 * decVal (c :: cs)) :
    tokenize (toF64 fuel) ('1' :: 'e' :: c :: cs) = .error .fuel := by
  rw [tokenize_exp _ c cs hd (by omega)]
  rw [toF64_busy _ 1 (decVal (c :: cs)) fuel (is_fromU64 1 (by norm_num)) (by norm_num) (by dsimp only) h hf]
  rfl

/-- The code violates C83 for every reasonable constant: `1e999999999` (11 characters) needs more
than `10^9` iterations, although its value is infinity. -/
theorem C83_linear_violated (k : Nat) (hk : k ≤ 10 ^ 8) : ¬ LiteralSteps k := by
  intro h
  have hv : decVal ['9', '9', '9', '9', '9', '9', '9', '9', '9'] = 999999999 := by decide
  have h1 := h ⟨false, ['1'], none, some ⟨'e', none, ['9', '9', '9', '9', '9', '9', '9', '9', '9']⟩⟩
    ⟨⟨.inr ⟨'1', [], rfl, by decide, by decide⟩, by simp,
      by intro e he; cases he; exact ⟨by decide, by simp, by decide⟩⟩,
      by intro e he; cases he; decide⟩ (by decide)
    (by intro e he; cases he; rw [hv]; norm_num) (by decide +kernel)
  refine h1 (C83_exponent_violated '9' ['9', '9', '9', '9', '9', '9', '9', '9'] (by decide)
    (by rw [hv]; norm_num) _ ?_)
  rw [hv]
  have : (NumLit.text ⟨false, ['1'], none,
    some ⟨'e', none, ['9', '9', '9', '9', '9', '9', '9', '9', '9']⟩⟩).length = 11 := by decide
  rw [this]; omega

/-- C83, the part that holds: four iterations for each character, three for each unit of a positive
decimal exponent, and 201.  Missing: the work for a positive exponent is not bounded by the length of
the text, see `C83_linear_violated`. -/
theorem C83_steps_partial (l : NumLit) (hl : l.Valid) (hlen : l.text.length < 2 ^ 56)
    (he : ∀ e, l.exp = some e → decVal e.digits ≤ 2 ^ 59) (hlow : -27 ≤ l.expo)
    (fuel : Nat) (hf : 4 * l.text.length + 3 * l.expo.toNat + 201 ≤ fuel) :
    ∃ bits, tokenize (toF64 fuel) l.text = .ok [.number bits] := by
  have hup : l.expo ≤ 2 ^ 59 := by
    unfold expo
    cases hx : l.exp with
    | none => simp only; omega
    | some e =>
      have := he e hx
      simp only [ExpPart.value]
      split <;> omega
  have hml := mant_length l
  obtain ⟨b, st, hb, -⟩ := run_mant (conv := fun _ => .ok 0) l hl.1 (by omega)
  have hlog : l.mant.log2 < 2 ^ 59 := log2_digits (mant_digits hl.1) (by omega)
  have hlog' : l.mant.log2 ≤ 4 * (l.int ++ l.frac.getD []).length := log2_le_digits (mant_digits hl.1)
  have hc : ∃ v, toF64 fuel ⟨b, sg l.neg, l.expo, false⟩ = .ok v := by
    rcases Nat.eq_zero_or_pos l.mant with h0 | h0
    · exact ⟨0, toF64_zero _ (by simpa [h0] using hb) fuel⟩
    · obtain ⟨v, hv, -⟩ := toF64_fuel ⟨b, sg l.neg, l.expo, false⟩ l.mant hb h0 rfl hlog hlow hup fuel
        (by dsimp only; omega)
      exact ⟨v, hv⟩
  obtain ⟨v, hv⟩ := hc
  have hv : ∃ v, LitValue (toF64 fuel) l v := by
    unfold LitValue
    split
    · exact ⟨0, rfl⟩
    · exact ⟨v, b, hb, hv⟩
  obtain ⟨v, hv⟩ := hv
  have := C37_complete l v [] hl (fun _ _ h => by cases h) (by omega)
    (fun e hx => by have := he e hx; omega) hv
  refine ⟨v, ?_⟩
  simpa [tokenize, run, endTokens, Except.bind, bind, pure, Except.pure] using this

/-- `-12.5e3` needs at most 8·4 + 2·3 + 201 iterations -/
example : ∃ bits, tokenize (toF64 300) "-12.5e3".toList = .ok [.number bits] :=
  C83_steps_partial ⟨true, ['1', '2'], some ['5'], some ⟨'e', none, ['3']⟩⟩
    ⟨⟨.inr ⟨'1', ['2'], rfl, by decide, by decide⟩, by intro e he; cases he; decide,
      by intro e he; cases he; exact ⟨by decide, by simp, by decide⟩⟩,
      by intro e he; cases he; decide⟩ (by decide)
    (by intro e he; cases he; decide) (by decide) 300 (by decide)

example : tokenize (toF64 1000) "1e527".toList = .error .fuel :=
  C83_exponent_violated '5' ['2', '7'] (by decide) (by decide) 1000 (by decide)

end Nanvm
