import Verif.Lemmas.Release
import Verif.Props.TokenizerTotal
import Verif.Props.RangeMap
import Verif.Props.ShiftU64
import Verif.Props.Conversions
import Verif.Props.Layout
import Verif.Props.Division
import Verif.Props.JsBigintDiv
/-!
# Property theorems C89: release builds
-/
namespace Nanvm
open Tok NumLit RangeMap

variable {conv : BigFloat → Res Nat}

/-! ## The tokenizer -/

/-- A release build reads a text like a debug build, unless the debug build panics for overflow.
Missing: the texts for which it does (`C89_literal_violated`). -/
theorem C89_tokenizer_partial (t : Text) (h : tokenize conv t ≠ .error (.panic .overflow)) :
    tokenizeR conv t = tokenize conv t := by
  rcases unless_tokenize (conv := conv) t with h' | h'
  · exact absurd h' h
  · exact h'

/-- A debug build panics for every literal whose exponent exceeds `i64`. -/
theorem C89_debug_partial (l : NumLit) (e : ExpPart) (hl : l.Valid) (he : l.exp = some e)
    (hlen : l.text.length < 2 ^ 62) (h : 2 ^ 63 ≤ decVal e.digits) :
    tokenize conv l.text = .error (.panic .overflow) := tokenize_overflow l hl hlen e he h

/-- A release build reduces the exponent of a literal modulo `2^64` to the range of `i64`, whatever
the number of its digits. -/
theorem C89_literal_partial (l : NumLit) (e : ExpPart) (hl : l.Valid) (he : l.exp = some e)
    (hlen : l.text.length < 2 ^ 62) :
    ∃ (b : JsBig) (E : Int), b.Canon ∧ b.toInt = l.mant ∧ -2 ^ 63 ≤ E ∧ E < 2 ^ 63 ∧
      (∃ k, E = l.expo + k * 2 ^ 64) ∧
      tokenizeR conv l.text =
        (conv ⟨b, if l.neg then .neg else .pos, E, false⟩).bind fun v => .ok [.number v] := by
  obtain ⟨b, hb, h⟩ := tokenizeR_lit (conv := conv) l hl hlen e he
  exact ⟨b, wrap64 l.expo, hb.1, hb.2, (wrap64_range _).1, (wrap64_range _).2, wrap64_mod _, h⟩

/-- Literals whose exponents differ by a multiple of `2^64` are the same token. -/
theorem C89_literal_confused_violated (l l' : NumLit) (e e' : ExpPart) (hl : l.Valid) (hl' : l'.Valid)
    (he : l.exp = some e) (he' : l'.exp = some e') (hlen : l.text.length < 2 ^ 62)
    (hlen' : l'.text.length < 2 ^ 62) (hm : l.mant = l'.mant) (hn : l.neg = l'.neg)
    (hk : ∃ k, l.expo = l'.expo + k * 2 ^ 64) : tokenizeR conv l.text = tokenizeR conv l'.text := by
  obtain ⟨b, hb, h⟩ := tokenizeR_lit (conv := conv) l hl hlen e he
  obtain ⟨b', hb', h'⟩ := tokenizeR_lit (conv := conv) l' hl' hlen' e' he'
  rw [h, h', hn, wrap64_congr hk,
    C03_canonical_unique _ _ hb.1 hb'.1 (by rw [hb.2, hb'.2, hm])]

/-- If the reduced exponent is at least -27, the token is the double nearest to the mantissa with
that exponent. -/
theorem C89_literal_value_partial (l : NumLit) (e : ExpPart) (hl : l.Valid) (he : l.exp = some e)
    (hlen : l.text.length < 2 ^ 56) (E : Int) (hk : ∃ k, l.expo = E + k * 2 ^ 64) (h1 : -27 ≤ E)
    (h2 : E ≤ 2 ^ 59) (hz : l.mant = 0 → l.neg = false) :
    ∃ bits, IsNearestDouble l.neg (l.mant * 10 ^ E) bits ∧
      ∃ F, ∀ fuel ≥ F, tokenizeR (BigFloat.toF64 fuel) l.text = .ok [.number bits] := by
  obtain ⟨b, hb, -⟩ := tokenizeR_lit (conv := fun _ => .ok 0) l hl (by omega) e he
  have hlog : l.mant.log2 < 2 ^ 59 :=
    log2_digits (mant_digits hl.1) (lt_of_le_of_lt (mant_length l) hlen)
  obtain ⟨bits, ⟨F, hF⟩, hn⟩ := C16_decimal_partial ⟨b, sg l.neg, E, false⟩ hb.1
    (by rw [hb.2]; omega) rfl (by rw [hb.2]; simpa using hlog) h1 h2
    (fun h => by
      have : l.mant = 0 := by have := hb.2; simp only at h; omega
      rw [hz this]; rfl)
  have hsg : (decide ((sg l.neg) = Sign.neg)) = l.neg := by cases l.neg <;> rfl
  refine ⟨bits, ?_, F, fun fuel hf => ?_⟩
  · simp only [hb.2, hsg] at hn
    exact_mod_cast hn
  · obtain ⟨b', hb', h⟩ := tokenizeR_lit (conv := BigFloat.toF64 fuel) l hl (by omega) e he
    rw [h, C03_canonical_unique _ _ hb'.1 hb.1 (by rw [hb.2, hb'.2]), wrap64_congr hk,
      wrap64_id (by omega) (by omega)]
    have : BigFloat.toF64 fuel ⟨b, sg l.neg, E, false⟩ = .ok bits := hF fuel hf
    rw [this]
    rfl

/-- the literal `1e18446744073709551617` -/
def hugeLit : NumLit := ⟨false, ['1'], none, some ⟨'e', none, "18446744073709551617".toList⟩⟩

theorem hugeLit_valid : hugeLit.Valid :=
  ⟨⟨Or.inr ⟨'1', [], rfl, by decide, by decide⟩, fun ds h => (by cases h),
    fun e h => (by cases h; exact ⟨by decide, fun c hc => (by cases hc), by decide⟩)⟩,
   fun e h => (by cases h; decide)⟩

/-- `1e18446744073709551617`: the debug build panics, the release build reads 10, although the
literal is larger than every double. -/
theorem C89_literal_violated :
    (∀ conv, tokenize conv "1e18446744073709551617".toList = .error (.panic .overflow)) ∧
    ∃ bits, dval bits = 10 ∧
      (∃ F, ∀ fuel ≥ F,
        tokenizeR (BigFloat.toF64 fuel) "1e18446744073709551617".toList = .ok [.number bits]) ∧
      ¬ IsNearestDouble false (1 * 10 ^ (18446744073709551617 : Int)) bits := by
  refine ⟨fun conv => C89_debug_partial hugeLit _ hugeLit_valid rfl (by decide) (by decide), ?_⟩
  obtain ⟨bits, h1, F, hF⟩ := C89_literal_value_partial hugeLit _ hugeLit_valid rfl (by decide) 1
    ⟨1, by decide⟩ (by norm_num) (by norm_num) (by decide)
  have hm : hugeLit.mant = 1 := by decide
  obtain ⟨b, hb, rfl⟩ := h1
  have hten : dval 0x4024000000000000 = 10 := by
    rw [show (0x4024000000000000 : Nat) = 1025 * 2 ^ 52 + 5629499534213120 by norm_num,
      dval_split 1025 5629499534213120 (Or.inr (by norm_num)) (by norm_num)]
    norm_num
  have hbv : b = 0x4024000000000000 := by
    refine nearest_unique hb ⟨by norm_num [INF], fun b' _ => ?_⟩
    have e : ((hugeLit.mant : ℚ) * 10 ^ (1 : Int)) - dval 0x4024000000000000 = 0 := by
      rw [hten, hm]; norm_num
    rw [e]
    refine ⟨by rw [abs_zero]; exact abs_nonneg _, fun h hne => by norm_num⟩
  have hneg : hugeLit.neg = false := rfl
  refine ⟨_, ?_, ⟨F, hF⟩, ?_⟩
  · rw [hneg, hbv]; simpa using hten
  · rw [hneg, hbv]
    rintro ⟨b', hb', he⟩
    have h2 : Nearest (1 * 10 ^ (18446744073709551617 : Int)) INF := by
      apply nearest_inf
      have : (2 : ℚ) ^ (1024 : Int) ≤ 10 ^ (1024 : Int) := by
        exact_mod_cast Nat.pow_le_pow_left (show 2 ≤ 10 by norm_num) 1024
      refine this.trans ?_
      rw [one_mul]
      exact zpow_le_zpow_right₀ (by norm_num) (by norm_num)
    have := nearest_unique hb' h2
    subst this
    revert he
    norm_num [INF]

/-- the hypotheses are met: a long exponent and its remainder -/
example : tokenizeR (fun b => .ok (b.exp.toNat + 5)) "-1.5E+18446744073709551620".toList =
    tokenizeR (fun b => .ok (b.exp.toNat + 5)) "-1.5e4".toList :=
  C89_literal_confused_violated
    ⟨true, ['1'], some ['5'], some ⟨'E', some '+', "18446744073709551620".toList⟩⟩
    ⟨true, ['1'], some ['5'], some ⟨'e', none, ['4']⟩⟩ _ _
    ⟨⟨Or.inr ⟨'1', [], rfl, by decide, by decide⟩, fun ds h => (by cases h; decide),
      fun e h => (by cases h; exact ⟨by decide, fun c hc => (by cases hc; decide), by decide⟩)⟩,
      fun e h => (by cases h; decide)⟩
    ⟨⟨Or.inr ⟨'1', [], rfl, by decide, by decide⟩, fun ds h => (by cases h; decide),
      fun e h => (by cases h; exact ⟨by decide, fun c hc => (by cases hc), by decide⟩)⟩,
      fun e h => (by cases h; decide)⟩
    rfl rfl (by decide) (by decide) (by decide) rfl ⟨1, by decide⟩

/-- and a text without overflow -/
example : tokenizeR (fun b => .ok b.exp.natAbs) "[1.5e4]".toList =
    .ok [.arrayBegin, .number 3, .arrayEnd] := by
  rw [C89_tokenizer_partial _ (by decide +kernel)]
  decide +kernel

/-! ## Integers -/

/-- `from_i64` of a release build has the right value for every `i64`, also for the one for which
the debug build panics. -/
theorem C89_from_i64 (n : Int) (h1 : -2 ^ 63 ≤ n) (h2 : n < 2 ^ 63) : (BInt.fromI64R n).toInt = n := by
  unfold BInt.fromI64R wrap64
  by_cases h : n < 0
  · simp only [h, if_true, Sign.toInt, BInt.toInt, signed, val_cons, val_nil]; omega
  · simp only [h, if_false, Sign.toInt, BInt.toInt, signed, val_cons, val_nil]; omega

example : BInt.fromI64 (-2 ^ 63) = .error (.panic .overflow) ∧
    BInt.fromI64R (-2 ^ 63) = ⟨.neg, [2 ^ 63]⟩ := by decide +kernel

/-- `shl_on_u64` of a release build never gives a wrong value: it panics exactly if the debug build
panics, and else gives the right one. -/
theorem C89_shl (a : JsBig) (ha : a.Canon) (n : Nat) :
    (∃ c, JsBig.shlOnU64R a n = .ok c ∧ c.toInt = a.toInt * 2 ^ n ∧ c.Canon ∧
      ¬ (a.toInt = 0 ∧ n % 64 ≠ 0)) ∨
    (JsBig.shlOnU64R a n = .error (.panic .index) ∧ a.toInt = 0 ∧ n % 64 ≠ 0) := by
  have hcases : (JsBig.shlOnU64 a n = .error (.panic .overflow) ∧
      JsBig.shlOnU64R a n = .error (.panic .index)) ∨ JsBig.shlOnU64R a n = JsBig.shlOnU64 a n := by
    unfold JsBig.shlOnU64R JsBig.shlOnU64
    by_cases h : n &&& 63 > 0 ∧ a.items = []
    · left; simp only [h, and_self, if_true]
    · right; simp only [h, if_false]
  rcases C81_shl_partial a ha n with ⟨c, h1, h2⟩ | ⟨h1, h2⟩
  · left
    rcases hcases with ⟨h, -⟩ | h
    · rw [h1] at h; cases h
    · exact ⟨c, h.trans h1, h2⟩
  · right
    rcases hcases with ⟨-, h⟩ | h
    · exact ⟨h, h2⟩
    · exfalso
      have h0 := h.trans h1
      revert h0
      unfold JsBig.shlOnU64R
      by_cases h : n &&& 63 > 0 ∧ a.items = []
      · simp only [h, and_self, if_true]; simp
      · simp only [h, if_false]; simp

example : JsBig.shlOnU64R JsBig.zero 1 = .error (.panic .index) ∧
    JsBig.shlOnU64 JsBig.zero 1 = .error (.panic .overflow) ∧
    JsBig.shlOnU64R (JsBig.fromU64 .neg 3) 65 = .ok ⟨-2, [0, 6]⟩ := by decide +kernel

/-- more fuel does not avoid a panic -/
theorem udivLoop_panic {b : List Nat} {p : Panic} : ∀ (f : Nat) (a res : List Nat),
    BigUint.divLoop b f a res = .error (.panic p) → ∀ g ≥ f, BigUint.divLoop b g a res = .error (.panic p) := by
  intro f
  induction f with
  | zero => intro a res h; cases h
  | succ f ih =>
    intro a res h g hg
    obtain ⟨g, rfl⟩ : ∃ n, g = n + 1 := ⟨g - 1, by omega⟩
    rw [BigUint.divLoop] at h ⊢
    split at h
    · cases h
    · rename_i hc
      rw [if_neg hc]
      simp only [bind, Except.bind] at h ⊢
      cases e : BigUint.divStep a b res with
      | error x => rw [e] at h; simpa using h
      | ok y =>
        rw [e] at h
        exact ih _ _ h g (by omega)

/-- The divisions do not overflow for numbers without leading zeros, so both builds give the same. -/
theorem C89_division_partial (fuel : Nat) :
    (∀ a b : JsBig, a.Canon → b.Canon → JsBig.divMod fuel a b ≠ .error (.panic .overflow)) ∧
    ∀ a b : List Nat, UCanon a → UCanon b → BigUint.divMod fuel a b ≠ .error (.panic .overflow) := by
  constructor
  · intro a b ha hb h
    by_cases h0 : b.toInt = 0
    · rw [C05_div_zero_panics a b hb h0] at h; cases h
    · rcases lt_or_ge a.toInt.natAbs b.toInt.natAbs with h1 | h1
      · obtain ⟨q, r, e, -⟩ := C05_small_dividend_partial a b ha hb h1 fuel
        rw [e] at h; cases h
      · rcases C05_outcome_partial a b ha hb h0 h1 fuel with e | ⟨q, r, e, -⟩
        · rw [e] at h; cases h
        · rw [e] at h; cases h
  · intro a b ha hb h
    by_cases h0 : b = []
    · subst h0; rw [(C11_div_zero_panics a fuel).1] at h; cases h
    · have hz : BigUint.isZero b = false := by simpa [BigUint.isZero] using h0
      have hmax : BigUint.divMod (max fuel (val a + 1)) a b = .error (.panic .overflow) := by
        unfold BigUint.divMod at h ⊢
        rw [hz] at h ⊢
        simp only [Bool.false_eq_true, if_false] at h ⊢
        split at h
        · cases h
        · cases h
        · exact udivLoop_panic fuel _ _ h _ (le_max_left _ _)
      rcases C11_outcome_partial a b ha hb h0 with e | ⟨q, r, e, -⟩
      · rw [e] at hmax; cases hmax
      · rw [e _ (lt_of_lt_of_le (Nat.lt_succ_self _) (le_max_right _ _))] at hmax; cases hmax

/-- The hypothesis matters: `BigUint::from_u64(0)` is no such number. -/
example : (JsBig.new .pos [0, 5]).Canon ∧ (JsBig.new .pos [B - 1, 1]).Canon ∧
    JsBig.divMod 10 (JsBig.new .pos [0, 5]) (JsBig.new .pos [B - 1, 1]) =
      .ok (JsBig.new .pos [4, 3], JsBig.new .pos [4]) ∧
    UCanon [1, 2, 3] ∧ UCanon [7] ∧ (BigUint.divMod 9 [1, 2, 3] [7]).isOk = true ∧
    ¬ UCanon [0] := by decide +kernel

/-! ## Tables of ranges -/

theorem predR_pos {n : Nat} (h : n ≠ 0) (hn : n < 2 ^ 32) : predR n = n - 1 := by
  unfold predR; omega

theorem validChar_lt {n : Nat} (h : validChar n) : n < 2 ^ 32 := by
  simp only [validChar, Bool.or_eq_true, Bool.and_eq_true, decide_eq_true_eq] at h; omega

/-- `from_one` of a release build is right for U+0000, for which the debug build panics, and for
every other character but U+E000. -/
theorem C89_from_one_partial {T : Type} (a : Nat) (v : T) (ha : validChar a) (hE : a ≠ 0xE000) (c : Nat) :
    getState (fromOneR a v) c = .ok (if c = a then some v else none) := by
  by_cases h0 : a = 0
  · subst h0
    rw [show fromOneR 0 v = [(0, some v)] from rfl]
    by_cases h : c = 0
    · subst h; simp [getState, RangeMap.get, getLoop]
    · rw [if_neg h]
      simp [getState, RangeMap.get, getLoop, h]
  · obtain ⟨m, h1, h2⟩ := C31_from_one_partial a v ha h0 hE
    have : fromOneR a v = m := by
      unfold fromOne subU at h1
      rw [if_pos (by omega)] at h1
      unfold fromOneR
      rw [predR_pos h0 (validChar_lt ha)]
      simp only [bind, Except.bind, pure, Except.pure] at h1
      split at h1 <;> cases h1 <;> simp_all
    rw [this]; exact h2 c

/-- `from_range` of a release build is right for a range that starts neither at U+0000 nor at
U+E000. -/
theorem C89_from_range_partial {T : Type} (a b : Nat) (v : T) (ha : validChar a) (h0 : a ≠ 0)
    (hE : a ≠ 0xE000) (c : Nat) :
    getState (fromRangeR a b v) c = .ok (if a ≤ c ∧ c ≤ b then some v else none) := by
  obtain ⟨m, h1, h2⟩ := C31_from_range_partial a b v ha h0 hE
  have : fromRangeR a b v = m := by
    unfold fromRange subU at h1
    rw [if_pos (by omega)] at h1
    unfold fromRangeR
    rw [predR_pos h0 (validChar_lt ha)]
    simp only [bind, Except.bind, pure, Except.pure] at h1
    cases h1
    rfl
  rw [this]; exact h2 c

/-- `from_range` of a release build: a range that starts at U+0000, for which the debug build
panics, does not contain U+0000. -/
theorem C89_from_range_violated {T : Type} (b : Nat) (v : T) :
    fromRange 0 b v = .error (.panic .overflow) ∧ getState (fromRangeR 0 b v) 0 = .ok none := by
  refine ⟨rfl, ?_⟩
  rw [show fromRangeR 0 b v = [(0, none), (b, some v)] from rfl, get_two]
  rfl

example : validChar 97 = true ∧ fromOneR 97 'x' = [(96, none), (97, some 'x')] ∧
    getState (fromRangeR 97 122 'x') 100 = .ok (some 'x') := by decide +kernel

/-! ## The size of a flexible array -/

/-- `flexible_size` of a release build is the one of the debug build if that does not overflow. -/
theorem C89_size_partial (t i : TypeInfo) (len size : Nat) (h : flexibleSize t i len = .ok size) :
    flexibleSizeR t i len = .ok size := by
  unfold flexibleSize at h
  unfold flexibleSizeR
  cases e : flexHeaderLayout t i with
  | error x => rw [e] at h; cases h
  | ok ff =>
    rw [e] at h
    simp only [bind, Except.bind, mulU, addU] at h
    split at h
    · cases h
    · rename_i w hw
      split at hw
      · cases hw
        split at h
        · cases h
          simp only [bind, Except.bind, pure, Except.pure, addUR, mulUR]
          rw [Nat.mod_eq_of_lt (a := len * i.size) (by assumption), Nat.mod_eq_of_lt (by assumption)]
        · cases h
      · cases hw

/-- If the debug build panics for overflow, the release build allocates less than the header and
the items need. -/
theorem C89_size_violated (t i : TypeInfo) (ff : FieldLayout) (len : Nat)
    (hf : flexHeaderLayout t i = .ok ff)
    (h : flexibleSize t i len = .error (.panic .overflow)) :
    ∃ size, flexibleSizeR t i len = .ok size ∧ size < ff.size + len * i.size := by
  unfold flexibleSize at h
  unfold flexibleSizeR
  rw [hf] at h ⊢
  refine ⟨_, rfl, ?_⟩
  simp only [bind, Except.bind, mulU, addU] at h
  unfold addUR mulUR
  by_cases h1 : len * i.size < 2 ^ 64
  · rw [if_pos h1] at h
    rw [Nat.mod_eq_of_lt h1]
    by_cases h2 : ff.size + len * i.size < 2 ^ 64
    · simp only at h; rw [if_pos h2] at h; cases h
    · exact lt_of_lt_of_le (Nat.mod_lt _ (by norm_num)) (by omega)
  · exact lt_of_lt_of_le (Nat.mod_lt _ (by norm_num)) (by omega)

/-- such a length exists: 2^60 + 1 items of 16 bytes get 24 bytes -/
example : flexHeaderLayout ⟨8, 8⟩ ⟨16, 8⟩ = .ok ⟨8, 8⟩ ∧
    flexibleSize ⟨8, 8⟩ ⟨16, 8⟩ (2 ^ 60 + 1) = .error (.panic .overflow) ∧
    flexibleSizeR ⟨8, 8⟩ ⟨16, 8⟩ (2 ^ 60 + 1) = .ok 24 ∧
    flexibleSize ⟨8, 8⟩ ⟨16, 8⟩ 3 = .ok 56 := by decide +kernel

end Nanvm
