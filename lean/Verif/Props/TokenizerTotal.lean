import Verif.Props.TokenizerNumber
/-!
# Property theorems C32: the tokenizer is total
-/
namespace Nanvm
open Tok NumLit

variable {conv : BigFloat → Res Nat}

/-- what holds of the state after reading `r` -/
def Tok.Inv (st : State) (r : Text) : Prop :=
  match st with
  | .parseOperator s => (operatorToToken s).isSome = true
  | .parseUnicodeChar u => u.index ≤ 3
  | .parseMinus | .parseZero _ | .parseInt _ | .parseFracBegin _ | .parseFrac _ | .parseExpBegin _
  | .parseExpSign _ | .parseExp _ | .parseBigInt _ => ∃ a p, r = a ++ p ∧ NumAt st p
  | .initial | .parseId _ | .parseString _ | .parseEscapeChar _ | .parseNewLine
  | .parseCommentStart | .parseSinglelineComment | .parseMultilineComment
  | .parseMultilineCommentAsterix => True

/-- the conversion succeeds on all number literals in `t`, and their exponents are moderate -/
def Tok.Converts (conv : BigFloat → Res Nat) (t : Text) : Prop :=
  ∀ a (l : NumLit) c, t = a ++ (l.text ++ c) → l.Lax →
    (∀ e, l.exp = some e → decVal e.digits < 2 ^ 62) ∧ ∃ v, LitValue conv l v

theorem op_isSome {c : Char} (h : isOp c = true) : (operatorToToken [c]).isSome = true := by
  simp only [isOp, isPunct, Bool.or_eq_true, decide_eq_true_eq] at h
  rcases h with (((((((((h | h) | h) | h) | h) | h) | h) | h) | h) | h) | h
  all_goals subst h; rfl

theorem inv_initial (c : Char) (r : Text) : Inv (stepInitial c).2 (r ++ [c]) := by
  unfold stepInitial
  split
  · rename_i h; exact op_isSome h
  split
  · rename_i h
    obtain ⟨st, h1, h2⟩ := numAt_first (conv := fun _ => .ok 0) (Or.inl (digit19_digit h))
    have hle := digit_le (digit19_digit h)
    have hb : Is (JsBig.fromU64 .pos (digitNum c)) (decVal [c]) := by
      have := is_fromU64 (digitNum c) (by unfold digitNum; omega)
      simpa [decVal, digitNum] using this
    exact ⟨r, [c], rfl, NumAt.int false c [] _ h (by intro _ h; cases h) hb⟩
  split
  · trivial
  split
  · rename_i h; subst h; exact ⟨r, ['0'], rfl, .zero false⟩
  split
  · rename_i h; subst h; exact ⟨r, ['-'], rfl, .minus⟩
  repeat' split
  all_goals trivial

theorem numAt_inv {st : State} {p a : Text} (h : NumAt st p) : Inv st (a ++ p) := by
  cases h <;> exact ⟨a, _, rfl, by constructor <;> assumption⟩

theorem litConv {l : NumLit} {b : JsBig} {v : Nat}
    (hne : ¬ (l.int = ['0'] ∧ l.frac = none ∧ l.exp = none)) (hb : Is b l.mant)
    (hv : LitValue conv l v) : conv ⟨b, sg l.neg, l.expo, false⟩ = .ok v := by
  rw [LitValue, if_neg hne] at hv
  obtain ⟨b', h1, h2⟩ := hv
  rwa [C03_canonical_unique _ _ h1.1 hb.1 (by rw [h1.2, hb.2])] at h2

theorem intToken_total {neg : Bool} {d : Char} {a ds r t : Text} {b : JsBig}
    (hd : isDigit19 d = true) (hds : AllDigits ds) (hb : Is b (decVal (d :: ds)))
    (ht : t = a ++ (signText neg ++ d :: ds ++ r)) (hconv : Converts conv t) :
    ∃ v, intToken conv ⟨b, sg neg⟩ = .ok (.number v) := by
  obtain ⟨-, v, hv⟩ := hconv a ⟨neg, d :: ds, none, none⟩ r
    (by rw [ht]; simp [NumLit.text, fracText, expText])
    ⟨intPart_of_digits hd hds, (by intro _ h; cases h), (by intro _ h; cases h)⟩
  have h1 := litConv (b := b)
    (by rintro ⟨h, -, -⟩; cases h; exact absurd hd (by decide)) (by simpa [mant] using hb) hv
  refine ⟨v, ?_⟩
  unfold intToken
  have : conv ⟨b, sg neg, 0, false⟩ = .ok v := by simpa [expo] using h1
  rw [this]; rfl

theorem fracToken_total {neg : Bool} {a ds fs r t : Text} {b : JsBig} (hd : IntPart ds)
    (hne : fs ≠ []) (hf : AllDigits fs) (hb : Is b (decVal (ds ++ fs)))
    (ht : t = a ++ (signText neg ++ (ds ++ '.' :: fs) ++ r)) (hconv : Converts conv t) :
    ∃ v, floatToken conv ⟨b, sg neg, -(fs.length : Int)⟩ = .ok (.number v) := by
  obtain ⟨-, v, hv⟩ := hconv a ⟨neg, ds, some fs, none⟩ r
    (by rw [ht]; simp [NumLit.text, fracText, expText])
    ⟨hd, (by intro _ h; cases h; exact ⟨hne, hf⟩), (by intro _ h; cases h)⟩
  have h1 := litConv (b := b) (by simp) (by simpa [mant] using hb) hv
  refine ⟨v, ?_⟩
  unfold floatToken
  have : conv ⟨b, sg neg, -(fs.length : Int), false⟩ = .ok v := by simpa [expo] using h1
  rw [this]; rfl

/-- a number state always goes on -/
theorem num_total {st : State} {a p : Text} {c : Char} {t rest : Text} (h : NumAt st p)
    (ht : t = a ++ (p ++ c :: rest)) (hlen : t.length < 2 ^ 62) (hconv : Converts conv t) :
    ∃ o, step conv st c = .ok o := by
  cases h with
  | minus => exact ⟨_, rfl⟩
  | zero neg => exact ⟨_, rfl⟩
  | bigInt neg ds b hd hb hv => exact ⟨_, rfl⟩
  | int neg d ds b hd hds hb =>
    simp only [step]
    split
    · rename_i hc
      obtain ⟨b', h1, -⟩ := addDigit_ok hb hc
      rw [h1]; exact ⟨_, rfl⟩
    split
    · exact ⟨_, rfl⟩
    split
    · exact ⟨_, rfl⟩
    split
    · exact ⟨_, rfl⟩
    split
    · obtain ⟨v, h2⟩ := intToken_total (r := c :: rest) hd hds hb ht hconv
      rw [h2]; exact ⟨_, rfl⟩
    · exact ⟨_, rfl⟩
  | fracBegin neg ds b hd hb =>
    simp only [step]
    split
    · rename_i hc
      obtain ⟨b', h1, -⟩ := floatAddDigit_total (s := sg neg) (fe := 0) hb hc (by norm_num)
        (by norm_num)
      rw [IntState.intoFloat, h1]; exact ⟨_, rfl⟩
    · exact ⟨_, rfl⟩
  | frac neg ds fs b hd hne hf hb =>
    have hl : fs.length < 2 ^ 62 := by
      rw [ht] at hlen
      simp only [List.length_append, List.length_cons] at hlen
      omega
    simp only [step]
    split
    · rename_i hc
      obtain ⟨b', h1, -⟩ := floatAddDigit_total (s := sg neg) (fe := -(fs.length : Int)) hb hc
        (by omega) (by omega)
      rw [h1]; exact ⟨_, rfl⟩
    split
    · exact ⟨_, rfl⟩
    split
    · obtain ⟨v, h2⟩ := fracToken_total (r := c :: rest) hd hne hf hb ht hconv
      rw [h2]; exact ⟨_, rfl⟩
    · exact ⟨_, rfl⟩
  | expBegin l m b hl he hb =>
    have hfl : (l.frac.getD []).length < 2 ^ 62 := by
      have := mant_length l
      rw [ht] at hlen
      simp only [List.length_append, List.length_cons] at hlen this
      omega
    simp only [step]
    split
    · rename_i hc
      obtain ⟨hd, -⟩ := hconv a { l with exp := some ⟨m, none, [c]⟩ } rest
        (by rw [ht]; simp [NumLit.text, expText, he, ExpPart.text])
        ⟨hl.int, hl.frac, by
          intro e h; cases h
          exact ⟨(hl.exp _ he).marker, (by intro _ h; cases h), by simpa [AllDigits] using hc⟩⟩
      have h1 := hd _ rfl
      rw [expAddDigit_total (n := 0) rfl hc (by simpa [decVal, digitNum] using h1)]
      exact ⟨_, rfl⟩
    split
    · exact ⟨_, rfl⟩
    split
    · exact ⟨_, rfl⟩
    split
    · obtain ⟨hd, v, hv⟩ := hconv a l (c :: rest) ht hl
      have h1 := litConv (b := b) (by simp [he]) hb hv
      have h2 := expToken_total he hfl (hd _ he) h1
      simp only [sg, decVal_nil] at h2
      simp only [sg]
      simp at h2
      rw [h2]; exact ⟨_, rfl⟩
    · exact ⟨_, rfl⟩
  | expSign l m c0 b hl he hb =>
    have hfl : (l.frac.getD []).length < 2 ^ 62 := by
      have := mant_length l
      rw [ht] at hlen
      simp only [List.length_append, List.length_cons] at hlen this
      omega
    simp only [step]
    split
    · rename_i hc
      obtain ⟨hd, -⟩ := hconv a { l with exp := some ⟨m, some c0, [c]⟩ } rest
        (by rw [ht]; simp [NumLit.text, expText, he, ExpPart.text])
        ⟨hl.int, hl.frac, by
          intro e h; cases h
          exact ⟨(hl.exp _ he).marker, (hl.exp _ he).sign, by simpa [AllDigits] using hc⟩⟩
      have h1 := hd _ rfl
      rw [expAddDigit_total (n := 0) rfl hc (by simpa [decVal, digitNum] using h1)]
      exact ⟨_, rfl⟩
    split
    · obtain ⟨hd, v, hv⟩ := hconv a l (c :: rest) ht hl
      have h1 := litConv (b := b) (by simp [he]) hb hv
      have h2 := expToken_total he hfl (hd _ he) h1
      simp only [decVal_nil, Option.some.injEq, Nat.cast_zero] at h2
      rw [h2]; exact ⟨_, rfl⟩
    · exact ⟨_, rfl⟩
  | exp l e b hl he hne hb =>
    have hfl : (l.frac.getD []).length < 2 ^ 62 := by
      have := mant_length l
      rw [ht] at hlen
      simp only [List.length_append, List.length_cons] at hlen this
      omega
    simp only [step]
    split
    · rename_i hc
      obtain ⟨hd, -⟩ := hconv a { l with exp := some ⟨e.marker, e.sign, e.digits ++ [c]⟩ } rest
        (by rw [ht]; simp [NumLit.text, expText, he, ExpPart.text])
        ⟨hl.int, hl.frac, by
          intro e' h; cases h
          exact ⟨(hl.exp _ he).marker, (hl.exp _ he).sign, allDigits_snoc (hl.exp _ he).digits hc⟩⟩
      have h1 := hd _ rfl
      rw [decVal_snoc] at h1
      rw [expAddDigit_total rfl hc h1]
      exact ⟨_, rfl⟩
    split
    · obtain ⟨hd, v, hv⟩ := hconv a l (c :: rest) ht hl
      have h1 := litConv (b := b) (by simp [he]) hb hv
      rw [expToken_total he hfl (hd _ he) h1]; exact ⟨_, rfl⟩
    · exact ⟨_, rfl⟩

theorem num_end_total {st : State} {a p : Text} {t : Text} (h : NumAt st p) (ht : t = a ++ p)
    (hlen : t.length < 2 ^ 62) (hconv : Converts conv t) : ∃ o, endTokens conv st = .ok o := by
  cases h with
  | minus => exact ⟨_, rfl⟩
  | zero neg => exact ⟨_, rfl⟩
  | bigInt neg ds b hd hb hv => exact ⟨_, rfl⟩
  | fracBegin neg ds b hd hb => exact ⟨_, rfl⟩
  | expBegin l m b hl he hb => exact ⟨_, rfl⟩
  | expSign l m c0 b hl he hb => exact ⟨_, rfl⟩
  | int neg d ds b hd hds hb =>
    obtain ⟨v, h2⟩ := intToken_total (r := []) hd hds hb (by rw [List.append_nil]; exact ht) hconv
    simp only [endTokens, h2]; exact ⟨_, rfl⟩
  | frac neg ds fs b hd hne hf hb =>
    obtain ⟨v, h2⟩ := fracToken_total (r := []) hd hne hf hb (by rw [List.append_nil]; exact ht)
      hconv
    simp only [endTokens, h2]; exact ⟨_, rfl⟩
  | exp l e b hl he hne hb =>
    have hfl : (l.frac.getD []).length < 2 ^ 62 := by
      have := mant_length l
      rw [ht] at hlen
      simp only [List.length_append] at hlen this
      omega
    obtain ⟨hd, v, hv⟩ := hconv a l [] (by rw [List.append_nil]; exact ht) hl
    have h1 := litConv (b := b) (by simp [he]) hb hv
    simp only [endTokens, expToken_total he hfl (hd _ he) h1]; exact ⟨_, rfl⟩

theorem op_unwrap_total {s : Text} (h : (operatorToToken s).isSome = true) :
    ∃ t, operatorUnwrap s = .ok t := by
  unfold operatorUnwrap
  cases h' : operatorToToken s with
  | none => rw [h'] at h; cases h
  | some t => exact ⟨t, rfl⟩

theorem inv_andInitial (ts : List Token) (c : Char) (r : Text) : Inv (andInitial ts c).2 (r ++ [c]) :=
  inv_initial c r

theorem inv_string (s : Text) (c : Char) (r : Text) : Inv (stepString s c).2 r := by
  unfold stepString; repeat' split
  all_goals trivial

/-- every state goes on with every character -/
theorem step_total {st : State} {r rest t : Text} {c : Char} (hi : Inv st r)
    (ht : t = r ++ c :: rest) (hlen : t.length < 2 ^ 62) (hconv : Converts conv t) :
    ∃ o, step conv st c = .ok o ∧ Inv o.2 (r ++ [c]) := by
  -- number states
  have hnum : (∃ a p, r = a ++ p ∧ NumAt st p) → ∃ o, step conv st c = .ok o ∧ Inv o.2 (r ++ [c]) := by
    rintro ⟨a, p, rfl, h⟩
    obtain ⟨⟨ts, st'⟩, ho⟩ := num_total (a := a) h (by rw [ht, List.append_assoc]) hlen hconv
    refine ⟨_, ho, ?_⟩
    rcases num_step h ho with ⟨rfl, h1⟩ | h1 | ⟨hc, tok, h1, h2⟩
    · rw [List.append_assoc]; exact numAt_inv h1
    · rw [h1]; exact inv_andInitial _ _ _
    · rw [h2]; exact inv_andInitial _ _ _
  cases st with
  | parseMinus => exact hnum hi
  | parseZero s => exact hnum hi
  | parseInt i => exact hnum hi
  | parseFracBegin i => exact hnum hi
  | parseFrac i => exact hnum hi
  | parseExpBegin i => exact hnum hi
  | parseExpSign i => exact hnum hi
  | parseExp i => exact hnum hi
  | parseBigInt i => exact hnum hi
  | initial => exact ⟨_, rfl, inv_initial c r⟩
  | parseId s =>
    refine ⟨_, rfl, ?_⟩
    split
    · trivial
    · exact inv_andInitial _ _ _
  | parseString s => exact ⟨_, rfl, inv_string _ _ _⟩
  | parseEscapeChar s =>
    refine ⟨_, rfl, ?_⟩
    unfold stepEscape
    repeat' split
    all_goals first | trivial | exact inv_string _ _ _ | exact Nat.zero_le _
  | parseUnicodeChar u =>
    simp only [step]
    cases hexVal c with
    | none => exact ⟨_, rfl, inv_string _ _ _⟩
    | some v =>
      simp only [UnicodeState.push]
      rw [subU_ok hi]
      have hle : u.index ≤ 3 := hi
      simp only [bind, Except.bind]
      split
      · split
        · exact ⟨_, rfl, trivial⟩
        · exact ⟨_, rfl, trivial⟩
      · rename_i h3
        rw [if_pos (by omega)]
        exact ⟨_, rfl, (by show u.index + 1 ≤ 3; omega)⟩
  | parseNewLine =>
    refine ⟨_, rfl, ?_⟩
    split
    · trivial
    · exact inv_andInitial _ _ _
  | parseCommentStart =>
    refine ⟨_, rfl, ?_⟩
    repeat' split
    all_goals trivial
  | parseSinglelineComment => 
    simp only [step]
    split <;> exact ⟨_, rfl, trivial⟩
  | parseMultilineComment =>
    simp only [step]
    split <;> exact ⟨_, rfl, trivial⟩
  | parseMultilineCommentAsterix =>
    refine ⟨_, rfl, ?_⟩
    repeat' split
    all_goals trivial
  | parseOperator s =>
    simp only [step]
    split
    · rename_i h; exact ⟨_, rfl, h.2⟩
    · obtain ⟨t, h1⟩ := op_unwrap_total hi
      rw [h1]
      exact ⟨_, rfl, inv_andInitial _ _ _⟩

theorem end_total {st : State} {t : Text} (hi : Inv st t) (hlen : t.length < 2 ^ 62)
    (hconv : Converts conv t) : ∃ o, endTokens conv st = .ok o := by
  have hnum : (∃ a p, t = a ++ p ∧ NumAt st p) → ∃ o, endTokens conv st = .ok o := by
    rintro ⟨a, p, ht, h⟩
    exact num_end_total h ht hlen hconv
  cases st with
  | parseMinus => exact hnum hi
  | parseZero s => exact hnum hi
  | parseInt i => exact hnum hi
  | parseFracBegin i => exact hnum hi
  | parseFrac i => exact hnum hi
  | parseExpBegin i => exact hnum hi
  | parseExpSign i => exact hnum hi
  | parseExp i => exact hnum hi
  | parseBigInt i => exact hnum hi
  | parseOperator s =>
    obtain ⟨t, h1⟩ := op_unwrap_total hi
    simp only [endTokens, h1]
    exact ⟨_, rfl⟩
  | _ => exact ⟨_, rfl⟩

theorem finish_total (rest : Text) : ∀ (st : State) (r t : Text), Inv st r → t = r ++ rest →
    t.length < 2 ^ 62 → Converts conv t → ∃ ts, finish conv st rest = .ok ts := by
  induction rest with
  | nil =>
    intro st r t hi ht hlen hconv
    rw [List.append_nil] at ht
    subst ht
    rw [finish_nil]
    exact end_total hi hlen hconv
  | cons c rest ih =>
    intro st r t hi ht hlen hconv
    obtain ⟨⟨ts, st'⟩, h1, h2⟩ := step_total hi ht hlen hconv
    obtain ⟨ts', h3⟩ := ih st' (r ++ [c]) t h2 (by rw [ht]; simp) hlen hconv
    rw [finish_cons h1, h3]
    exact ⟨_, rfl⟩

/-- No text makes the tokenizer panic as long as the conversion of the number literals in it
succeeds. -/
theorem C32_total_conv (t : Text) (hlen : t.length < 2 ^ 62) (h : Converts conv t) :
    ∃ ts, tokenize conv t = .ok ts := by
  rw [tokenize_eq]
  exact finish_total t .initial [] t trivial rfl hlen h

/-- Full claim of C32 (totality): exponents with digits that fit in `i64` do no harm. -/
def TokenizerTotal : Prop :=
  ∀ t : Text, (∀ a (l : NumLit) c, t = a ++ (l.text ++ c) → l.Lax →
      ∀ e, l.exp = some e → decVal e.digits < 2 ^ 63) →
    ∃ F, ∀ fuel ≥ F, ∃ ts, tokenize (BigFloat.toF64 fuel) t = .ok ts

/-- C32, the part that holds: number literals have decimal exponents between -27 and 2^59.
Missing: other exponents (`C32_total_violated`, `C32_total_overflow_violated`). -/
theorem C32_total_partial (t : Text) (hlen : t.length < 2 ^ 56)
    (h : ∀ a (l : NumLit) c, t = a ++ (l.text ++ c) → l.Lax →
      -27 ≤ l.expo ∧ ∀ e, l.exp = some e → decVal e.digits ≤ 2 ^ 59) :
    ∃ F, ∀ fuel ≥ F, ∃ ts, tokenize (BigFloat.toF64 fuel) t = .ok ts := by
  refine ⟨4 * t.length + 3 * 2 ^ 59 + 201, fun fuel hf => C32_total_conv t (by omega) ?_⟩
  intro a l c ht hl
  obtain ⟨h1, h2⟩ := h a l c ht hl
  refine ⟨fun e he => by have := h2 e he; omega, ?_⟩
  have hll : l.text.length ≤ t.length := by
    rw [ht]; simp only [List.length_append]; omega
  have hml := mant_length l
  obtain ⟨b, st, hb, -⟩ := run_mant (conv := fun _ => .ok 0) l hl (by omega)
  have hup : l.expo ≤ 2 ^ 59 := by
    unfold expo
    cases hx : l.exp with
    | none => simp only; omega
    | some e =>
      have := h2 e hx
      simp only [ExpPart.value]
      split <;> omega
  have hlog : l.mant.log2 < 2 ^ 59 := log2_digits (mant_digits hl) (by omega)
  have hlog' : l.mant.log2 ≤ 4 * (l.int ++ l.frac.getD []).length := log2_le_digits (mant_digits hl)
  have hc : ∃ v, BigFloat.toF64 fuel ⟨b, sg l.neg, l.expo, false⟩ = .ok v := by
    rcases Nat.eq_zero_or_pos l.mant with h0 | h0
    · exact ⟨0, toF64_zero _ (by simpa [h0] using hb) fuel⟩
    · obtain ⟨v, hv, -⟩ := toF64_fuel ⟨b, sg l.neg, l.expo, false⟩ l.mant hb h0 rfl hlog h1 hup fuel
        (by dsimp only; omega)
      exact ⟨v, hv⟩
  obtain ⟨v, hv⟩ := hc
  unfold LitValue
  split
  · exact ⟨0, rfl⟩
  · exact ⟨v, b, hb, hv⟩

/-- Texts without dots and exponent markers, in particular all runs of digits with or without
leading zeros, never make the tokenizer panic. -/
theorem C18_no_panic (t : Text) (hlen : t.length < 2 ^ 56)
    (h : ∀ c ∈ t, c ≠ '.' ∧ isExp c = false) :
    ∃ F, ∀ fuel ≥ F, ∃ ts, tokenize (BigFloat.toF64 fuel) t = .ok ts := by
  refine C32_total_partial t hlen fun a l c ht hl => ?_
  have hx : l.exp = none := by
    cases he : l.exp with
    | none => rfl
    | some e =>
      have := (h e.marker (by simp [ht, NumLit.text, expText, he, ExpPart.text])).2
      rw [(hl.exp e he).marker] at this
      cases this
  have hfr : l.frac = none := by
    cases he : l.frac with
    | none => rfl
    | some fs => exact absurd rfl (h '.' (by simp [ht, NumLit.text, fracText, he])).1
  refine ⟨by simp [expo, hx, hfr], by simp [hx]⟩

/-- The literal `1e-55` keeps the tokenizer busy forever. -/
theorem C32_total_violated : ¬ TokenizerTotal := by
  intro h
  obtain ⟨F, hF⟩ := h ['1', 'e', '-', '5', '5'] (by
    intro a l c ht hl e he
    have h1 : e.digits.length ≤ 5 := by
      have := congrArg List.length ht
      simp [NumLit.text, expText, he, ExpPart.text] at this
      omega
    have h2 := decVal_lt _ (hl.exp e he).digits
    have h3 : 10 ^ e.digits.length ≤ 10 ^ 5 := Nat.pow_le_pow_right (by norm_num) h1
    omega)
  obtain ⟨ts, ht⟩ := hF F (le_refl _)
  rw [tokenize_eq, finish_cons (ts := []) (st' := .parseInt ⟨JsBig.fromU64 .pos 1, .pos⟩) rfl,
    finish_cons (ts := []) (st' := .parseExpBegin ⟨JsBig.fromU64 .pos 1, .pos, 0, .pos, 0⟩) rfl,
    finish_cons (ts := []) (st' := .parseExpSign ⟨JsBig.fromU64 .pos 1, .pos, 0, .neg, 0⟩) rfl,
    finish_cons (ts := []) (st' := .parseExp ⟨JsBig.fromU64 .pos 1, .pos, 0, .neg, 5⟩) rfl,
    finish_cons (ts := []) (st' := .parseExp ⟨JsBig.fromU64 .pos 1, .pos, 0, .neg, 55⟩) rfl,
    finish_nil] at ht
  have hv := C16_termination_violated F
  have e : endTokens (BigFloat.toF64 F) (.parseExp ⟨JsBig.fromU64 .pos 1, .pos, 0, .neg, 55⟩) =
      (BigFloat.toF64 F ⟨JsBig.new .pos [1], .pos, -55, false⟩).bind fun v => .ok [.number v] := by
    simp only [endTokens, expToken, bind, Except.bind]
    rw [i64_of (by norm_num) (by norm_num)]
    simp only
    rw [i64_of (by norm_num) (by norm_num)]
    simp only
    rw [show (JsBig.fromU64 .pos 1) = JsBig.new .pos [1] by decide, show (0 : Int) + -55 = -55 by norm_num]
    cases BigFloat.toF64 F ⟨JsBig.new .pos [1], .pos, -55, false⟩ <;> rfl
  rw [e] at ht
  cases hx : BigFloat.toF64 F ⟨JsBig.new .pos [1], .pos, -55, false⟩ with
  | error e => rw [hx] at ht; cases ht
  | ok v => exact hv v hx

/-- The exponent of `0.55e-9223372036854775808` does not fit, and that of
`0.55e-9223372036854775807` fits but adding the fraction digits overflows: both panic. -/
theorem C32_total_overflow_violated (conv : BigFloat → Res Nat) :
    tokenize conv "0.55e-9223372036854775808".toList = .error (.panic .overflow) ∧
    tokenize conv "0.55e-9223372036854775807".toList = .error (.panic .overflow) := by
  have h5 : addDigit (JsBig.fromU64 .pos 0) '5' = .ok (JsBig.fromU64 .pos 5) := by decide
  have h55 : addDigit (JsBig.fromU64 .pos 5) '5' = .ok (JsBig.fromU64 .pos 55) := by decide
  have pre : run conv .initial "0.55e-".toList =
      .ok ([], .parseExpSign ⟨JsBig.fromU64 .pos 55, .pos, -2, .neg, 0⟩) := by
    rw [show "0.55e-".toList = ['0', '.', '5', '5', 'e', '-'] by decide]
    rw [run_cons_ok (ts := []) (st' := .parseZero .pos) rfl,
      run_cons_ok (ts := []) (st' := .parseFracBegin ⟨JsBig.fromU64 .pos 0, .pos⟩) rfl,
      run_cons_ok (ts := []) (st' := .parseFrac ⟨JsBig.fromU64 .pos 5, .pos, -1⟩),
      run_cons_ok (ts := []) (st' := .parseFrac ⟨JsBig.fromU64 .pos 55, .pos, -2⟩),
      run_cons_ok (ts := []) (st' := .parseExpBegin ⟨JsBig.fromU64 .pos 55, .pos, -2, .pos, 0⟩) rfl,
      run_cons_ok (ts := []) (st' := .parseExpSign ⟨JsBig.fromU64 .pos 55, .pos, -2, .neg, 0⟩) rfl]
    · rfl
    · simp only [step, show isDigit '5' = true by decide, if_true, FloatState.addDigit, h55]
      rfl
    · simp only [step, show isDigit '5' = true by decide, if_true, IntState.intoFloat,
        FloatState.addDigit, h5]
      rfl
  have mid : run conv (.parseExpSign ⟨JsBig.fromU64 .pos 55, .pos, -2, .neg, 0⟩)
      "922337203685477580".toList =
      .ok ([], .parseExp ⟨JsBig.fromU64 .pos 55, .pos, -2, .neg, 922337203685477580⟩) := by
    rw [show "922337203685477580".toList = '9' :: "22337203685477580".toList by decide]
    rw [run_cons_ok (ts := [])
      (st' := .parseExp ⟨JsBig.fromU64 .pos 55, .pos, -2, .neg, decVal ['9']⟩) rfl]
    rw [run_exp_digits _ _ _ _ _ (by decide) ['9'] (by decide +kernel)]
    rfl
  constructor
  · rw [show "0.55e-9223372036854775808".toList =
      "0.55e-".toList ++ ("922337203685477580".toList ++ ['8']) by decide]
    rw [tokenize_eq, finish_append pre, finish_append mid, finish, run_one]
    rfl
  · rw [show "0.55e-9223372036854775807".toList =
      "0.55e-".toList ++ ("922337203685477580".toList ++ ['7']) by decide]
    rw [tokenize_eq, finish_append pre, finish_append mid, finish_cons (ts := []) (st' :=
      .parseExp ⟨JsBig.fromU64 .pos 55, .pos, -2, .neg, 9223372036854775807⟩) rfl, finish_nil]
    rfl

/-- the hypotheses of the partial theorem hold for `[1.5, "a", 00]` -/
example : ∃ F, ∀ fuel ≥ F, ∃ ts, tokenize (BigFloat.toF64 fuel) "[1.5, \"a\", 00]".toList = .ok ts := by
  refine C32_total_partial _ (by decide) fun a l c ht hl => ?_
  have hx : l.exp = none := by
    cases he : l.exp with
    | none => rfl
    | some e =>
      have hm : e.marker ∈ "[1.5, \"a\", 00]".toList := by
        rw [ht]; simp [NumLit.text, expText, he, ExpPart.text]
      have := (hl.exp e he).marker
      revert this
      have key : ∀ x ∈ "[1.5, \"a\", 00]".toList, isExp x = false := by decide
      rw [key _ hm]; simp
  have hlen : (l.frac.getD []).length ≤ 14 := by
    have h1 := mant_length l
    have h2 := congrArg List.length ht
    have h3 : ("[1.5, \"a\", 00]".toList).length = 14 := by decide
    rw [h3] at h2
    simp only [List.length_append] at h1 h2
    omega
  refine ⟨?_, by simp [hx]⟩
  simp only [expo, hx]
  omega

end Nanvm
