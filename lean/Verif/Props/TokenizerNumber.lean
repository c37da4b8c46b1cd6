import Verif.Spec.Json
import Verif.Lemmas.TokNumRun
import Verif.Props.TokenizerString
import Verif.Props.BigFloat
/-!
# Property theorems C37 (number grammar), C18 (integer and bigint literals), C16 (literals)
-/
namespace Nanvm
open Tok NumLit

variable {conv : BigFloat → Res Nat}

def StartsNumber (t : Text) : Prop := ∃ c r, t = c :: r ∧ (isDigit c = true ∨ c = '-')

/-- `ts` starts with the error for a malformed number, or `t` starts with a literal satisfying `P`
that is followed by the end or by a character that may follow a number; the first token has the
value of the literal and the rest is tokenized as if it stood alone -/
def NumberOutcome (conv : BigFloat → Res Nat) (P : Text → NumLit → Prop) (t : Text)
    (ts : List Token) : Prop :=
  (∃ r, ts = .error .invalidNumber :: r) ∨
  ∃ p rem tok rest, t = p ++ rem ∧ NumEnd rem ∧ NumToken conv (P rem) p tok ∧ ts = tok :: rest ∧
    tokenize conv rem = .ok rest

/-- Full claim of C37. -/
def NumbersAreGrammatical (conv : BigFloat → Res Nat) : Prop :=
  ∀ t ts, StartsNumber t → tokenize conv t = .ok ts → NumberOutcome conv (fun _ => Valid) t ts

/-- how a text goes on in a number state -/
theorem num_outcome (t : Text) : ∀ (st : State) (p : Text) (ts : List Token), NumAt st p →
    finish conv st t = .ok ts →
    (∃ r, ts = .error .invalidNumber :: r) ∨
    ∃ q rem tok rest, t = q ++ rem ∧ NumEnd rem ∧
      NumToken conv (fun l => l.Lax ∧ (rem = [] → l.Valid)) (p ++ q) tok ∧ ts = tok :: rest ∧
      tokenize conv rem = .ok rest := by
  induction t with
  | nil =>
    intro st p ts h hf
    rw [finish_nil] at hf
    rcases num_end h hf with rfl | ⟨tok, h1, rfl⟩
    · exact Or.inl ⟨[], rfl⟩
    · refine Or.inr ⟨[], [], tok, [], rfl, fun _ _ h => (by cases h), ?_, rfl, rfl⟩
      rw [List.append_nil]
      exact h1.mono fun l hl => ⟨hl.1, fun _ => hl⟩
  | cons c t ih =>
    intro st p ts h hf
    cases hs : step conv st c with
    | error e =>
      rw [finish, run_cons, hs] at hf
      cases hf
    | ok o =>
      obtain ⟨ts1, st1⟩ := o
      rcases num_step h hs with ⟨rfl, h1⟩ | h1 | ⟨hc, tok, h1, h2⟩
      · obtain ⟨r, hr, rfl⟩ := finish_cons_ok hs hf
        rcases ih st1 (p ++ [c]) _ h1 hr with ⟨r, hr⟩ | ⟨q, rem, tok, rest, rfl, h3, h4, h5, h6⟩
        · exact Or.inl ⟨r, hr⟩
        · exact Or.inr ⟨c :: q, rem, tok, rest, rfl, h3, by simpa using h4, h5, h6⟩
      · cases h1
        obtain ⟨r, hr, rfl⟩ := finish_cons_ok hs hf
        exact Or.inl ⟨_, rfl⟩
      · rw [h2] at hs
        rw [finish_andInitial hs] at hf
        obtain ⟨rest, h3, h4⟩ := bind_ok hf
        cases h4
        exact Or.inr ⟨[], c :: t, tok, rest, rfl, fun _ _ h => by cases h; exact hc,
          by simpa using h1, rfl, h3⟩

theorem numAt_first {c : Char} (h : isDigit c = true ∨ c = '-') :
    ∃ st, step conv .initial c = .ok ([], st) ∧ NumAt st [c] := by
  by_cases hm : c = '-'
  · subst hm; exact ⟨_, rfl, .minus⟩
  by_cases h0 : c = '0'
  · subst h0; exact ⟨_, rfl, .zero false⟩
  have hd : isDigit c = true := h.resolve_right hm
  have hle := digit_le hd
  have h19 : isDigit19 c = true := by
    simp only [isDigit19, isDigit, Bool.and_eq_true, decide_eq_true_eq] at hd ⊢
    refine ⟨?_, hd.2⟩
    have hne : c.toNat ≠ 48 := fun e => h0 (by rw [← Char.ofNat_toNat c, e])
    have : 49 ≤ c.toNat := by omega
    exact this
  refine ⟨.parseInt ⟨JsBig.fromU64 .pos (digitNum c), .pos⟩, ?_, ?_⟩
  · have hop : isOp c = false := by
      simp only [isOp, isPunct, Bool.or_eq_false_iff, decide_eq_false_iff_not]
      refine ⟨⟨⟨⟨⟨⟨⟨⟨⟨⟨?_, ?_⟩, ?_⟩, ?_⟩, ?_⟩, ?_⟩, ?_⟩, ?_⟩, ?_⟩, ?_⟩, ?_⟩
      all_goals rintro rfl; revert hd; decide
    simp [step, stepInitial, hop, h19]
  · have hb : Is (JsBig.fromU64 .pos (digitNum c)) (decVal [c]) := by
      have := is_fromU64 (digitNum c) (by unfold digitNum; omega)
      simpa [decVal, digitNum] using this
    exact .int false c [] _ h19 (by intro _ h; cases h) hb

/-- C37, the part that holds: whatever starts with a digit or a minus is rejected, or starts with
a literal of the grammar except that the digits of the exponent may be missing when the literal is
not at the end of the text. Missing: digits of the exponent (`C37_grammar_violated`). -/
theorem C37_grammar_partial (t : Text) (ts : List Token) (hs : StartsNumber t)
    (h : tokenize conv t = .ok ts) :
    NumberOutcome conv (fun rem l => l.Lax ∧ (rem = [] → l.Valid)) t ts := by
  obtain ⟨c, r, rfl, hc⟩ := hs
  obtain ⟨st, h1, h2⟩ := numAt_first (conv := conv) hc
  rw [tokenize_eq] at h
  obtain ⟨x, hx, rfl⟩ := finish_cons_ok h1 h
  rcases num_outcome r st [c] _ h2 hx with h3 | ⟨q, rem, tok, rest, rfl, h3, h4, h5, h6⟩
  · exact Or.inl h3
  · exact Or.inr ⟨c :: q, rem, tok, rest, rfl, h3, h4, h5, h6⟩

/-- If no exponent marker occurs, the grammar is met exactly. -/
theorem C37_grammar_no_exponent (t : Text) (ts : List Token) (hs : StartsNumber t)
    (he : ∀ c ∈ t, isExp c = false) (h : tokenize conv t = .ok ts) :
    NumberOutcome conv (fun _ => Valid) t ts := by
  rcases C37_grammar_partial t ts hs h with h1 | ⟨p, rem, tok, rest, rfl, h3, h4, h5, h6⟩
  · exact Or.inl h1
  · refine Or.inr ⟨p, rem, tok, rest, rfl, h3, ?_, h5, h6⟩
    rcases h4 with ⟨l, v, ⟨hl, -⟩, rfl, h7⟩ | h4
    · refine Or.inl ⟨l, v, ⟨hl, fun e hx => ?_⟩, rfl, h7⟩
      have := he e.marker (by simp [NumLit.text, expText, hx, ExpPart.text])
      rw [(hl.exp e hx).marker] at this
      cases this
    · exact Or.inr h4

theorem getLast?_digit {ds : Text} (h : AllDigits ds) (hne : ds ≠ []) :
    ∃ d, ds.getLast? = some d ∧ isDigit d = true :=
  ⟨ds.getLast hne, List.getLast?_eq_some_getLast hne, h _ (List.getLast_mem hne)⟩

theorem intPart_digits {ds : Text} (h : IntPart ds) : AllDigits ds ∧ ds ≠ [] := by
  rcases h with rfl | ⟨c, cs, rfl, hc, hcs⟩
  · exact ⟨by decide, by simp⟩
  · refine ⟨fun x hx => ?_, by simp⟩
    rcases List.mem_cons.1 hx with rfl | hx
    · exact digit19_digit hc
    · exact hcs x hx

/-- a literal of the grammar ends with a digit -/
theorem valid_last {l : NumLit} (h : l.Valid) : ∃ d, l.text.getLast? = some d ∧ isDigit d = true := by
  have key : ∀ (a b : Text), (∃ d, b.getLast? = some d ∧ isDigit d = true) →
      ∃ d, (a ++ b).getLast? = some d ∧ isDigit d = true := by
    rintro a b ⟨d, h1, h2⟩
    exact ⟨d, by rw [List.getLast?_append, h1]; rfl, h2⟩
  unfold NumLit.text
  refine key _ _ ?_
  cases he : l.exp with
  | some e =>
    refine key _ _ (key _ _ ?_)
    have := getLast?_digit (h.1.exp e he).digits (h.2 e he)
    exact key (e.marker :: e.sign.toList) _ this
  | none =>
    simp only [expText, List.append_nil]
    cases hf : l.frac with
    | some fs =>
      obtain ⟨h1, h2⟩ := h.1.frac fs hf
      exact key _ _ (key ['.'] _ (getLast?_digit h2 h1))
    | none =>
      simp only [fracText, List.append_nil]
      have := intPart_digits h.1.int
      exact getLast?_digit this.1 this.2

/-- The digits of an exponent are not required before the end of the text: `1e,` is accepted as a
number followed by a comma. -/
theorem C37_grammar_violated :
    ∃ F, ∀ fuel ≥ F, ¬ NumbersAreGrammatical (BigFloat.toF64 fuel) := by
  obtain ⟨v, ⟨F, hF⟩, -⟩ := C16_decimal_partial ⟨JsBig.fromU64 .pos 1, .pos, 0, false⟩ (by decide)
    (by decide) rfl (by decide +kernel) (by norm_num) (by norm_num) (by decide)
  refine ⟨F, fun fuel hf h => ?_⟩
  have hv : BigFloat.toF64 fuel ⟨JsBig.fromU64 .pos 1, .pos, 0, false⟩ = .ok v := hF fuel hf
  have ht : tokenize (BigFloat.toF64 fuel) ['1', 'e', ','] = .ok [.number v, .comma] := by
    rw [tokenize_eq, finish_cons (ts := []) (st' := .parseInt ⟨JsBig.fromU64 .pos 1, .pos⟩) rfl,
      finish_cons (ts := []) (st' := .parseExpBegin ⟨JsBig.fromU64 .pos 1, .pos, 0, .pos, 0⟩) rfl,
      finish_cons (ts := [.number v]) (st' := .parseOperator [','])]
    · rfl
    · have e : expToken (BigFloat.toF64 fuel) ⟨JsBig.fromU64 .pos 1, .pos, 0, .pos, 0⟩ =
          .ok (.number v) := by
        simp only [expToken, bind, Except.bind]
        rw [i64_of (by norm_num) (by norm_num)]
        simp only [Int.add_zero, hv]
        rfl
      simp only [step, e]
      rfl
  rcases h _ _ ⟨'1', _, rfl, Or.inl (by decide)⟩ ht with ⟨r, h1⟩ | ⟨p, rem, tok, rest, h1, h2, h3, h4, h5⟩
  · cases h1
  · cases h4
    rcases h3 with ⟨l, v, hl, rfl, -⟩ | ⟨neg, ds, b, -, rfl, h3, -⟩
    · obtain ⟨d, hd1, hd2⟩ := valid_last hl
      generalize l.text = p at *
      rcases p with _ | ⟨c1, _ | ⟨c2, _ | ⟨c3, p⟩⟩⟩
      · cases hd1
      · cases h1
        exact absurd (h2 _ _ rfl) (by decide)
      · cases h1; cases hd1; revert hd2; decide
      · simp only [List.cons_append, List.cons.injEq, List.nil_eq, List.append_eq_nil_iff] at h1
        obtain ⟨rfl, rfl, rfl, rfl, -⟩ := h1
        cases hd1; revert hd2; decide
    · cases h3

/-- Every literal of the grammar is accepted with its value (texts and exponents of less than
`2^62`), whatever may follow a number. -/
theorem C37_complete (l : NumLit) (v : Nat) (rem : Text) (hl : l.Valid) (hr : NumEnd rem)
    (hlen : l.text.length < 2 ^ 62) (he : ∀ e, l.exp = some e → decVal e.digits < 2 ^ 62)
    (hv : LitValue conv l v) :
    tokenize conv (l.text ++ rem) = (tokenize conv rem).bind fun q => .ok (.number v :: q) := by
  obtain ⟨st, h1, h2⟩ := run_lit l hl hlen he v hv
  rw [tokenize_eq, finish_append h1, h2.finish hr]
  cases tokenize conv rem <;> rfl

theorem C37_complete_bigint (neg : Bool) (ds rem : Text) (hd : IntPart ds) (hr : NumEnd rem) :
    ∃ b, b.Canon ∧ b.toInt = (if neg then -(decVal ds : Int) else decVal ds) ∧
      tokenize conv (bigText neg ds ++ rem) = (tokenize conv rem).bind fun q => .ok (.bigInt b :: q) := by
  obtain ⟨b, h1, h2, h3⟩ := run_big (conv := conv) neg hd
  refine ⟨b, h1, ?_, ?_⟩
  · rw [h2]; cases neg <;> rfl
  · rw [tokenize_eq, finish_append h3, (accepts_big b).finish hr]
    cases tokenize conv rem <;> rfl

/-- the hypotheses: `-1.5e+3`, then a blank -/
example : NumLit.Valid ⟨true, ['1'], some ['5'], some ⟨'e', some '+', ['3']⟩⟩ ∧
    NumEnd [' '] ∧ NumLit.text ⟨true, ['1'], some ['5'], some ⟨'e', some '+', ['3']⟩⟩ =
      "-1.5e+3".toList := by
  refine ⟨⟨⟨Or.inr ⟨'1', [], rfl, by decide, by decide⟩, ?_, ?_⟩, ?_⟩, ?_, by decide⟩
  · intro ds h; cases h; exact ⟨by simp, by decide⟩
  · intro e h; cases h
    exact ⟨by decide, (by intro c h; cases h; exact Or.inl rfl), by decide⟩
  · intro e h; cases h; simp
  · intro c r h; cases h; decide

/-- the tokens of a bigint literal carry the written value -/
theorem C18_bigint (neg : Bool) (ds : Text) (hd : IntPart ds) :
    ∃ b, b.toInt = (if neg then -(decVal ds : Int) else decVal ds) ∧
      tokenize conv (bigText neg ds) = .ok [.bigInt b] := by
  obtain ⟨b, -, h2, h3⟩ := C37_complete_bigint (conv := conv) neg ds [] hd (fun _ _ h => by cases h)
  exact ⟨b, h2, by simpa [tokenize, run, endTokens, Except.bind, bind, pure, Except.pure] using h3⟩

theorem decVal_lt (ds : Text) (h : AllDigits ds) : decVal ds < 10 ^ ds.length := by
  induction ds using List.reverseRecOn with
  | nil => simp [decVal]
  | append_singleton ds c ih =>
    have h1 := ih fun x hx => h x (by simp [hx])
    have h2 := digit_le (h c (by simp))
    rw [decVal_snoc, List.length_append, List.length_singleton, pow_succ]
    have h3 : digitNum c ≤ 9 := by unfold digitNum; omega
    omega

theorem log2_le_digits {ds : Text} (h : AllDigits ds) : (decVal ds).log2 ≤ 4 * ds.length := by
  rcases Nat.eq_zero_or_pos (decVal ds) with h0 | h0
  · rw [h0]; simp
  · have : (decVal ds).log2 < 4 * ds.length + 1 := by
      rw [Nat.log2_lt (by omega)]
      refine lt_of_lt_of_le (decVal_lt ds h) ?_
      calc 10 ^ ds.length ≤ (2 ^ 4) ^ ds.length := Nat.pow_le_pow_left (by norm_num) _
        _ = 2 ^ (4 * ds.length) := by rw [← pow_mul]
        _ ≤ 2 ^ (4 * ds.length + 1) := Nat.pow_le_pow_right (by norm_num) (by omega)
    omega

theorem log2_digits {ds : Text} (h : AllDigits ds) (hl : ds.length < 2 ^ 56) :
    (decVal ds).log2 < 2 ^ 59 := by
  rcases Nat.eq_zero_or_pos (decVal ds) with h0 | h0
  · rw [h0]; norm_num
  · rw [Nat.log2_lt (by omega)]
    refine lt_of_lt_of_le (decVal_lt ds h) ?_
    calc 10 ^ ds.length ≤ (2 ^ 4) ^ ds.length := Nat.pow_le_pow_left (by norm_num) _
      _ = 2 ^ (4 * ds.length) := by rw [← pow_mul]
      _ ≤ 2 ^ 2 ^ 59 := Nat.pow_le_pow_right (by norm_num) (by omega)

theorem mant_digits {l : NumLit} (h : l.Lax) : AllDigits (l.int ++ l.frac.getD []) := by
  intro c hc
  rcases List.mem_append.1 hc with hc | hc
  · exact (intPart_digits h.int).1 c hc
  · cases hf : l.frac with
    | none => rw [hf] at hc; cases hc
    | some fs => rw [hf] at hc; exact (h.frac fs hf).2 c hc

theorem mant_length (l : NumLit) : (l.int ++ l.frac.getD []).length ≤ l.text.length := by
  cases hf : l.frac with
  | none => simp [NumLit.text, fracText, hf]; omega
  | some fs => simp [NumLit.text, fracText, hf]; omega

/-- C16 for literals in a text: the token of a literal with a decimal exponent of at least -27 is
the double nearest to the written value. Missing: smaller exponents (`C16_termination_violated`)
and the sign of zero (`C16_negative_zero_violated`). -/
theorem C16_literal_partial (l : NumLit) (hl : l.Valid)
    (hlen : l.text.length < 2 ^ 56) (he : ∀ e, l.exp = some e → decVal e.digits ≤ 2 ^ 59)
    (hlow : -27 ≤ l.expo) (hz : l.mant = 0 → l.neg = false) :
    ∃ bits, IsNearestDouble l.neg l.value bits ∧
      ∃ F, ∀ fuel ≥ F, LitValue (BigFloat.toF64 fuel) l bits ∧
        ∀ rem, NumEnd rem → tokenize (BigFloat.toF64 fuel) (l.text ++ rem) =
          (tokenize (BigFloat.toF64 fuel) rem).bind fun q => .ok (.number bits :: q) := by
  have hup : l.expo ≤ 2 ^ 59 := by
    unfold expo
    cases hx : l.exp with
    | none => simp only; omega
    | some e =>
      have := he e hx
      simp only [ExpPart.value]
      split <;> omega
  obtain ⟨b, st, hb, -⟩ := run_mant (conv := fun _ => .ok 0) l hl.1 (by omega)
  have hlog : l.mant.log2 < 2 ^ 59 :=
    log2_digits (mant_digits hl.1) (lt_of_le_of_lt (mant_length l) hlen)
  obtain ⟨bits, ⟨F, hF⟩, hn⟩ := C16_decimal_partial ⟨b, sg l.neg, l.expo, false⟩ hb.1
    (by rw [hb.2]; omega) rfl (by rw [hb.2]; simpa using hlog) hlow hup
    (fun h => by
      have : l.mant = 0 := by have := hb.2; simp only at h; omega
      rw [hz this]; rfl)
  have hsg : (decide ((sg l.neg) = Sign.neg)) = l.neg := by cases l.neg <;> rfl
  refine ⟨bits, ?_, F, fun fuel hf => ?_⟩
  · rw [NumLit.value]
    simp only [hb.2, hsg] at hn
    exact_mod_cast hn
  · have hv : LitValue (BigFloat.toF64 fuel) l bits := by
      rw [LitValue]
      split
      · rename_i hp
        have hm : l.mant = 0 := by simp [mant, hp.1, hp.2.1, decVal]
        have h1 := hF F (le_refl _)
        simp only at h1
        rw [toF64_zero _ (by simpa [hm] using hb)] at h1
        cases h1; rfl
      · exact ⟨b, hb, hF fuel hf⟩
    refine ⟨hv, fun rem hr => C37_complete l bits rem hl hr (by omega) (fun e hx => ?_) hv⟩
    have := he e hx; omega

/-- a run of digits without leading zeros is the double nearest to the written integer -/
theorem C18_integer (neg : Bool) (ds : Text) (hd : IntPart ds) (hlen : ds.length < 2 ^ 55)
    (hz : decVal ds = 0 → neg = false) :
    ∃ bits, IsNearestDouble neg (decVal ds) bits ∧
      ∃ F, ∀ fuel ≥ F, tokenize (BigFloat.toF64 fuel) (signText neg ++ ds) = .ok [.number bits] := by
  have hs : (signText neg).length ≤ 1 := by cases neg <;> simp [signText]
  obtain ⟨bits, h1, F, h2⟩ := C16_literal_partial ⟨neg, ds, none, none⟩
    ⟨⟨hd, (by intro _ h; cases h), (by intro _ h; cases h)⟩, (by intro _ h; cases h)⟩
    (by simp [NumLit.text, fracText, expText]; omega)
    (by intro _ h; cases h) (by simp [expo]) (by simpa [mant] using hz)
  refine ⟨bits, by simpa [NumLit.value, mant, expo] using h1, F, fun fuel hf => ?_⟩
  have := (h2 fuel hf).2 [] (fun _ _ h => by cases h)
  simpa [NumLit.text, fracText, expText, tokenize, run, endTokens, Except.bind, bind, pure,
    Except.pure] using this

/-- the sign of a zero is lost -/
theorem C18_negative_zero_violated :
    tokenize conv ['-', '0'] = .ok [.number 0] ∧ ¬ IsNearestDouble true 0 0 := by
  refine ⟨?_, ?_⟩
  · rw [tokenize_eq, finish_cons (ts := []) (st' := .parseMinus) rfl,
      finish_cons (ts := []) (st' := .parseZero .neg) rfl]
    rfl
  · rintro ⟨n, -, h⟩
    simp at h
    omega

end Nanvm
