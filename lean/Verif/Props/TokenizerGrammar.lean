import Verif.Props.TokenizerRender
/-!
# Property theorems C66, C67: the lexical grammar
-/
namespace Nanvm
open Tok NumLit

variable {conv : BigFloat → Res Nat}

/-! ## Specification -/

/-- a line break: a line feed, or a line comment with the end of its line -/
inductive LineBreak : Text → Prop
  | feed : LineBreak ['\n']
  | comment (body : Text) (e : Char) : (∀ c ∈ body, isLineEnd c = false) → isLineEnd e = true →
    LineBreak (lineComment body e)

/-- `Lexed conv P E t ts`: the text `t` is a sequence of tokens, white space and comments with an end in
`E`, and `ts` are its tokens.  `P r l` says which number literals `l` may stand before the text `r`. -/
inductive Lexed (conv : BigFloat → Res Nat) (P : Text → NumLit → Prop) (E : Text → List Token → Prop) :
    Text → List Token → Prop
  | finish (t ts) : E t ts → Lexed conv P E t ts
  | blank (c t ts) : isBlank c = true → Lexed conv P E t ts → Lexed conv P E (c :: t) ts
  | op (c tok t ts) : (Item.op c).Denotes conv tok → Lexed conv P E t ts →
    Lexed conv P E (c :: t) (tok :: ts)
  /-- an identifier is as long as possible -/
  | id (c cs t ts) : isIdStart c = true → (∀ x ∈ cs, isIdChar x = true) →
    (∀ x r, t = x :: r → isIdChar x = false) → Lexed conv P E t ts →
    Lexed conv P E (c :: cs ++ t) (.id (c :: cs) :: ts)
  | str (ps s t ts) : (∀ p ∈ ps, p.Valid) → (∀ p ∈ ps, ¬ p.Surrogate) → content ps = some s →
    Lexed conv P E t ts → Lexed conv P E (literal ps ++ t) (.string s :: ts)
  /-- a number is followed by the end, white space, punctuation, a quote or a comment -/
  | num (l v t ts) : P t l → LitValue conv l v → NumEnd t → Lexed conv P E t ts →
    Lexed conv P E (l.text ++ t) (.number v :: ts)
  | big (neg ds b t ts) : IntPart ds → JsBig.Canon b →
    b.toInt = (if neg then -(decVal ds : Int) else decVal ds) → NumEnd t → Lexed conv P E t ts →
    Lexed conv P E (bigText neg ds ++ t) (.bigInt b :: ts)
  | comment (body t ts) : NoClose body → Lexed conv P E t ts → Lexed conv P E (blockComment body ++ t) ts
  /-- a line break with all white space after it is one token -/
  | newLine (b ws c t ts) : LineBreak b → (∀ x ∈ ws, isWhite x = true) → isWhite c = false →
    Lexed conv P E (c :: t) ts → Lexed conv P E (b ++ (ws ++ c :: t)) (.newLine :: ts)
  /-- but not at the end -/
  | lastBreak (b ws) : LineBreak b → (∀ x ∈ ws, isWhite x = true) → Lexed conv P E (b ++ ws) []
  | lastComment (body) : (∀ c ∈ body, isLineEnd c = false) → Lexed conv P E ('/' :: '/' :: body) []

/-- the text is complete -/
def Complete (t : Text) (ts : List Token) : Prop := t = [] ∧ ts = []

/-- number literals without the digits of the exponent are accepted, except at the end (C37) -/
def LaxNumbers (t : Text) (l : NumLit) : Prop := l.Lax ∧ (t = [] → l.Valid)

/-- the same, with the sizes at which the machine integers of the tokenizer do not overflow -/
def Numbers (t : Text) (l : NumLit) : Prop :=
  LaxNumbers t l ∧ l.text.length < 2 ^ 62 ∧ ∀ e, l.exp = some e → decVal e.digits < 2 ^ 62

/-- the beginning of an escape -/
inductive CutPiece : Text → Prop
  | nil : CutPiece []
  | esc : CutPiece ['\\']
  | uni (ds : Text) : ds.length < 4 → (∀ c ∈ ds, (hexVal c).isSome) → CutPiece ('\\' :: 'u' :: ds)

/-- the text ends in the middle of a token or of a comment; the token for it -/
inductive Cut : Text → List Token → Prop
  | comment (body) : NoClose body → Cut ('/' :: '*' :: body) [.error .commentClosingExpected]
  | slash : Cut ['/'] [.error .unexpectedCharacter]
  | str (ps : List Piece) (q : Text) : (∀ p ∈ ps, p.Valid) → (∀ p ∈ ps, ¬ p.Surrogate) → CutPiece q →
    Cut ('"' :: (ps.flatMap Piece.text ++ q)) [.error .missingQuotes]
  | minus : Cut ['-'] [.error .invalidNumber]
  | exponent (l : NumLit) (e) : l.Lax → l.exp = some e → e.digits = [] → l.text.length < 2 ^ 62 →
    Cut l.text [.error .invalidNumber]
  | point (neg ds) : IntPart ds → Cut (signText neg ++ (ds ++ ['.'])) [.error .invalidNumber]

def NoErrors (ts : List Token) : Prop := ∀ e, Token.error e ∉ ts

/-! ## Lemmas: from the tokens to the text -/

theorem op_outcome {c : Char} (hc : isOp c = true) : ∃ tok, (Item.op c).Denotes conv tok ∧
    ∀ r, finish conv (.parseOperator [c]) r = (finish conv .initial r).bind fun q => .ok (tok :: q) := by
  obtain ⟨tok, h1, h2⟩ : ∃ tok, operatorToToken [c] = some tok ∧ (Item.op c).Denotes conv tok := by
    rcases op_cases hc with rfl | rfl | rfl | rfl | rfl | rfl | rfl | rfl | rfl | rfl | rfl <;>
      exact ⟨_, rfl, rfl⟩
  refine ⟨tok, h2, fun r => ?_⟩
  have hf : Flushes conv (.parseOperator [c]) [tok] := ⟨tok, h1, rfl⟩
  refine Between.finish_initial ⟨hf, ?_⟩
  cases r with
  | nil => simp [endTokens, op_unwrap h1, bind, Except.bind, pure, Except.pure]
  | cons d r =>
    have : operatorToToken [c, d] = none := by
      unfold operatorToToken
      split <;> simp_all
    simp [step, this, op_unwrap h1, bind, Except.bind, pure, Except.pure] 

theorem id_outcome (r : Text) : ∀ (s : Text) (ts : List Token), finish conv (.parseId s) r = .ok ts →
    ∃ cs rem rest, r = cs ++ rem ∧ (∀ x ∈ cs, isIdChar x = true) ∧
      (∀ x q, rem = x :: q → isIdChar x = false) ∧ ts = .id (s ++ cs) :: rest ∧
      finish conv .initial rem = .ok rest := by
  induction r with
  | nil =>
    intro s ts h
    rw [finish_nil] at h
    cases h
    exact ⟨[], [], [], rfl, by simp, by simp, by simp, rfl⟩
  | cons c r ih =>
    intro s ts h
    by_cases hc : isIdChar c = true
    · have h1 : step conv (.parseId s) c = .ok ([], .parseId (s ++ [c])) := by simp [step, hc]
      obtain ⟨q, hq, rfl⟩ := finish_cons_ok h1 h
      obtain ⟨cs, rem, rest, rfl, h2, h3, h4, h5⟩ := ih _ _ hq
      refine ⟨c :: cs, rem, rest, rfl, ?_, h3, by simpa using h4, h5⟩
      intro x hx
      rcases List.mem_cons.1 hx with rfl | hx
      · exact hc
      · exact h2 x hx
    · have hc : isIdChar c = false := by simpa using hc
      have hB : Between conv (.parseId s) [.id s] (c :: r) := ⟨rfl, by simp [step, hc]⟩
      rw [hB.finish_initial] at h
      obtain ⟨q, hq, h⟩ := bind_ok h
      cases h
      exact ⟨[], c :: r, q, rfl, by simp, by rintro x q h; cases h; exact hc, by simp, hq⟩

theorem newLine_outcome (r : Text) : ∀ (ts : List Token), finish conv .parseNewLine r = .ok ts →
    ∃ ws rem, r = ws ++ rem ∧ (∀ x ∈ ws, isWhite x = true) ∧
      (rem = [] ∧ ts = [] ∨ ∃ c q rest, rem = c :: q ∧ isWhite c = false ∧ ts = .newLine :: rest ∧
        finish conv .initial rem = .ok rest) := by
  induction r with
  | nil =>
    intro ts h
    rw [finish_nil] at h
    cases h
    exact ⟨[], [], rfl, by simp, .inl ⟨rfl, rfl⟩⟩
  | cons c r ih =>
    intro ts h
    by_cases hc : isWhite c = true
    · have h1 : step conv .parseNewLine c = .ok ([], .parseNewLine) := by simp [step, hc]
      obtain ⟨q, hq, rfl⟩ := finish_cons_ok h1 h
      obtain ⟨ws, rem, rfl, h2, h3⟩ := ih _ hq
      refine ⟨c :: ws, rem, rfl, ?_, h3⟩
      intro x hx
      rcases List.mem_cons.1 hx with rfl | hx
      · exact hc
      · exact h2 x hx
    · have hc : isWhite c = false := by simpa using hc
      rw [finish_newLine hc] at h
      obtain ⟨q, hq, h⟩ := bind_ok h
      cases h
      exact ⟨[], c :: r, rfl, by simp, .inr ⟨c, r, q, rfl, hc, rfl, hq⟩⟩

theorem line_outcome (r : Text) : ∀ (ts : List Token), finish conv .parseSinglelineComment r = .ok ts →
    ((∀ x ∈ r, isLineEnd x = false) ∧ ts = []) ∨ ∃ body e rem, r = body ++ e :: rem ∧
      (∀ x ∈ body, isLineEnd x = false) ∧ isLineEnd e = true ∧
      finish conv .parseNewLine rem = .ok ts := by
  induction r with
  | nil =>
    intro ts h
    rw [finish_nil] at h
    cases h
    exact .inl ⟨by simp, rfl⟩
  | cons c r ih =>
    intro ts h
    by_cases hc : isLineEnd c = true
    · have h1 : step conv .parseSinglelineComment c = .ok ([], .parseNewLine) := by simp [step, hc]
      obtain ⟨q, hq, rfl⟩ := finish_cons_ok h1 h
      exact .inr ⟨[], c, r, rfl, by simp, hc, hq⟩
    · have hc : isLineEnd c = false := by simpa using hc
      have h1 : step conv .parseSinglelineComment c = .ok ([], .parseSinglelineComment) := by
        simp [step, hc]
      obtain ⟨q, hq, rfl⟩ := finish_cons_ok h1 h
      rcases ih _ hq with ⟨h2, h3⟩ | ⟨body, e, rem, rfl, h2, h3, h4⟩
      · refine .inl ⟨?_, h3⟩
        intro x hx
        rcases List.mem_cons.1 hx with rfl | hx
        · exact hc
        · exact h2 x hx
      · refine .inr ⟨c :: body, e, rem, rfl, ?_, h3, h4⟩
        intro x hx
        rcases List.mem_cons.1 hx with rfl | hx
        · exact hc
        · exact h2 x hx

theorem NoClose.cons {c : Char} {cs : Text} (h : NoClose cs) (hc : c = '*' → ∀ q, cs ≠ '/' :: q) :
    NoClose (c :: cs) := by
  intro p q e
  cases p with
  | nil =>
    simp only [List.nil_append, List.cons.injEq] at e
    exact hc e.1 q e.2
  | cons d p =>
    simp only [List.cons_append, List.cons.injEq] at e
    exact h p q e.2

theorem noClose_nil : NoClose [] := by
  intro p q e
  cases p <;> cases e

/-- a block comment is closed, or it ends the text -/
theorem comment_outcome (r : Text) : ∀ ts,
    (finish conv .parseMultilineComment r = .ok ts →
      (NoClose r ∧ ts = [.error .commentClosingExpected]) ∨
      ∃ body rem, r = body ++ '*' :: '/' :: rem ∧ NoClose body ∧ finish conv .initial rem = .ok ts) ∧
    (finish conv .parseMultilineCommentAsterix r = .ok ts →
      (NoClose ('*' :: r) ∧ ts = [.error .commentClosingExpected]) ∨
      ∃ body rem, '*' :: r = body ++ '*' :: '/' :: rem ∧ NoClose body ∧
        finish conv .initial rem = .ok ts) := by
  induction r with
  | nil =>
    intro ts
    refine ⟨fun h => ?_, fun h => ?_⟩
    · rw [finish_nil] at h; cases h; exact .inl ⟨noClose_nil, rfl⟩
    · rw [finish_nil] at h; cases h; exact .inl ⟨noClose_nil.cons (by intro _ q h; cases h), rfl⟩
  | cons c r ih =>
    intro ts
    obtain ⟨i1, i2⟩ := ih ts
    by_cases hs : c = '*'
    · subst hs
      refine ⟨fun h => ?_, fun h => ?_⟩
      · have h1 : step conv .parseMultilineComment '*' = .ok ([], .parseMultilineCommentAsterix) := rfl
        obtain ⟨q, hq, rfl⟩ := finish_cons_ok h1 h
        exact i2 hq
      · have h1 : step conv .parseMultilineCommentAsterix '*' =
          .ok ([], .parseMultilineCommentAsterix) := rfl
        obtain ⟨q, hq, rfl⟩ := finish_cons_ok h1 h
        rcases i2 hq with ⟨h2, h3⟩ | ⟨body, rem, h2, h3, h4⟩
        · exact .inl ⟨h2.cons (by intro _ q h; cases h), h3⟩
        · refine .inr ⟨'*' :: body, rem, by rw [h2]; rfl, h3.cons ?_, h4⟩
          rintro - q rfl
          cases h2
    · refine ⟨fun h => ?_, fun h => ?_⟩
      · have h1 : step conv .parseMultilineComment c = .ok ([], .parseMultilineComment) := by
          simp [step, hs]
        obtain ⟨q, hq, rfl⟩ := finish_cons_ok h1 h
        rcases i1 hq with ⟨h2, h3⟩ | ⟨body, rem, rfl, h3, h4⟩
        · exact .inl ⟨h2.cons fun h => absurd h hs, h3⟩
        · exact .inr ⟨c :: body, rem, rfl, h3.cons fun h => absurd h hs, h4⟩
      · by_cases hl : c = '/'
        · subst hl
          have h1 : step conv .parseMultilineCommentAsterix '/' = .ok ([], .initial) := rfl
          obtain ⟨q, hq, rfl⟩ := finish_cons_ok h1 h
          exact .inr ⟨[], r, rfl, noClose_nil, hq⟩
        · have h1 : step conv .parseMultilineCommentAsterix c = .ok ([], .parseMultilineComment) := by
            simp [step, hs, hl]
          obtain ⟨q, hq, rfl⟩ := finish_cons_ok h1 h
          rcases i1 hq with ⟨h2, h3⟩ | ⟨body, rem, rfl, h3, h4⟩
          · refine .inl ⟨(h2.cons fun h => absurd h hs).cons ?_, h3⟩
            rintro - q h; cases h; exact hl rfl
          · refine .inr ⟨'*' :: c :: body, rem, rfl, (h3.cons fun h => absurd h hs).cons ?_, h4⟩
            rintro - q h; cases h; exact hl rfl

theorem NoErrors.tail {t : Token} {ts : List Token} (h : NoErrors (t :: ts)) : NoErrors ts :=
  fun e he => h e (by simp [he])

theorem NoErrors.not_first {ts : List Token} (h : NoErrors ts) : ¬ ErrorFirst ts := by
  rintro ⟨e, r, rfl⟩
  exact h e (by simp)

theorem lexed_break {P : Text → NumLit → Prop} {E : Text → List Token → Prop} {b r : Text} {ts : List Token}
    (hb : LineBreak b) (h : finish conv .parseNewLine r = .ok ts) (he : NoErrors ts)
    (ih : ∀ t' ts', t'.length ≤ r.length → finish conv .initial t' = .ok ts' → NoErrors ts' →
      Lexed conv P E t' ts') : Lexed conv P E (b ++ r) ts := by
  obtain ⟨ws, rem, rfl, h1, ⟨rfl, rfl⟩ | ⟨c, q, rest, rfl, h2, rfl, h3⟩⟩ := newLine_outcome r ts h
  · rw [List.append_nil]; exact .lastBreak b ws hb h1
  · exact .newLine b ws c q rest hb h1 h2 (ih _ _ (by simp) h3 he.tail)

theorem lexed_of_finish (n : Nat) : ∀ (t : Text) (ts : List Token), t.length ≤ n →
    finish conv .initial t = .ok ts → NoErrors ts → Lexed conv LaxNumbers Complete t ts := by
  induction n with
  | zero =>
    intro t ts hn h he
    have : t = [] := List.length_eq_zero_iff.1 (by omega)
    subst this
    rw [finish_nil] at h; cases h
    exact .finish _ _ ⟨rfl, rfl⟩
  | succ n ih =>
    intro t ts hn h he
    cases t with
    | nil => rw [finish_nil] at h; cases h; exact .finish _ _ ⟨rfl, rfl⟩
    | cons c r =>
      simp only [List.length_cons] at hn
      by_cases hop : isOp c = true
      · have h1 : step conv .initial c = .ok ([], .parseOperator [c]) := by
          simp [step, stepInitial, hop]
        obtain ⟨q, hq, rfl⟩ := finish_cons_ok h1 h
        obtain ⟨tok, h2, h3⟩ := op_outcome (conv := conv) hop
        rw [h3] at hq
        obtain ⟨q', hq', hq⟩ := bind_ok hq
        cases hq
        exact .op c tok r q' h2 (ih _ _ (by omega) hq' he.tail)
      by_cases hnum : isDigit c = true ∨ c = '-'
      · rcases C37_grammar_partial (c :: r) ts ⟨c, r, rfl, hnum⟩ (by rw [tokenize_eq, h]) with
          ⟨q, rfl⟩ | ⟨p, rem, tok, rest, h1, h2, h3, rfl, h5⟩
        · exact absurd (List.mem_cons_self ..) (he .invalidNumber)
        rw [tokenize_eq] at h5
        have hlen : ∀ x, p = x → x ≠ [] → rem.length ≤ n := by
          rintro x rfl hx
          have : (c :: r).length = p.length + rem.length := by rw [h1, List.length_append]
          have : 0 < p.length := List.length_pos_iff.2 hx
          simp only [List.length_cons] at *
          omega
        rw [h1]
        rcases h3 with ⟨l, v, hl, rfl, rfl, hv⟩ | ⟨neg, ds, b, hd, rfl, rfl, hb, hv⟩
        · refine .num l v rem rest hl hv h2 (ih _ _ (hlen _ rfl ?_) h5 he.tail)
          have := intPart_digits hl.1.int
          simp [NumLit.text, this.2]
        · refine .big neg ds b rem rest hd hb ?_ h2 (ih _ _ (hlen _ rfl ?_) h5 he.tail)
          · rw [hv]; cases neg <;> rfl
          · simp [bigText]
      by_cases hq : c = '"'
      · subst hq
        have h1 : step conv .initial '"' = .ok ([], .parseString []) := rfl
        obtain ⟨q, hq, rfl⟩ := finish_cons_ok h1 h
        rcases string_outcome _ _ r _ (Nat.le_refl _) hq with h | ⟨ps, rem, rest, rfl, h2, h3, h4, h5⟩
        · exact absurd h he.not_first
        rw [List.nil_append] at h4
        subst h4
        have e : '"' :: (ps.flatMap Piece.text ++ '"' :: rem) = literal ps ++ rem := by simp [literal]
        rw [e]
        exact .str ps _ rem rest h2 h3 (by rw [content_eq h2 h3])
          (ih _ _ (by simp only [List.length_append, List.length_cons] at hn; omega) h5 he.tail)
      have hd : isDigit c = false := by simpa using fun h => hnum (.inl h)
      have hm : c ≠ '-' := fun h => hnum (.inr h)
      have h0 : c ≠ '0' := by rintro rfl; exact absurd hd (by decide)
      have h19 : isDigit19 c = false := by
        by_contra hx
        rw [digit19_digit (by simpa using hx)] at hd
        cases hd
      by_cases hid : isIdStart c = true
      · obtain ⟨q, hq, rfl⟩ := finish_cons_ok (step_idStart hid) h
        obtain ⟨cs, rem, rest, rfl, h1, h2, h3, h4⟩ := id_outcome r _ _ hq
        subst h3
        exact .id c cs rem rest hid h1 h2 (ih _ _ (by simp at hn; omega) h4 he.tail)
      by_cases hnl : c = '\n'
      · subst hnl
        have h1 : step conv .initial '\n' = .ok ([], .parseNewLine) := rfl
        obtain ⟨q, hq, rfl⟩ := finish_cons_ok h1 h
        exact lexed_break .feed hq he fun t' ts' hl => ih t' ts' (by omega)
      by_cases hbl : isBlank c = true
      · have h1 : step conv .initial c = .ok ([], .initial) := by
          simp only [step, stepInitial_blank hbl]
        obtain ⟨q, hq, rfl⟩ := finish_cons_ok h1 h
        exact .blank c r _ hbl (ih _ _ (by omega) hq he)
      by_cases hsl : c = '/'
      · subst hsl
        have h1 : step conv .initial '/' = .ok ([], .parseCommentStart) := rfl
        obtain ⟨q, hq, rfl⟩ := finish_cons_ok h1 h
        cases r with
        | nil => rw [finish_nil] at hq; cases hq; exact absurd ⟨_, _, rfl⟩ he.not_first
        | cons d r =>
          simp only [List.length_cons] at hn
          by_cases hds : d = '/'
          · subst hds
            have h1 : step conv .parseCommentStart '/' = .ok ([], .parseSinglelineComment) := rfl
            obtain ⟨q, hq, rfl⟩ := finish_cons_ok h1 hq
            rcases line_outcome r _ hq with ⟨h2, rfl⟩ | ⟨body, e, rem, rfl, h2, h3, h4⟩
            · exact .lastComment r h2
            · have := lexed_break (P := LaxNumbers) (E := Complete) (.comment body e h2 h3) h4 he
                fun t' ts' hl => ih t' ts' (by simp at hn; omega)
              simpa [lineComment] using this
          by_cases hst : d = '*'
          · subst hst
            have h1 : step conv .parseCommentStart '*' = .ok ([], .parseMultilineComment) := rfl
            obtain ⟨q, hq, rfl⟩ := finish_cons_ok h1 hq
            rcases (comment_outcome r _).1 hq with ⟨-, rfl⟩ | ⟨body, rem, rfl, h2, h3⟩
            · exact absurd ⟨_, _, rfl⟩ he.not_first
            · have := Lexed.comment (conv := conv) (P := LaxNumbers) (E := Complete) body rem _ h2
                (ih _ _ (by simp at hn; omega) h3 he)
              simpa [blockComment] using this
          · have h1 : step conv .parseCommentStart d = .ok ([.error .unexpectedCharacter], .initial) := by
              simp [step, hds, hst]
            obtain ⟨q, hq, rfl⟩ := finish_cons_ok h1 hq
            exact absurd ⟨_, _, rfl⟩ he.not_first
      · have h1 : step conv .initial c = .ok ([.error .unexpectedCharacter], .initial) := by
          simp [step, stepInitial, hop, h19, hq, h0, hm, hid, hnl, hbl, hsl]
        obtain ⟨q, hq, rfl⟩ := finish_cons_ok h1 h
        exact absurd ⟨_, _, rfl⟩ he.not_first

/-! ## Lemmas: from the text to the tokens -/

theorem run_break {b : Text} (hb : LineBreak b) : run conv .initial b = .ok ([], .parseNewLine) := by
  cases hb with
  | feed => rfl
  | comment body e h1 h2 => exact run_line_comment (st := .initial) (fl := []) rfl body e h1 h2

/-- a literal without the digits of the exponent -/
theorem run_no_exponent {l : NumLit} {e : ExpPart} (hl : l.Lax) (he : l.exp = some e) (hd : e.digits = [])
    (hlen : l.text.length < 2 ^ 62) : ∃ b, Is b l.mant ∧ ∃ st, run conv .initial l.text = .ok ([], st) ∧
      ((e.sign = none ∧
        st = .parseExpBegin ⟨b, sg l.neg, -((l.frac.getD []).length : Int), .pos, 0⟩) ∨
       st = .parseExpSign ⟨b, sg l.neg, -((l.frac.getD []).length : Int), sg (e.sign = some '-'), 0⟩) := by
  obtain ⟨b, st, hb, hrun, hst⟩ := run_mant (conv := conv) l hl hlen
  have hex := hl.exp e he
  have htext : l.text = (signText l.neg ++ (l.int ++ fracText l.frac)) ++ expText l.exp := by
    simp [text]
  have hm : ∃ b0, Is b0 l.mant ∧ step conv st e.marker =
      .ok ([], .parseExpBegin ⟨b0, sg l.neg, -((l.frac.getD []).length : Int), .pos, 0⟩) := by
    obtain ⟨g1, g2, g3⟩ := exp_facts hex.marker
    rcases hst with ⟨h1, h2, rfl⟩ | ⟨h1, h2, rfl⟩ | ⟨h2, rfl⟩
    · have hz : l.mant = 0 := by simp [mant, h1, h2, decVal]
      refine ⟨JsBig.fromU64 (sg l.neg) 0, by rw [hz]; exact is_zero _, ?_⟩
      simp [step, g2, hex.marker, h2]
    · exact ⟨b, hb, by simp [step, g1, g2, hex.marker, h2, IntState.intoExp]⟩
    · exact ⟨b, hb, by simp [step, g1, hex.marker, FloatState.intoExp]⟩
  obtain ⟨b0, hb0, hm⟩ := hm
  have h1 := run_trans hrun (show run conv st [e.marker] = .ok ([], _) by rw [run_one, hm])
  refine ⟨b0, hb0, ?_⟩
  cases hs : e.sign with
  | none =>
    refine ⟨_, ?_, .inl ⟨rfl, rfl⟩⟩
    rw [htext, he]
    simpa [expText, ExpPart.text, hs, hd] using h1
  | some c =>
    refine ⟨.parseExpSign ⟨b0, sg l.neg, -((l.frac.getD []).length : Int), sg (c = '-'), 0⟩, ?_,
      .inr (by simp)⟩
    have h2 : step conv (.parseExpBegin ⟨b0, sg l.neg, -((l.frac.getD []).length : Int), .pos, 0⟩) c =
        .ok ([], .parseExpSign ⟨b0, sg l.neg, -((l.frac.getD []).length : Int), sg (c = '-'), 0⟩) := by
      rcases hex.sign c hs with rfl | rfl <;> simp [step, isDigit, sg]
    have h3 := run_trans h1 (show run conv _ [c] = .ok ([], _) by rw [run_one, h2])
    rw [htext, he]
    simpa [expText, ExpPart.text, hs, hd] using h3

theorem lax_complete {l : NumLit} {v : Nat} {t : Text} (hl : Numbers t l) (ht : NumEnd t)
    (hv : LitValue conv l v) :
    tokenize conv (l.text ++ t) = (tokenize conv t).bind fun q => .ok (.number v :: q) := by
  by_cases hV : l.Valid
  · exact C37_complete l v t hV ht hl.2.1 hl.2.2 hv
  obtain ⟨⟨hlax, hne⟩, hlen, -⟩ := hl
  have hx : ∃ e, l.exp = some e ∧ e.digits = [] := by
    by_contra h
    exact hV ⟨hlax, fun e he hd => h ⟨e, he, hd⟩⟩
  obtain ⟨e, he, hd⟩ := hx
  cases t with
  | nil => exact absurd (hne rfl) hV
  | cons c t =>
    have hc := ht c t rfl
    obtain ⟨b, hb, st, hrun, hst⟩ := run_no_exponent (conv := conv) hlax he hd hlen
    rw [LitValue, if_neg (by simp [he])] at hv
    obtain ⟨b', h3, h4⟩ := hv
    have : b' = b := C03_canonical_unique _ _ h3.1 hb.1 (by rw [h3.2, hb.2])
    subst this
    have hfl : (l.frac.getD []).length < 2 ^ 62 := by
      cases h : l.frac with
      | none => simp
      | some fs => simp [NumLit.text, fracText, h] at hlen ⊢; omega
    have htok := expToken_total (conv := conv) he hfl (by rw [hd]; simp [decVal]) h4
    rw [hd] at htok
    obtain ⟨g0, -, -, -, -, -, g1, g2⟩ := terminal_facts hc
    have hstep : step conv st c = .ok (andInitial [.number v] c) := by
      rcases hst with ⟨h5, rfl⟩ | rfl
      · rw [h5] at htok
        have htok : expToken conv ⟨b', sg l.neg, -((l.frac.getD []).length : Int), .pos, 0⟩ =
          .ok (.number v) := htok
        simp [step, g0, g1, g2, hc, htok, bind, Except.bind, pure, Except.pure]
      · have htok : expToken conv ⟨b', sg l.neg, -((l.frac.getD []).length : Int),
          sg (e.sign = some '-'), 0⟩ = .ok (.number v) := htok
        simp [step, g0, hc, htok, bind, Except.bind, pure, Except.pure]
    rw [tokenize_eq, finish_append hrun, finish_andInitial hstep]
    cases tokenize conv (c :: t) <;> rfl

theorem tokenize_lexed {E : Text → List Token → Prop} (hE : ∀ t ts, E t ts → tokenize conv t = .ok ts)
    {t : Text} {ts : List Token} (h : Lexed conv Numbers E t ts) : tokenize conv t = .ok ts := by
  rw [tokenize_eq]
  induction h with
  | finish t ts h => rw [← tokenize_eq]; exact hE t ts h
  | blank c t ts hc _ ih =>
    have h1 : step conv .initial c = .ok ([], .initial) := by simp only [step, stepInitial_blank hc]
    rw [finish_cons h1, ih]; rfl
  | op c tok t ts hd _ ih =>
    have hop : isOp c = true := by
      unfold Item.Denotes at hd
      split at hd <;> simp_all
      all_goals decide
    have h1 : step conv .initial c = .ok ([], .parseOperator [c]) := by simp [step, stepInitial, hop]
    obtain ⟨tok', h2, h3⟩ := op_outcome (conv := conv) hop
    have : tok' = tok := by
      rcases op_cases hop with rfl | rfl | rfl | rfl | rfl | rfl | rfl | rfl | rfl | rfl | rfl <;>
        exact h2.trans hd.symm
    subst this
    rw [finish_cons h1, h3, ih]; rfl
  | id c cs t ts hc hcs ht _ ih =>
    have h1 : run conv .initial (c :: cs) = .ok ([], .parseId (c :: cs)) := by
      rw [run_cons_ok (step_idStart hc), run_id_chars cs hcs]; rfl
    rw [finish_append h1, Between.finish_initial (fl := [.id (c :: cs)]), ih]
    · rfl
    · refine ⟨rfl, ?_⟩
      cases t with
      | nil => rfl
      | cons d t => simp [step, ht d t rfl]
  | str ps s t ts hv hs hc _ ih =>
    rw [finish_append (C33_literal_partial ps s hv hs hc).2, ih]; rfl
  | num l v t ts hl hv ht _ ih =>
    rw [← tokenize_eq, lax_complete hl ht hv, tokenize_eq, ih]; rfl
  | big neg ds b t ts hd hb hv ht _ ih =>
    obtain ⟨b', h1, h2, h3⟩ := C37_complete_bigint (conv := conv) neg ds t hd ht
    have : b' = b := C03_canonical_unique _ _ h1 hb (by rw [h2, hv])
    subst this
    rw [← tokenize_eq, h3, tokenize_eq, ih]; rfl
  | comment body t ts hb _ ih =>
    rw [finish_append (run_block (st := .initial) (fl := []) rfl body hb), ih]; rfl
  | newLine b ws c t ts hb hw hc _ ih =>
    rw [finish_append (run_break hb), finish_append (run_white_newLine ws hw), finish_newLine hc, ih]
    rfl
  | lastBreak b ws hb hw =>
    have := run_white_newLine (conv := conv) ws hw
    rw [finish_append (run_break hb), finish, this]
    rfl
  | lastComment body hb =>
    have := C35_line_comment_at_end (conv := conv) [] body [] [] .initial rfl rfl hb
    rw [← tokenize_eq]; exact this

/-! ## C66 -/

/-- If no token is an error, the text is a sequence of tokens, white space and comments as the grammar
says, with just these tokens. -/
theorem C66_sound (t : Text) (ts : List Token) (h : tokenize conv t = .ok ts) (he : NoErrors ts) :
    Lexed conv LaxNumbers Complete t ts :=
  lexed_of_finish _ t ts (Nat.le_refl _) (by rw [← tokenize_eq, h]) he

/-- Every such text is tokenized into its tokens. -/
theorem C66_complete (t : Text) (ts : List Token) (h : Lexed conv Numbers Complete t ts) :
    tokenize conv t = .ok ts :=
  tokenize_lexed (by rintro t ts ⟨rfl, rfl⟩; rfl) h

/-- The tokens of a text are unique. -/
theorem C66_unique (t : Text) (ts ts' : List Token) (h : Lexed conv Numbers Complete t ts)
    (h' : Lexed conv Numbers Complete t ts') : ts = ts' := by
  have h1 := C66_complete t ts h
  rw [C66_complete t ts' h'] at h1
  exact (Except.ok.inj h1).symm

/-- A text of the grammar has no error token. -/
theorem C66_no_errors (t : Text) (ts : List Token) (h : Lexed conv Numbers Complete t ts) :
    NoErrors ts := by
  intro e he
  induction h with
  | finish t ts h => rw [h.2] at he; cases he
  | blank c t ts hc _ ih => exact ih he
  | op c tok t ts hd _ ih =>
    rcases List.mem_cons.1 he with rfl | he
    · unfold Item.Denotes at hd
      split at hd
      all_goals rename_i hx
      all_goals first | (cases hx; done) | (cases hx; cases hd)
    · exact ih he
  | id c cs t ts hc hcs ht _ ih => rcases List.mem_cons.1 he with h | he; cases h; exact ih he
  | str ps s t ts hv hs hc _ ih => rcases List.mem_cons.1 he with h | he; cases h; exact ih he
  | num l v t ts hl hv ht _ ih => rcases List.mem_cons.1 he with h | he; cases h; exact ih he
  | big neg ds b t ts hd hb hv ht _ ih => rcases List.mem_cons.1 he with h | he; cases h; exact ih he
  | comment body t ts hb _ ih => exact ih he
  | newLine b ws c t ts hb hw hc _ ih => rcases List.mem_cons.1 he with h | he; cases h; exact ih he
  | lastBreak b ws hb hw => cases he
  | lastComment body hb => cases he

/-- `// x`, a line break, `a.b`, a comment, `"q"`, `12n`: the text is of the grammar -/
example : Lexed conv Numbers Complete "// x\n a.b/***/\"q\"12n\r".toList
    [.newLine, .id ['a'], .dot, .id ['b'], .string ['q'], .bigInt (JsBig.fromU64 .pos 12)] := by
  refine .newLine (lineComment " x".toList '\n') [' '] 'a' ".b/***/\"q\"12n\r".toList _
    (.comment _ _ (by decide) (by decide)) (by decide) (by decide) ?_
  refine .id 'a' [] ".b/***/\"q\"12n\r".toList _ (by decide) (by decide)
    (by intro x r h; cases h; decide) ?_
  refine .op '.' .dot _ _ rfl ?_
  refine .id 'b' [] "/***/\"q\"12n\r".toList _ (by decide) (by decide)
    (by intro x r h; cases h; decide) ?_
  refine .comment ['*'] "\"q\"12n\r".toList _ (noClose_nil.cons (by intro _ q h; cases h)) ?_
  refine .str [.raw 'q'] ['q'] "12n\r".toList _ (by decide) (by decide) (by decide) ?_
  refine .big false ['1', '2'] _ ['\r'] _ (Or.inr ⟨'1', ['2'], rfl, by decide, by decide⟩) (by decide)
    (by decide) (by intro c r h; cases h; decide) ?_
  exact .blank _ _ _ (by decide) (.finish _ _ ⟨rfl, rfl⟩)

/-! ## C67 -/

theorem tokenize_cut {t : Text} {ts : List Token} (h : Cut t ts) : tokenize conv t = .ok ts := by
  rw [tokenize_eq]
  cases h with
  | comment body hb =>
    have h1 : step conv .initial '/' = .ok ([], .parseCommentStart) := rfl
    have h2 : step conv .parseCommentStart '*' = .ok ([], .parseMultilineComment) := rfl
    rw [finish_cons h1, finish_cons h2]
    have key : ∀ body : Text, NoClose body →
        finish conv .parseMultilineComment body = .ok [.error .commentClosingExpected] ∧
        ((∀ q, body ≠ '/' :: q) →
          finish conv .parseMultilineCommentAsterix body = .ok [.error .commentClosingExpected]) := by
      intro body
      induction body with
      | nil => intro _; exact ⟨rfl, fun _ => rfl⟩
      | cons c cs ih =>
        intro hb
        obtain ⟨i1, i2⟩ := ih hb.tail
        have hstar : c = '*' → ∀ q, cs ≠ '/' :: q := by
          rintro rfl q rfl; exact hb [] q rfl
        by_cases hc : c = '*'
        · subst hc
          have i2 := i2 (hstar rfl)
          constructor
          · have s1 : step conv .parseMultilineComment '*' = .ok ([], .parseMultilineCommentAsterix) :=
              rfl
            rw [finish_cons s1, i2]; rfl
          · intro _
            have s1 : step conv .parseMultilineCommentAsterix '*' =
              .ok ([], .parseMultilineCommentAsterix) := rfl
            rw [finish_cons s1, i2]; rfl
        · constructor
          · have s1 : step conv .parseMultilineComment c = .ok ([], .parseMultilineComment) := by
              simp [step, hc]
            rw [finish_cons s1, i1]; rfl
          · intro hs
            have hc2 : c ≠ '/' := by rintro rfl; exact hs cs rfl
            have s1 : step conv .parseMultilineCommentAsterix c = .ok ([], .parseMultilineComment) := by
              simp [step, hc, hc2]
            rw [finish_cons s1, i1]; rfl
    rw [(key body hb).1]; rfl
  | slash => rfl
  | minus => rfl
  | exponent l e hl he hd hlen =>
    obtain ⟨b, hb, st, hrun, hst⟩ := run_no_exponent (conv := conv) hl he hd hlen
    rw [finish, hrun]
    rcases hst with ⟨-, rfl⟩ | rfl <;> rfl
  | point neg ds hd =>
    rcases run_intPart (conv := conv) neg hd with ⟨-, h⟩ | ⟨-, b, -, h⟩
    · have h1 := run_trans h (show run conv (.parseZero (sg neg)) ['.'] = .ok ([], _) from rfl)
      rw [List.append_assoc] at h1
      rw [finish, h1]; rfl
    · have h1 := run_trans h (show run conv (.parseInt ⟨b, sg neg⟩) ['.'] = .ok ([], _) from rfl)
      rw [List.append_assoc] at h1
      rw [finish, h1]; rfl
  | str ps q hv hs hq =>
    have h1 : step conv .initial '"' = .ok ([], .parseString []) := rfl
    rw [finish_cons h1, finish_append (run_pieces hv hs)]
    generalize ([] : Text) ++ ps.map Piece.char = s
    have key : finish conv (.parseString s) q = .ok [.error .missingQuotes] := by
      cases hq with
      | nil => rfl
      | esc => rfl
      | uni ds hl hd =>
        have s1 : step conv (.parseString s) '\\' = .ok ([], .parseEscapeChar s) := rfl
        have s2 : step conv (.parseEscapeChar s) 'u' = .ok ([], .parseUnicodeChar ⟨s, 0, 0⟩) := rfl
        rw [finish_cons s1, finish_cons s2]
        have : ∀ (ds : Text) (u k : Nat), ds.length + k < 4 → (∀ c ∈ ds, (hexVal c).isSome) →
            u % 16 ^ (4 - k) = 0 →
            finish conv (.parseUnicodeChar ⟨s, u, k⟩) ds = .ok [.error .missingQuotes] := by
          intro ds
          induction ds with
          | nil => intro u k _ _ _; rfl
          | cons c ds ih =>
            intro u k hk hd hu
            simp only [List.length_cons] at hk
            obtain ⟨v, hv⟩ := Option.isSome_iff_exists.1 (hd c (by simp))
            have hstep := step_unicode (conv := conv) (s := s) hv (by omega) hu
            rw [finish_cons hstep, ih _ _ (by omega) (fun x hx => hd x (by simp [hx]))]
            · rfl
            · have e : 4 - k = (4 - (k + 1)) + 1 := by omega
              have e2 : 3 - k = 4 - (k + 1) := by omega
              rw [e, pow_succ] at hu
              rw [e2, Nat.add_mul_mod_self_right]
              exact Nat.mod_eq_zero_of_dvd (Dvd.dvd.trans (Dvd.intro _ rfl) (Nat.dvd_of_mod_eq_zero hu))
        rw [this ds 0 0 (by omega) hd (by simp)]; rfl
    rw [key]; rfl

/-- A text of the grammar that is cut off in a comment, a string or a number has the tokens before it
and one error, which says what is missing. -/
theorem C67_cut (t : Text) (ts : List Token) (h : Lexed conv Numbers Cut t ts) :
    tokenize conv t = .ok ts :=
  tokenize_lexed (fun _ _ => tokenize_cut) h

example : Lexed conv Numbers Cut "a/* *".toList [.id ['a'], .error .commentClosingExpected] := by
  refine .id 'a' [] "/* *".toList _ (by decide) (by decide) (by intro x r h; cases h; decide) ?_
  refine .finish _ _ (.comment [' ', '*'] ?_)
  exact (noClose_nil.cons (by intro _ q h; cases h)).cons (by intro _ q h; cases h)

example : Lexed conv Numbers Cut "[\"\\u00".toList [.arrayBegin, .error .missingQuotes] :=
  .op '[' _ _ _ rfl (.finish _ _ (.str [] ['\\', 'u', '0', '0'] (by simp) (by simp)
    (.uni ['0', '0'] (by decide) (by decide))))

end Nanvm
