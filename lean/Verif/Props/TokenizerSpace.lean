import Verif.Props.TokenizerRun
/-!
# Property theorems C35: white space and comments
-/
namespace Nanvm
open Tok

variable {conv : BigFloat → Res Nat}

/-! ## Specification -/

/-- `st` holds the complete tokens `fl` that the next character ends: nothing, or one
identifier, number, operator, newline, or an incomplete number that becomes an error -/
def Flushes (conv : BigFloat → Res Nat) (st : State) (fl : List Token) : Prop :=
  match st with
  | .initial => fl = []
  | .parseId s => fl = [.id s]
  | .parseZero _ => fl = [.number 0]
  | .parseInt i => ∃ t, intToken conv i = .ok t ∧ fl = [t]
  | .parseFrac f => ∃ t, floatToken conv f = .ok t ∧ fl = [t]
  | .parseExpBegin x | .parseExpSign x | .parseExp x => ∃ t, expToken conv x = .ok t ∧ fl = [t]
  | .parseMinus | .parseFracBegin _ => fl = [.error .invalidNumber]
  | .parseBigInt b => fl = [.bigInt b]
  | .parseNewLine => fl = [.newLine]
  | .parseOperator s => ∃ t, operatorToToken s = some t ∧ fl = [t]
  | _ => False

/-- The point between the text read so far (which led to the state `st`) and the following text
`b` lies between two tokens: the token `fl` in `st` is complete and `b` begins a new one (its
first character acts as at the start of a text). -/
def Between (conv : BigFloat → Res Nat) (st : State) (fl : List Token) (b : Text) : Prop :=
  Flushes conv st fl ∧
  match b with
  | [] => endTokens conv st = .ok fl
  | c :: _ => step conv st c = .ok (andInitial fl c)

/-! ## Lemmas -/

theorem blank_cases {c : Char} (h : isBlank c = true) : c = ' ' ∨ c = '\t' ∨ c = '\r' := by
  simpa [isBlank, or_assoc] using h

theorem op_unwrap {s : Text} {t : Token} (h : operatorToToken s = some t) :
    operatorUnwrap s = .ok t := by simp [operatorUnwrap, h]

/-- what the characters `' ' \t \r \n /` do after a complete token -/
theorem flush_step {st : State} {fl : List Token} (h : Flushes conv st fl) (c : Char)
    (hc : c = ' ' ∨ c = '\t' ∨ c = '\r' ∨ c = '\n' ∨ c = '/')
    (hn : st = .parseNewLine → c = '/') : step conv st c = .ok (fl, (stepInitial c).2) := by
  have e0 : (stepInitial c).1 = [] := by rcases hc with rfl | rfl | rfl | rfl | rfl <;> rfl
  have eI : ∀ ts, andInitial ts c = (ts, (stepInitial c).2) := by
    intro ts; unfold andInitial; rw [e0, List.append_nil]
  have d1 : isDigit c = false := by rcases hc with rfl | rfl | rfl | rfl | rfl <;> rfl
  have d2 : isDigit19 c = false := by rcases hc with rfl | rfl | rfl | rfl | rfl <;> rfl
  have d3 : isExp c = false := by rcases hc with rfl | rfl | rfl | rfl | rfl <;> rfl
  have d4 : isTerminal c = true := by rcases hc with rfl | rfl | rfl | rfl | rfl <;> rfl
  have d5 : isOp c = false := by rcases hc with rfl | rfl | rfl | rfl | rfl <;> rfl
  have d6 : isIdChar c = false := by rcases hc with rfl | rfl | rfl | rfl | rfl <;> rfl
  have d7 : c ≠ '.' ∧ c ≠ 'n' ∧ c ≠ '+' ∧ c ≠ '-' ∧ c ≠ '0' := by
    rcases hc with rfl | rfl | rfl | rfl | rfl <;> decide
  obtain ⟨f1, f2, f3, f4, f5⟩ := d7
  cases st <;> dsimp only [Flushes] at h
  case parseNewLine =>
    obtain rfl := hn rfl
    subst h; rfl
  case initial => subst h; simp only [step]; rw [← e0]
  case parseOperator s =>
    obtain ⟨t, ht, rfl⟩ := h
    simp [step, d5, op_unwrap ht, bind, Except.bind, pure, Except.pure, eI]
  case parseInt i =>
    obtain ⟨t, ht, rfl⟩ := h
    simp [step, d1, d3, d4, f1, f2, ht, bind, Except.bind, pure, Except.pure, eI]
  case parseFrac i =>
    obtain ⟨t, ht, rfl⟩ := h
    simp [step, d1, d3, d4, ht, bind, Except.bind, pure, Except.pure, eI]
  case parseExpBegin i =>
    obtain ⟨t, ht, rfl⟩ := h
    simp [step, d1, d4, f3, f4, ht, bind, Except.bind, pure, Except.pure, eI]
  case parseExpSign i =>
    obtain ⟨t, ht, rfl⟩ := h
    simp [step, d1, d4, ht, bind, Except.bind, pure, Except.pure, eI]
  case parseExp i =>
    obtain ⟨t, ht, rfl⟩ := h
    simp [step, d1, d4, ht, bind, Except.bind, pure, Except.pure, eI]
  all_goals first
    | exact h.elim
    | (subst h; simp [step, badNumber, d1, d2, d3, d4, d6, f1, f2, f5, eI])

theorem run_blanks_initial (ws : Text) (h : ∀ c ∈ ws, isBlank c = true) :
    run conv .initial ws = .ok ([], .initial) := by
  induction ws with
  | nil => rfl
  | cons c cs ih =>
    have hc : step conv .initial c = .ok ([], .initial) := by
      rcases blank_cases (h c (by simp)) with rfl | rfl | rfl <;> rfl
    rw [run_cons_ok hc, ih (fun x hx => h x (by simp [hx]))]
    rfl

theorem run_white_newLine (ws : Text) (h : ∀ c ∈ ws, isWhite c = true) :
    run conv .parseNewLine ws = .ok ([], .parseNewLine) := by
  induction ws with
  | nil => rfl
  | cons c cs ih =>
    have hc : step conv .parseNewLine c = .ok ([], .parseNewLine) := by
      simp [step, h c (by simp)]
    rw [run_cons_ok hc, ih (fun x hx => h x (by simp [hx]))]
    rfl

theorem Between.finish_initial {st : State} {fl : List Token} {b : Text}
    (h : Between conv st fl b) :
    finish conv st b = (finish conv .initial b).bind fun q => .ok (fl ++ q) := by
  obtain ⟨_, h⟩ := h
  cases b with
  | nil =>
    dsimp only at h
    rw [finish_nil, finish_nil, h]
    simp [endTokens, Except.bind]
  | cons c b =>
    dsimp only at h
    have h0 : step conv .initial c = .ok ((stepInitial c).1, (stepInitial c).2) := rfl
    rw [finish_cons h, finish_cons h0]
    cases finish conv (stepInitial c).2 b <;> simp [Except.bind]

theorem finish_eq_of_run {st st' : State} {a : Text} {ts : List Token}
    (h : run conv st a = .ok (ts, st')) {b b' : Text}
    (hb : finish conv st' b = finish conv st' b') :
    finish conv st (a ++ b) = finish conv st (a ++ b') := by
  rw [finish_append h, finish_append h, hb]

/-! ## C35 -/

/-- Blanks and tabs between two tokens (or before the end) change nothing. -/
theorem C35_blanks (a b ws : Text) (ts fl : List Token) (st : State)
    (ha : run conv .initial a = .ok (ts, st)) (hb : Between conv st fl b)
    (hw : ∀ c ∈ ws, isBlank c = true) :
    tokenize conv (a ++ (ws ++ b)) = tokenize conv (a ++ b) := by
  rw [tokenize_eq, tokenize_eq]
  refine finish_eq_of_run ha ?_
  by_cases hn : st = .parseNewLine
  · subst hn
    rw [finish_append (run_white_newLine ws (fun c hc => by simp [isWhite, hw c hc]))]
    cases finish conv .parseNewLine b <;> simp [Except.bind]
  cases ws with
  | nil => rfl
  | cons c ws =>
    have hs := flush_step hb.1 c (by
      rcases blank_cases (hw c (by simp)) with rfl | rfl | rfl <;> simp) (fun h => absurd h hn)
    have e : (stepInitial c).2 = .initial := by
      rcases blank_cases (hw c (by simp)) with rfl | rfl | rfl <;> rfl
    rw [e] at hs
    rw [List.cons_append, finish_cons hs,
      finish_append (run_blanks_initial ws (fun x hx => hw x (by simp [hx]))), hb.finish_initial]
    cases finish conv .initial b <;> simp [Except.bind]

/-- `body` contains no `*/` -/
def NoClose (body : Text) : Prop := ∀ p q, body ≠ p ++ '*' :: '/' :: q

theorem NoClose.tail {c : Char} {cs : Text} (h : NoClose (c :: cs)) : NoClose cs := by
  intro p q e
  exact h (c :: p) q (by simp [e])

/-- the inside of a block comment and its end -/
theorem run_comment (body : Text) (h : NoClose body) :
    run conv .parseMultilineComment (body ++ ['*', '/']) = .ok ([], .initial) ∧
    ((∀ q, body ≠ '/' :: q) →
      run conv .parseMultilineCommentAsterix (body ++ ['*', '/']) = .ok ([], .initial)) := by
  induction body with
  | nil => exact ⟨rfl, fun _ => rfl⟩
  | cons c cs ih =>
    obtain ⟨i1, i2⟩ := ih h.tail
    have hstar : c = '*' → ∀ q, cs ≠ '/' :: q := by
      rintro rfl q rfl; exact h [] q rfl
    by_cases hc : c = '*'
    · subst hc
      have i2 := i2 (hstar rfl)
      constructor
      · have s1 : step conv .parseMultilineComment '*' = .ok ([], .parseMultilineCommentAsterix) :=
          rfl
        rw [List.cons_append, run_cons_ok s1, i2]; rfl
      · intro _
        have s1 : step conv .parseMultilineCommentAsterix '*' =
          .ok ([], .parseMultilineCommentAsterix) := rfl
        rw [List.cons_append, run_cons_ok s1, i2]; rfl
    · constructor
      · have s1 : step conv .parseMultilineComment c = .ok ([], .parseMultilineComment) := by
          simp [step, hc]
        rw [List.cons_append, run_cons_ok s1, i1]; rfl
      · intro hs
        have hc2 : c ≠ '/' := by rintro rfl; exact hs cs rfl
        have s1 : step conv .parseMultilineCommentAsterix c = .ok ([], .parseMultilineComment) := by
          simp [step, hc, hc2]
        rw [List.cons_append, run_cons_ok s1, i1]; rfl

/-- a block comment with the given body -/
def blockComment (body : Text) : Text := '/' :: '*' :: (body ++ ['*', '/'])

theorem run_block {st : State} {fl : List Token} (hf : Flushes conv st fl) (body : Text)
    (h : NoClose body) : run conv st (blockComment body) = .ok (fl, .initial) := by
  have s1 := flush_step hf '/' (by simp) (fun _ => rfl)
  have s2 : step conv .parseCommentStart '*' = .ok ([], .parseMultilineComment) := rfl
  have e : (stepInitial '/').2 = .parseCommentStart := rfl
  rw [e] at s1
  rw [blockComment, run_cons_ok s1, run_cons_ok s2, (run_comment body h).1]
  simp [Except.bind]

/-- A block comment between two tokens changes nothing. -/
theorem C35_block_comment (a b body : Text) (ts fl : List Token) (st : State)
    (ha : run conv .initial a = .ok (ts, st)) (hb : Between conv st fl b) (hc : NoClose body) :
    tokenize conv (a ++ (blockComment body ++ b)) = tokenize conv (a ++ b) := by
  rw [tokenize_eq, tokenize_eq]
  refine finish_eq_of_run ha ?_
  rw [finish_append (run_block hb.1 body hc), hb.finish_initial]

/-- The same after a newline, with blanks before the next token. -/
theorem C35_block_comment_after_newline (a b ws body : Text) (c : Char) (ts : List Token)
    (ha : run conv .initial a = .ok (ts, .parseNewLine)) (hw : ∀ c ∈ ws, isBlank c = true)
    (hc : isWhite c = false) (hbody : NoClose body) :
    tokenize conv (a ++ (blockComment body ++ (ws ++ c :: b))) =
      tokenize conv (a ++ (ws ++ c :: b)) := by
  rw [tokenize_eq, tokenize_eq]
  refine finish_eq_of_run ha ?_
  have hf : Flushes conv .parseNewLine [.newLine] := rfl
  have hB : Between conv .parseNewLine [.newLine] (c :: b) := by
    refine ⟨rfl, ?_⟩
    simp [step, hc]
  rw [finish_append (run_block hf body hbody), finish_append (run_blanks_initial ws hw),
    finish_append (run_white_newLine ws (fun x hx => by simp [isWhite, hw x hx])),
    hB.finish_initial]
  cases finish conv .initial (c :: b) <;> simp [Except.bind]

theorem run_line (body : Text) (e : Char) (h : ∀ c ∈ body, isLineEnd c = false)
    (he : isLineEnd e = true) :
    run conv .parseSinglelineComment (body ++ [e]) = .ok ([], .parseNewLine) := by
  induction body with
  | nil =>
    rw [List.nil_append, run_one]
    simp [step, he]
  | cons c cs ih =>
    have hs : step conv .parseSinglelineComment c = .ok ([], .parseSinglelineComment) := by
      simp [step, h c (by simp)]
    rw [List.cons_append, run_cons_ok hs, ih (fun x hx => h x (by simp [hx]))]
    rfl

/-- a line comment, with its line end -/
def lineComment (body : Text) (e : Char) : Text := '/' :: '/' :: (body ++ [e])

theorem run_line_comment {st : State} {fl : List Token} (hf : Flushes conv st fl) (body : Text)
    (e : Char) (h : ∀ c ∈ body, isLineEnd c = false) (he : isLineEnd e = true) :
    run conv st (lineComment body e) = .ok (fl, .parseNewLine) := by
  have s1 := flush_step hf '/' (by simp) (fun _ => rfl)
  have s2 : step conv .parseCommentStart '/' = .ok ([], .parseSinglelineComment) := rfl
  have e' : (stepInitial '/').2 = .parseCommentStart := rfl
  rw [e'] at s1
  rw [lineComment, run_cons_ok s1, run_cons_ok s2, run_line body e h he]
  simp [Except.bind]

/-- A line comment after a complete token acts as a line break. -/
theorem C35_line_comment (a b body : Text) (e : Char) (ts fl : List Token) (st : State)
    (ha : run conv .initial a = .ok (ts, st)) (hf : Flushes conv st fl) (hn : st ≠ .parseNewLine)
    (hbody : ∀ c ∈ body, isLineEnd c = false) (he : isLineEnd e = true) :
    tokenize conv (a ++ (lineComment body e ++ b)) = tokenize conv (a ++ '\n' :: b) := by
  rw [tokenize_eq, tokenize_eq]
  refine finish_eq_of_run ha ?_
  have s1 := flush_step hf '\n' (by simp) (fun h => absurd h hn)
  have e' : (stepInitial '\n').2 = .parseNewLine := rfl
  rw [e'] at s1
  rw [finish_append (run_line_comment hf body e hbody he), finish_cons s1]

/-- After a line break a line comment adds one more newline token. -/
theorem C35_line_comment_after_newline (a b body : Text) (e : Char) (ts r : List Token)
    (ha : run conv .initial a = .ok (ts, .parseNewLine))
    (hbody : ∀ c ∈ body, isLineEnd c = false) (he : isLineEnd e = true)
    (hr : tokenize conv (a ++ b) = .ok (ts ++ r)) :
    tokenize conv (a ++ (lineComment body e ++ b)) = .ok (ts ++ .newLine :: r) := by
  have hf : Flushes conv .parseNewLine [.newLine] := rfl
  rw [tokenize_eq, finish_append ha] at hr
  rw [tokenize_eq, finish_append ha, finish_append (run_line_comment hf body e hbody he)]
  obtain ⟨q, hq, hr⟩ := bind_ok hr
  rw [hq]
  have : q = r := by
    have := Except.ok.inj hr
    exact List.append_cancel_left this
  subst this
  rfl

/-- A line comment at the end of the text adds nothing. -/
theorem C35_line_comment_at_end (a body : Text) (ts fl : List Token) (st : State)
    (ha : run conv .initial a = .ok (ts, st)) (hf : Flushes conv st fl)
    (hbody : ∀ c ∈ body, isLineEnd c = false) :
    tokenize conv (a ++ '/' :: '/' :: body) = .ok (ts ++ fl) := by
  have s1 := flush_step hf '/' (by simp) (fun _ => rfl)
  have s2 : step conv .parseCommentStart '/' = .ok ([], .parseSinglelineComment) := rfl
  have e' : (stepInitial '/').2 = .parseCommentStart := rfl
  rw [e'] at s1
  have hb : ∀ body : Text, (∀ c ∈ body, isLineEnd c = false) →
      run conv .parseSinglelineComment body = .ok ([], .parseSinglelineComment) := by
    intro body
    induction body with
    | nil => intro _; rfl
    | cons c cs ih =>
      intro h
      have hs : step conv .parseSinglelineComment c = .ok ([], .parseSinglelineComment) := by
        simp [step, h c (by simp)]
      rw [run_cons_ok hs, ih (fun x hx => h x (by simp [hx]))]
      rfl
  rw [tokenize_eq, finish_append ha, finish_cons s1, finish_cons s2]
  simp [finish, hb body hbody, Except.bind, endTokens]

/-! Outside the claim (the point is not between two tokens) the end of the text matters: -/

/-- after a final line break a comment makes the newline token appear -/
theorem C35_end_newline_visible :
    tokenize conv "x\n".toList = .ok [.id ['x']] ∧
    tokenize conv "x\n/**/".toList = .ok [.id ['x'], .newLine] := by
  constructor <;> simp [tokenize_eq, finish, run_cons, step, stepInitial, andInitial, Except.bind,
    run_nil, endTokens, isOp, isPunct, isDigit19, isIdStart, isLetter, isIdChar, isDigit, isWhite,
    isBlank]

/-- `1e` at the end is an error, `1e` before a blank a number (see C37) -/
theorem C35_end_exponent_differs :
    tokenize conv "1e".toList = .ok [.error .invalidNumber] ∧
    (∀ n, conv ⟨JsBig.fromU64 .pos 1, .pos, 0, false⟩ = .ok n →
      tokenize conv "1e ".toList = .ok [.number n]) := by
  constructor
  · rw [tokenize_eq]; rfl
  · intro n hn
    have s1 : run conv .initial "1e".toList =
      .ok ([], .parseExpBegin ⟨JsBig.fromU64 .pos 1, .pos, 0, .pos, 0⟩) := rfl
    have hf : Flushes conv (.parseExpBegin ⟨JsBig.fromU64 .pos 1, .pos, 0, .pos, 0⟩)
        [.number n] := by
      refine ⟨_, ?_, rfl⟩
      simp [expToken, i64, hn, bind, Except.bind, pure, Except.pure]
    rw [show "1e ".toList = "1e".toList ++ [' '] from rfl, tokenize_eq, finish_append s1,
      finish_cons (flush_step hf ' ' (by simp) (by simp))]
    rfl

/-- the hypotheses are met: between `a` and `:` in `{a:`, and before `b` in `a b` -/
example : ∃ ts st, run conv .initial "{a".toList = .ok (ts, st) ∧
    Between conv st [.id ['a']] ":1}".toList :=
  ⟨[.objectBegin], .parseId ['a'], rfl, rfl, rfl⟩
example : tokenize (fun _ => .ok 0) "{a/* * */\t:".toList = .ok [.objectBegin, .id ['a'], .colon] := by
  decide +kernel

end Nanvm
