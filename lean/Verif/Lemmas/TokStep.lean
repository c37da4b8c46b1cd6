import Verif.Lemmas.TokTables
/-!
# The tokenizer's step with the tables looked up
-/
namespace Nanvm
namespace Tok

def digitNum (c : Char) : Nat := c.toNat - 48

theorem digit_le {c : Char} (h : isDigit c = true) : 48 ≤ c.toNat ∧ c.toNat ≤ 57 := by
  simp only [isDigit, Bool.and_eq_true, decide_eq_true_eq] at h
  exact ⟨h.1, h.2⟩

theorem digit19_digit {c : Char} (h : isDigit19 c = true) : isDigit c = true := by
  simp only [isDigit19, isDigit, Bool.and_eq_true, decide_eq_true_eq] at *
  refine ⟨?_, h.2⟩
  have h1 : ('1' : Char).toNat ≤ c.toNat := h.1
  show ('0' : Char).toNat ≤ c.toNat
  have : ('1' : Char).toNat = 49 := rfl
  have : ('0' : Char).toNat = 48 := rfl
  omega

theorem digit19_pos {c : Char} (h : isDigit19 c = true) : 49 ≤ c.toNat := by
  simp only [isDigit19, Bool.and_eq_true, decide_eq_true_eq] at h
  exact h.1

theorem digitToNumber_eq {c : Char} (h : isDigit c = true) : digitToNumber c = .ok (digitNum c) := by
  have := (digit_le h).1
  simp [digitToNumber, subU, digitNum, this]

theorem fromDigit_eq {c : Char} (h : isDigit c = true) :
    fromDigit c = .ok (JsBig.fromU64 .pos (digitNum c)) := by
  simp [fromDigit, digitToNumber_eq h, bind, Except.bind, pure, Except.pure]

/-- the step from `Initial` -/
def stepInitial (c : Char) : Out :=
  if isOp c then ([], .parseOperator [c])
  else if isDigit19 c then ([], .parseInt ⟨JsBig.fromU64 .pos (digitNum c), .pos⟩)
  else if c = '"' then ([], .parseString [])
  else if c = '0' then ([], .parseZero .pos)
  else if c = '-' then ([], .parseMinus)
  else if isIdStart c then ([], .parseId [c])
  else if c = '\n' then ([], .parseNewLine)
  else if isBlank c then ([], .initial)
  else if c = '/' then ([], .parseCommentStart)
  else ([.error .unexpectedCharacter], .initial)

/-- the step from `ParseString` -/
def stepString (s : Text) (c : Char) : Out :=
  if c = '"' then ([.string s], .initial)
  else if c = '\\' then ([], .parseEscapeChar s)
  else ([], .parseString (s ++ [c]))

/-- tokens `vec`, then the step from `Initial` -/
def andInitial (vec : List Token) (c : Char) : Out := (vec ++ (stepInitial c).1, (stepInitial c).2)

theorem push_initial_fuel (conv : BigFloat → Res Nat) (f : Nat) (c : Char) :
    pushFuel conv (f + 1) .initial c = .ok (stepInitial c) := by
  simp only [pushFuel, pushWith, lookup_initial, bind, Except.bind, initialClass, stepInitial]
  by_cases h1 : isOp c <;> simp only [h1, if_true, if_false, Bool.false_eq_true]
  · rfl
  by_cases h2 : isDigit19 c <;> simp only [h2, if_true, if_false, Bool.false_eq_true]
  · rw [fromDigit_eq (digit19_digit h2)]; rfl
  repeat' split
  all_goals first | rfl | simp_all

theorem push_string_fuel (conv : BigFloat → Res Nat) (f : Nat) (s : Text) (c : Char) :
    pushFuel conv (f + 1) (.parseString s) c = .ok (stepString s c) := by
  simp only [pushFuel, pushWith, lookup_string, bind, Except.bind, stringClass, stepString]
  repeat' split
  all_goals first | rfl | simp_all

theorem transfer_initial (conv : BigFloat → Res Nat) (f : Nat) (vec : List Token) (c : Char) :
    transfer (pushFuel conv (f + 1)) vec .initial c = .ok (andInitial vec c) := by
  simp only [transfer, push_initial_fuel, bind, Except.bind]; rfl

theorem transfer_string (conv : BigFloat → Res Nat) (f : Nat) (vec : List Token) (s : Text)
    (c : Char) :
    transfer (pushFuel conv (f + 1)) vec (.parseString s) c =
      .ok (vec ++ (stepString s c).1, (stepString s c).2) := by
  simp only [transfer, push_string_fuel, bind, Except.bind]; rfl

/-- the invalid number step -/
def badNumber (c : Char) : Out := andInitial [.error .invalidNumber] c

/-- the step from `ParseEscapeChar` -/
def stepEscape (s : Text) (c : Char) : Out :=
  if c = '"' || c = '\\' || c = '/' then ([], .parseString (s ++ [c]))
  else if c = 'b' then ([], .parseString (s ++ [Char.ofNat 8]))
  else if c = 'f' then ([], .parseString (s ++ [Char.ofNat 12]))
  else if c = 'n' then ([], .parseString (s ++ ['\n']))
  else if c = 'r' then ([], .parseString (s ++ ['\r']))
  else if c = 't' then ([], .parseString (s ++ ['\t']))
  else if c = 'u' then ([], .parseUnicodeChar ⟨s, 0, 0⟩)
  else (.error .unexpectedCharacter :: (stepString s c).1, (stepString s c).2)

/-- `TokenizerState::push` with the tables looked up -/
def step (conv : BigFloat → Res Nat) (st : State) (c : Char) : Res Out :=
  match st with
  | .initial => .ok (stepInitial c)
  | .parseId s =>
    .ok (if isIdChar c then ([], .parseId (s ++ [c])) else andInitial [.id s] c)
  | .parseString s => .ok (stepString s c)
  | .parseEscapeChar s => .ok (stepEscape s c)
  | .parseUnicodeChar u =>
    match hexVal c with
    | none => .ok (.error .invalidHex :: (stepString u.s c).1, (stepString u.s c).2)
    | some v => u.push v
  | .parseZero s => .ok (
    if c = '.' then ([], .parseFracBegin ⟨JsBig.fromU64 .pos 0, s⟩)
    else if isExp c then ([], .parseExpBegin ⟨JsBig.fromU64 s 0, s, 0, .pos, 0⟩)
    else if c = 'n' then ([], .parseBigInt (JsBig.fromU64 s 0))
    else if isTerminal c then andInitial [.number 0] c
    else badNumber c)
  | .parseInt i =>
    if isDigit c then do return ([], .parseInt ⟨← addDigit i.b c, i.s⟩)
    else if c = '.' then .ok ([], .parseFracBegin i)
    else if isExp c then .ok ([], .parseExpBegin i.intoExp)
    else if c = 'n' then .ok ([], .parseBigInt i.intoBigint)
    else if isTerminal c then do return andInitial [← intToken conv i] c
    else .ok (badNumber c)
  | .parseMinus => .ok (
    if c = '0' then ([], .parseZero .neg)
    else if isDigit19 c then ([], .parseInt ⟨JsBig.fromU64 .pos (digitNum c), .neg⟩)
    else badNumber c)
  | .parseFracBegin i =>
    if isDigit c then do return ([], .parseFrac (← i.intoFloat.addDigit c))
    else .ok (badNumber c)
  | .parseFrac f =>
    if isDigit c then do return ([], .parseFrac (← f.addDigit c))
    else if isExp c then .ok ([], .parseExpBegin f.intoExp)
    else if isTerminal c then do return andInitial [← floatToken conv f] c
    else .ok (badNumber c)
  | .parseExpBegin x =>
    if isDigit c then do return ([], .parseExp (← x.addDigit c))
    else if c = '+' then .ok ([], .parseExpSign x)
    else if c = '-' then .ok ([], .parseExpSign { x with es := .neg })
    else if isTerminal c then do return andInitial [← expToken conv x] c
    else .ok (badNumber c)
  | .parseExpSign x | .parseExp x =>
    if isDigit c then do return ([], .parseExp (← x.addDigit c))
    else if isTerminal c then do return andInitial [← expToken conv x] c
    else .ok (badNumber c)
  | .parseBigInt b => .ok (if isTerminal c then andInitial [.bigInt b] c else badNumber c)
  | .parseNewLine => .ok (if isWhite c then ([], .parseNewLine) else andInitial [.newLine] c)
  | .parseCommentStart => .ok (
    if c = '/' then ([], .parseSinglelineComment)
    else if c = '*' then ([], .parseMultilineComment)
    else ([.error .unexpectedCharacter], .initial))
  | .parseSinglelineComment =>
    .ok (if isLineEnd c then ([], .parseNewLine) else ([], .parseSinglelineComment))
  | .parseMultilineComment =>
    .ok (if c = '*' then ([], .parseMultilineCommentAsterix) else ([], .parseMultilineComment))
  | .parseMultilineCommentAsterix => .ok (
    if c = '/' then ([], .initial)
    else if c = '*' then ([], .parseMultilineCommentAsterix)
    else ([], .parseMultilineComment))
  | .parseOperator s =>
    if isOp c ∧ (operatorToToken (s ++ [c])).isSome then .ok ([], .parseOperator (s ++ [c]))
    else do return andInitial [← operatorUnwrap s] c

theorem low_hex_le {c : Char} (h : isLowHex c = true) : 97 ≤ c.toNat ∧ c.toNat ≤ 102 := by
  simp only [isLowHex, Bool.and_eq_true, decide_eq_true_eq] at h; exact ⟨h.1, h.2⟩
theorem up_hex_le {c : Char} (h : isUpHex c = true) : 65 ≤ c.toNat ∧ c.toNat ≤ 70 := by
  simp only [isUpHex, Bool.and_eq_true, decide_eq_true_eq] at h; exact ⟨h.1, h.2⟩

theorem subU_ok {a b : Nat} (h : b ≤ a) : subU a b = .ok (a - b) := by simp [subU, h]

theorem push_unfold (conv : BigFloat → Res Nat) (st : State) (c : Char) :
    push conv st c = pushWith conv (pushFuel conv (0 + 1)) st c := rfl

theorem push_eq_step (conv : BigFloat → Res Nat) (st : State) (c : Char) :
    push conv st c = step conv st c := by
  cases st
  case initial => exact push_initial_fuel conv 1 c
  case parseString s => exact push_string_fuel conv 1 s c
  case parseUnicodeChar u =>
    rw [push_unfold]
    simp only [pushWith, lookup_unicode, bind, Except.bind, unicodeClass, step, hexVal]
    by_cases h1 : isDigit c <;> simp only [h1, if_true, if_false, Bool.false_eq_true]
    · rw [subU_ok (show ('0' : Char).toNat ≤ c.toNat from (digit_le h1).1)]
      rfl
    by_cases h2 : isLowHex c <;> simp only [h2, if_true, if_false, Bool.false_eq_true]
    · rw [subU_ok (show 10 ≤ ('a' : Char).toNat by decide)]
      simp only
      rw [subU_ok (show ('a' : Char).toNat - 10 ≤ c.toNat by
        have := (low_hex_le h2).1; have : ('a' : Char).toNat = 97 := rfl; omega)]
      rfl
    by_cases h3 : isUpHex c <;> simp only [h3, if_true, if_false, Bool.false_eq_true]
    · rw [subU_ok (show 10 ≤ ('A' : Char).toNat by decide)]
      simp only
      rw [subU_ok (show ('A' : Char).toNat - 10 ≤ c.toNat by
        have := (up_hex_le h3).1; have : ('A' : Char).toNat = 65 := rfl; omega)]
      rfl
    · rw [transfer_string]; rfl
  case parseOperator s =>
    rw [push_unfold]
    simp only [pushWith, lookup_operator, bind, Except.bind, operatorClass, step]
    by_cases h1 : isOp c <;> simp only [h1, if_true, if_false, Bool.false_eq_true, true_and, false_and]
    · cases operatorToToken (s ++ [c])
      · simp only [Option.isSome_none, Bool.false_eq_true, if_false]
        cases operatorUnwrap s
        · rfl
        · simp only [transfer_initial]; rfl
      · simp only [Option.isSome_some, if_true]; rfl
    · cases operatorUnwrap s
      · rfl
      · simp only [transfer_initial]; rfl
  case parseMinus =>
    rw [push_unfold]
    simp only [pushWith, lookup_minus, bind, Except.bind, minusClass, step]
    by_cases h1 : c = '0' <;> simp only [h1, if_true, if_false]
    · rfl
    by_cases h2 : isDigit19 c <;> simp only [h2, if_true, if_false, Bool.false_eq_true]
    · rw [fromDigit_eq (digit19_digit h2)]; rfl
    · exact transfer_initial conv 0 _ c
  case parseEscapeChar s =>
    rw [push_unfold]
    simp only [pushWith, lookup_escape, bind, Except.bind, escapeClass, step, stepEscape,
      continueString, transfer_string]
    repeat' split
    all_goals first | rfl | simp_all
  case parseInt i =>
    rw [push_unfold]
    simp only [pushWith, lookup_int, bind, Except.bind, intClass, step, invalidNumber,
      transfer_initial]
    cases intToken conv i <;> (repeat' split) <;> first | rfl | simp_all
  case parseFrac f =>
    rw [push_unfold]
    simp only [pushWith, lookup_frac, bind, Except.bind, fracClass, step, invalidNumber,
      transfer_initial]
    cases floatToken conv f <;> (repeat' split) <;> first | rfl | simp_all
  case parseExpBegin x =>
    rw [push_unfold]
    simp only [pushWith, lookup_expBegin, bind, Except.bind, expBeginClass, step, invalidNumber,
      transfer_initial]
    cases expToken conv x <;> (repeat' split) <;> first | rfl | simp_all
  case parseExpSign x =>
    rw [push_unfold]
    simp only [pushWith, lookup_exp, bind, Except.bind, expClass, step, invalidNumber,
      transfer_initial]
    cases expToken conv x <;> (repeat' split) <;> first | rfl | simp_all
  case parseExp x =>
    rw [push_unfold]
    simp only [pushWith, lookup_exp, bind, Except.bind, expClass, step, invalidNumber,
      transfer_initial]
    cases expToken conv x <;> (repeat' split) <;> first | rfl | simp_all
  all_goals
    rw [push_unfold]
    simp only [pushWith, lookup_id, lookup_zero, lookup_fracBegin, lookup_bigInt, lookup_newLine,
      lookup_commentStart, lookup_singleline, lookup_multiline, lookup_asterix,
      bind, Except.bind, step, invalidNumber, transfer_initial, idClass, zeroClass,
      fracBeginClass, bigIntClass, newLineClass, commentStartClass, singlelineClass,
      multilineClass, asterixClass]
    repeat' split
    all_goals first | rfl | simp_all

end Tok
end Nanvm
