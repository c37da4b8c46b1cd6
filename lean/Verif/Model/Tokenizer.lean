import Verif.Model.RangeMap
import Verif.Model.BigFloat
import Verif.Model.Path
/-!
# `tokenizer/mod.rs`

Text is a list of characters (`Model/Path.lean`).  A double is its bit pattern.  The closures in
the transition tables are compared by `merge` as function pointers; here each closure has a name
(one enumeration per table) and `pushWith` says what it does.  `conv` is the conversion of a
decimal big float to a double, `bigfloat_to_f64` (lines 210-213, `BigFloat.toF64`); it is a
parameter since its loops need fuel.
-/
namespace Nanvm
namespace Tok
open RangeMap

/-- `ErrorType`, lines 49-57 -/
inductive ErrorType
  | unexpectedCharacter | invalidToken | invalidNumber | invalidHex | missingQuotes
  | commentClosingExpected
deriving Repr, DecidableEq

/-- `JsonToken`, lines 15-34 -/
inductive Token
  | string (s : Text)
  | number (bits : Nat)
  | objectBegin | objectEnd | arrayBegin | arrayEnd | colon | comma | equals | dot
  | error (e : ErrorType)
  | bigInt (b : JsBig)
  | id (s : Text)
  | newLine | semicolon | openingParenthesis | closingParenthesis
deriving Repr, DecidableEq

/-- `ParseUnicodeCharState`, lines 177-181 -/
structure UnicodeState where
  s : Text
  unicode : Nat
  index : Nat
deriving Repr, DecidableEq

/-- `IntState`, lines 215-218 -/
structure IntState where
  b : JsBig
  s : Sign
deriving Repr, DecidableEq

/-- `FloatState`, lines 274-278 -/
structure FloatState where
  b : JsBig
  s : Sign
  fe : Int
deriving Repr, DecidableEq

/-- `ExpState`, lines 311-317 -/
structure ExpState where
  b : JsBig
  s : Sign
  fe : Int
  es : Sign
  e : Int
deriving Repr, DecidableEq

/-- `TokenizerState`, lines 59-82 -/
inductive State
  | initial
  | parseId (s : Text)
  | parseString (s : Text)
  | parseEscapeChar (s : Text)
  | parseUnicodeChar (u : UnicodeState)
  | parseMinus
  | parseZero (s : Sign)
  | parseInt (i : IntState)
  | parseFracBegin (i : IntState)
  | parseFrac (f : FloatState)
  | parseExpBegin (e : ExpState)
  | parseExpSign (e : ExpState)
  | parseExp (e : ExpState)
  | parseBigInt (b : JsBig)
  | parseNewLine
  | parseCommentStart
  | parseSinglelineComment
  | parseMultilineComment
  | parseMultilineCommentAsterix
  | parseOperator (s : Text)
deriving Repr, DecidableEq

/-- what pushing a character gives: the finished tokens and the next state -/
abbrev Out := List Token × State

/-- `char::from_u32` -/
def charFromU32 (n : Nat) : Option Char := if n.isValidChar then some (Char.ofNat n) else none

/-- `digit_to_number`, lines 388-390 -/
def digitToNumber (c : Char) : Res Nat := subU c.toNat 0x30

/-- `JsBigintMutRef::from_digit`, lines 221-223 -/
def fromDigit (c : Char) : Res JsBig := do return JsBig.fromU64 .pos (← digitToNumber c)

/-- `JsBigintMutRef::add_digit`, lines 225-231 -/
def addDigit (b : JsBig) (c : Char) : Res JsBig := do
  return JsBig.add (← JsBig.mul b (JsBig.fromU64 .pos 10)) (← fromDigit c)

/-- `IntState::into_float_state`, lines 235-241 -/
def IntState.intoFloat (i : IntState) : FloatState := ⟨i.b, i.s, 0⟩

/-- `IntState::into_exp_state`, lines 243-251 -/
def IntState.intoExp (i : IntState) : ExpState := ⟨i.b, i.s, 0, .pos, 0⟩

/-- `IntState::into_bigint_state`, lines 253-258 -/
def IntState.intoBigint (i : IntState) : JsBig :=
  match i.s with
  | .pos => i.b
  | .neg => JsBig.negative i.b

/-- `int_state_into_number_token`, lines 261-272 -/
def intToken (conv : BigFloat → Res Nat) (i : IntState) : Res Token := do
  return .number (← conv ⟨i.b, i.s, 0, false⟩)

/-- `FloatState::add_digit`, lines 281-285 -/
def FloatState.addDigit (f : FloatState) (c : Char) : Res FloatState := do
  return { f with b := ← Tok.addDigit f.b c, fe := ← i64 (f.fe - 1) }

/-- `FloatState::into_exp_state`, lines 287-295 -/
def FloatState.intoExp (f : FloatState) : ExpState := ⟨f.b, f.s, f.fe, .pos, 0⟩

/-- `float_state_into_token`, lines 298-309 -/
def floatToken (conv : BigFloat → Res Nat) (f : FloatState) : Res Token := do
  return .number (← conv ⟨f.b, f.s, f.fe, false⟩)

/-- `ExpState::add_digit`, lines 320-323 -/
def ExpState.addDigit (x : ExpState) (c : Char) : Res ExpState := do
  let d ← digitToNumber c
  return { x with e := ← i64 ((← i64 (x.e * 10)) + d) }

/-- `exp_state_into_token`, lines 326-342 -/
def expToken (conv : BigFloat → Res Nat) (x : ExpState) : Res Token := do
  let e ← match x.es with
    | .pos => .ok x.e
    | .neg => i64 (-x.e)
  let exp ← i64 (x.fe + e)
  return .number (← conv ⟨x.b, x.s, exp, false⟩)

/-- `operator_to_token`, lines 346-361 -/
def operatorToToken : Text → Option Token
  | ['{'] => some .objectBegin
  | ['}'] => some .objectEnd
  | ['['] => some .arrayBegin
  | [']'] => some .arrayEnd
  | [':'] => some .colon
  | [','] => some .comma
  | ['='] => some .equals
  | ['.'] => some .dot
  | [';'] => some .semicolon
  | ['('] => some .openingParenthesis
  | [')'] => some .closingParenthesis
  | _ => none

/-- `operator_to_token(s).unwrap()` -/
def operatorUnwrap (s : Text) : Res Token :=
  match operatorToToken s with
  | some t => .ok t
  | none => .error (.panic .unwrap)

/-- lines 363-365 -/
def WHITE_SPACE_CHARS : List Char := [' ', '\n', '\t', '\r']
def NEW_LINE_CHARS : List Char := ['\n', '\r']
def OPERATOR_CHARS : List Char := ['{', '}', '[', ']', ':', ',', '=', ';', '(', ')']

/-- `one`, `set`, lines 410-420 -/
def one (c : Char) : Char × Char := (c, c)
def set (cs : List Char) : List (Char × Char) := cs.map one

/-- `id_start`, `id_char`, lines 367-373 -/
def idStart : List (Char × Char) := [('a', 'z'), ('A', 'Z'), one '_', one '$']
def idChar : List (Char × Char) := [('a', 'z'), ('A', 'Z'), one '_', one '$', ('0', '9')]

/-- `operator_chars_with_dot`, lines 375-378 -/
def operatorCharsWithDot : List (Char × Char) := set (OPERATOR_CHARS ++ ['.'])

/-- `terminal_for_number`, lines 380-386 -/
def terminalForNumber : List (Char × Char) := set (WHITE_SPACE_CHARS ++ OPERATOR_CHARS ++ ['"', '/'])

/-- `RangeMap<char, State<Transition>>` with names for transitions -/
abbrev Map (T : Type) := List (Entry (Option T))

/-- `from_range`, `from_one` on characters -/
def charRange {T : Type} (a b : Char) (t : T) : Res (Map T) := fromRange a.toNat b.toNat t
def charOne {T : Type} (a : Char) (t : T) : Res (Map T) := fromOne a.toNat t

/-- `create_range_map`, lines 399-408 -/
def createRangeMap {T : Type} [DecidableEq T] (list : List (Char × Char)) (t : T) : Res (Map T) :=
  list.foldlM (fun result r => do merge (← charRange r.1 r.2 t) result) []

/-- `merge_list([..])` of tables that are built first -/
def mergeAll {T : Type} [DecidableEq T] (ms : List (Res (Map T))) : Res (Map T) := do
  mergeList (← ms.mapM id)

/-- `merge(a, b)` -/
def mergeTwo {T : Type} [DecidableEq T] (a b : Res (Map T)) : Res (Map T) := do merge (← a) (← b)

/-! ## The tables -/

inductive InitialAct | op | digit | quote | zero | minus | id | newLine | white | slash
deriving Repr, DecidableEq

/-- `create_initial_transitions`, lines 498-528 -/
def initialMap : Res (Map InitialAct) := mergeAll
  [createRangeMap operatorCharsWithDot .op, charRange '1' '9' .digit, charOne '"' .quote,
   charOne '0' .zero, charOne '-' .minus, createRangeMap idStart .id, charOne '\n' .newLine,
   createRangeMap (set [' ', '\t', '\r']) .white, charOne '/' .slash]

inductive IdAct | char
deriving Repr, DecidableEq

/-- `create_id_transitions`, line 543 -/
def idMap : Res (Map IdAct) := createRangeMap idChar .char

inductive StringAct | quote | backslash
deriving Repr, DecidableEq

/-- `create_string_transactions`, lines 556-563 -/
def stringMap : Res (Map StringAct) := mergeTwo (charOne '"' .quote) (charOne '\\' .backslash)

inductive EscapeAct | self | b | f | n | r | t | u
deriving Repr, DecidableEq

/-- `create_escape_char_transactions`, lines 599-621 -/
def escapeMap : Res (Map EscapeAct) := mergeAll
  [createRangeMap (set ['"', '\\', '/']) .self, charOne 'b' .b, charOne 'f' .f, charOne 'n' .n,
   charOne 'r' .r, charOne 't' .t, charOne 'u' .u]

inductive UnicodeAct | digit | lower | upper
deriving Repr, DecidableEq

/-- `create_unicode_char_transactions`, lines 638-654 -/
def unicodeMap : Res (Map UnicodeAct) := mergeAll
  [charRange '0' '9' .digit, charRange 'a' 'f' .lower, charRange 'A' 'F' .upper]

inductive ZeroAct | dot | exp | n | terminal
deriving Repr, DecidableEq

/-- `create_zero_transactions`, lines 662-708 -/
def zeroMap : Res (Map ZeroAct) := mergeAll
  [charOne '.' .dot, createRangeMap (set ['e', 'E']) .exp, charOne 'n' .n,
   createRangeMap terminalForNumber .terminal]

inductive IntAct | digit | dot | exp | n | terminal
deriving Repr, DecidableEq

/-- `create_int_transactions`, lines 716-753 -/
def intMap : Res (Map IntAct) := mergeAll
  [charRange '0' '9' .digit, charOne '.' .dot, createRangeMap (set ['e', 'E']) .exp,
   charOne 'n' .n, createRangeMap terminalForNumber .terminal]

inductive FracBeginAct | digit
deriving Repr, DecidableEq

/-- `create_frac_begin_transactions`, lines 762-770 -/
def fracBeginMap : Res (Map FracBeginAct) := charRange '0' '9' .digit

inductive FracAct | digit | exp | terminal
deriving Repr, DecidableEq

/-- `create_frac_transactions`, lines 778-803 -/
def fracMap : Res (Map FracAct) := mergeAll
  [charRange '0' '9' .digit, createRangeMap (set ['e', 'E']) .exp,
   createRangeMap terminalForNumber .terminal]

inductive MinusAct | zero | digit
deriving Repr, DecidableEq

/-- `create_minus_transactions`, lines 811-822 -/
def minusMap : Res (Map MinusAct) := mergeTwo (charOne '0' .zero) (charRange '1' '9' .digit)

inductive ExpBeginAct | digit | plus | minus | terminal
deriving Repr, DecidableEq

/-- `create_exp_begin_transactions`, lines 830-856 -/
def expBeginMap : Res (Map ExpBeginAct) := mergeAll
  [charRange '0' '9' .digit, charOne '+' .plus, charOne '-' .minus,
   createRangeMap terminalForNumber .terminal]

inductive ExpAct | digit | terminal
deriving Repr, DecidableEq

/-- `create_exp_transactions`, lines 864-878 -/
def expMap : Res (Map ExpAct) :=
  mergeTwo (charRange '0' '9' .digit) (createRangeMap terminalForNumber .terminal)

inductive BigIntAct | terminal
deriving Repr, DecidableEq

/-- `create_big_int_transactions`, lines 887-895 -/
def bigIntMap : Res (Map BigIntAct) := createRangeMap terminalForNumber .terminal

inductive NewLineAct | white
deriving Repr, DecidableEq

/-- `create_new_line_transactions`, lines 925-927 -/
def newLineMap : Res (Map NewLineAct) := createRangeMap (set WHITE_SPACE_CHARS) .white

inductive CommentStartAct | slash | star
deriving Repr, DecidableEq

/-- `create_comment_start_transactions`, lines 940-947 -/
def commentStartMap : Res (Map CommentStartAct) := mergeTwo (charOne '/' .slash) (charOne '*' .star)

inductive SinglelineAct | newLine
deriving Repr, DecidableEq

/-- `create_singleline_comment_transactions`, lines 965-967 -/
def singlelineMap : Res (Map SinglelineAct) := createRangeMap (set NEW_LINE_CHARS) .newLine

inductive MultilineAct | star
deriving Repr, DecidableEq

/-- `create_multiline_comment_transactions`, lines 983-985 -/
def multilineMap : Res (Map MultilineAct) := charOne '*' .star

inductive AsterixAct | slash | star
deriving Repr, DecidableEq

/-- `create_multiline_comment_asterix_transactions`, lines 1001-1006 -/
def asterixMap : Res (Map AsterixAct) := mergeTwo (charOne '/' .slash) (charOne '*' .star)

inductive OperatorAct | op
deriving Repr, DecidableEq

/-- `create_operator_transactions`, lines 1016-1030 -/
def operatorMap : Res (Map OperatorAct) := createRangeMap operatorCharsWithDot .op

/-- the look-up in `get_next_state`, lines 482-486; `none`: the default transition -/
def lookup {T : Type} (map : Res (Map T)) (c : Char) : Res (Option T) := do
  getState (← map) c.toNat

/-! ## Transitions -/

/-- `continue_string_state`, lines 567-573 -/
def continueString (s : Text) (c : Char) : Out := ([], .parseString (s ++ [c]))

/-- `ParseUnicodeCharState::push`, lines 184-207 -/
def UnicodeState.push (u : UnicodeState) (i : Nat) : Res Out := do
  let new := u.unicode ||| (i <<< ((← subU 3 u.index) * 4))
  if u.index = 3 then
    match charFromU32 new with
    | some c => return continueString u.s c
    | none => return ([.error .invalidHex], .initial)
  else if u.index ≤ 2 then
    return ([], .parseUnicodeChar ⟨u.s, new, u.index + 1⟩)
  else .error (.panic .unreachable)

/-- `transfer_state`, lines 575-586; `self` is `TokenizerState::push` -/
def transfer (self : State → Char → Res Out) (vec : List Token) (state : State) (c : Char) :
    Res Out := do
  let (next, state) ← self state c
  return (vec ++ next, state)

/-- `tokenize_invalid_number`, lines 899-911 -/
def invalidNumber (self : State → Char → Res Out) (c : Char) : Res Out :=
  transfer self [.error .invalidNumber] .initial c

/-- `TokenizerState::push`, lines 85-130, with the closures of the tables; `self` is the push
called by `transfer_state` -/
def pushWith (conv : BigFloat → Res Nat) (self : State → Char → Res Out) (st : State) (c : Char) :
    Res Out :=
  match st with
  -- lines 489-530
  | .initial => do
    match ← lookup initialMap c with
    | none => return ([.error .unexpectedCharacter], .initial)
    | some .op => return ([], .parseOperator [c])
    | some .digit => return ([], .parseInt ⟨← fromDigit c, .pos⟩)
    | some .quote => return ([], .parseString [])
    | some .zero => return ([], .parseZero .pos)
    | some .minus => return ([], .parseMinus)
    | some .id => return ([], .parseId [c])
    | some .newLine => return ([], .parseNewLine)
    | some .white => return ([], .initial)
    | some .slash => return ([], .parseCommentStart)
  -- lines 532-548
  | .parseId s => do
    match ← lookup idMap c with
    | none => transfer self [.id s] .initial c
    | some .char => return ([], .parseId (s ++ [c]))
  -- lines 550-565
  | .parseString s => do
    match ← lookup stringMap c with
    | none => return continueString s c
    | some .quote => return ([.string s], .initial)
    | some .backslash => return ([], .parseEscapeChar s)
  -- lines 588-623
  | .parseEscapeChar s => do
    match ← lookup escapeMap c with
    | none => transfer self [.error .unexpectedCharacter] (.parseString s) c
    | some .self => return continueString s c
    | some .b => return continueString s (Char.ofNat 0x8)
    | some .f => return continueString s (Char.ofNat 0xc)
    | some .n => return continueString s '\n'
    | some .r => return continueString s '\r'
    | some .t => return continueString s '\t'
    | some .u => return ([], .parseUnicodeChar ⟨s, 0, 0⟩)
  -- lines 625-656
  | .parseUnicodeChar u => do
    match ← lookup unicodeMap c with
    | none => transfer self [.error .invalidHex] (.parseString u.s) c
    | some .digit => u.push (← subU c.toNat '0'.toNat)
    | some .lower => u.push (← subU c.toNat (← subU 'a'.toNat 10))
    | some .upper => u.push (← subU c.toNat (← subU 'A'.toNat 10))
  -- lines 658-710
  | .parseZero s => do
    match ← lookup zeroMap c with
    | none => invalidNumber self c
    | some .dot => return ([], .parseFracBegin ⟨JsBig.fromU64 .pos 0, s⟩)
    | some .exp => return ([], .parseExpBegin ⟨JsBig.fromU64 s 0, s, 0, .pos, 0⟩)
    | some .n => return ([], .parseBigInt (JsBig.fromU64 s 0))
    | some .terminal => transfer self [.number 0] .initial c
  -- lines 712-755
  | .parseInt i => do
    match ← lookup intMap c with
    | none => invalidNumber self c
    | some .digit => return ([], .parseInt ⟨← addDigit i.b c, i.s⟩)
    | some .dot => return ([], .parseFracBegin i)
    | some .exp => return ([], .parseExpBegin i.intoExp)
    | some .n => return ([], .parseBigInt i.intoBigint)
    | some .terminal => transfer self [← intToken conv i] .initial c
  -- lines 807-824
  | .parseMinus => do
    match ← lookup minusMap c with
    | none => invalidNumber self c
    | some .zero => return ([], .parseZero .neg)
    | some .digit => return ([], .parseInt ⟨← fromDigit c, .neg⟩)
  -- lines 757-772
  | .parseFracBegin i => do
    match ← lookup fracBeginMap c with
    | none => invalidNumber self c
    | some .digit => return ([], .parseFrac (← i.intoFloat.addDigit c))
  -- lines 774-805
  | .parseFrac f => do
    match ← lookup fracMap c with
    | none => invalidNumber self c
    | some .digit => return ([], .parseFrac (← f.addDigit c))
    | some .exp => return ([], .parseExpBegin f.intoExp)
    | some .terminal => transfer self [← floatToken conv f] .initial c
  -- lines 826-858
  | .parseExpBegin x => do
    match ← lookup expBeginMap c with
    | none => invalidNumber self c
    | some .digit => return ([], .parseExp (← x.addDigit c))
    | some .plus => return ([], .parseExpSign x)
    | some .minus => return ([], .parseExpSign { x with es := .neg })
    | some .terminal => transfer self [← expToken conv x] .initial c
  -- lines 111-113, 860-880
  | .parseExpSign x => do
    match ← lookup expMap c with
    | none => invalidNumber self c
    | some .digit => return ([], .parseExp (← x.addDigit c))
    | some .terminal => transfer self [← expToken conv x] .initial c
  | .parseExp x => do
    match ← lookup expMap c with
    | none => invalidNumber self c
    | some .digit => return ([], .parseExp (← x.addDigit c))
    | some .terminal => transfer self [← expToken conv x] .initial c
  -- lines 882-897
  | .parseBigInt b => do
    match ← lookup bigIntMap c with
    | none => invalidNumber self c
    | some .terminal => transfer self [.bigInt b] .initial c
  -- lines 913-929
  | .parseNewLine => do
    match ← lookup newLineMap c with
    | none => transfer self [.newLine] .initial c
    | some .white => return ([], .parseNewLine)
  -- lines 931-949
  | .parseCommentStart => do
    match ← lookup commentStartMap c with
    | none => return ([.error .unexpectedCharacter], .initial)
    | some .slash => return ([], .parseSinglelineComment)
    | some .star => return ([], .parseMultilineComment)
  -- lines 961-969
  | .parseSinglelineComment => do
    match ← lookup singlelineMap c with
    | none => return ([], .parseSinglelineComment)
    | some .newLine => return ([], .parseNewLine)
  -- lines 971-987
  | .parseMultilineComment => do
    match ← lookup multilineMap c with
    | none => return ([], .parseMultilineComment)
    | some .star => return ([], .parseMultilineCommentAsterix)
  -- lines 989-1008
  | .parseMultilineCommentAsterix => do
    match ← lookup asterixMap c with
    | none => return ([], .parseMultilineComment)
    | some .slash => return ([], .initial)
    | some .star => return ([], .parseMultilineCommentAsterix)
  -- lines 1010-1032
  | .parseOperator s => do
    match ← lookup operatorMap c with
    | none => transfer self [← operatorUnwrap s] .initial c
    | some .op =>
      match operatorToToken (s ++ [c]) with
      | some _ => return ([], .parseOperator (s ++ [c]))
      | none => transfer self [← operatorUnwrap s] .initial c

/-- `TokenizerState::push`; `transfer_state` calls it again for the same character, with fuel -/
def pushFuel (conv : BigFloat → Res Nat) : Nat → State → Char → Res Out
  | 0 => fun _ _ => .error .fuel
  | f + 1 => pushWith conv (pushFuel conv f)

/-- `TokenizerState::push`, lines 85-130, and `push_mut`, lines 132-141.  The push done by
`transfer_state` is for the states `Initial` and `ParseString`, which do not transfer. -/
def push (conv : BigFloat → Res Nat) : State → Char → Res Out := pushFuel conv 2

/-- `TokenizerState::end`, lines 143-174 -/
def endTokens (conv : BigFloat → Res Nat) (st : State) : Res (List Token) :=
  match st with
  | .initial | .parseNewLine | .parseSinglelineComment => .ok []
  | .parseId s => .ok [.id s]
  | .parseString _ | .parseEscapeChar _ | .parseUnicodeChar _ => .ok [.error .missingQuotes]
  | .parseCommentStart => .ok [.error .unexpectedCharacter]
  | .parseMultilineComment | .parseMultilineCommentAsterix => .ok [.error .commentClosingExpected]
  | .parseZero _ => .ok [.number 0]
  | .parseInt i => do return [← intToken conv i]
  | .parseFrac f => do return [← floatToken conv f]
  | .parseExp x => do return [← expToken conv x]
  | .parseBigInt b => .ok [.bigInt b]
  | .parseMinus | .parseFracBegin _ | .parseExpBegin _ | .parseExpSign _ =>
    .ok [.error .invalidNumber]
  | .parseOperator s => do return [← operatorUnwrap s]

/-- pushing the characters of a text one after the other -/
def run (conv : BigFloat → Res Nat) (st : State) : Text → Res Out
  | [] => .ok ([], st)
  | c :: cs => do
    let (a, st) ← push conv st c
    let (b, st) ← run conv st cs
    return (a ++ b, st)

/-- `tokenize`, lines 1034-1036: the tokens of `TokenizerStateIterator` in order
(`C36_iterator` relates this to the iterator itself) -/
def tokenize (conv : BigFloat → Res Nat) (input : Text) : Res (List Token) := do
  let (ts, st) ← run conv .initial input
  return ts ++ (← endTokens conv st)

/-- `TokenizerStateIterator`, lines 1038-1045 -/
structure Iter where
  chars : Text
  cache : List Token
  state : State
  done : Bool
deriving Repr, DecidableEq

/-- `TokenizerStateIterator::new`, lines 1048-1057 -/
def Iter.new (chars : Text) : Iter := ⟨chars, [], .initial, false⟩

/-- `next`, lines 1063-1081; the loop with fuel -/
def Iter.next (conv : BigFloat → Res Nat) : Nat → Iter → Res (Option Token × Iter)
  | 0, _ => .error .fuel
  | f + 1, it =>
    match it.cache with
    | t :: cache => .ok (some t, { it with cache })
    | [] =>
      if it.done then .ok (none, it)
      else match it.chars with
        | c :: chars => do
          let (ts, state) ← push conv it.state c
          Iter.next conv f ⟨chars, ts, state, false⟩
        | [] => do
          let ts ← endTokens conv it.state
          Iter.next conv f ⟨[], ts, .initial, true⟩

/-- `collect()`, with fuel for the number of tokens and for each `next` -/
def Iter.collect (conv : BigFloat → Res Nat) (g : Nat) : Nat → Iter → Res (List Token)
  | 0, _ => .error .fuel
  | f + 1, it => do
    match ← Iter.next conv g it with
    | (none, _) => return []
    | (some t, it) => return t :: (← Iter.collect conv g f it)

end Tok
end Nanvm
