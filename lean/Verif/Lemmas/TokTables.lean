import Verif.Model.Tokenizer
import Verif.Spec.Chars
import Verif.Props.RangeMap
/-!
# What the transition tables of the tokenizer contain

`…Class` is the transition that belongs to a character, written with the character classes of
`Spec/Chars.lean`.
-/
namespace Nanvm
namespace Tok
open RangeMap

theorem char_ofNat_toNat (c : Char) : Char.ofNat c.toNat = c := Char.ofNat_toNat c

/-- tables are checked on the ASCII range; above it there are no keys -/
theorem lookup_eq {T : Type} {map : Res (Map T)} {m : Map T} (cls : Char → Option T)
    (hm : map = .ok m) (hasc : Ascending m) (hhi : ∀ e ∈ m, e.1 < 128)
    (hlow : ∀ n < 128, stateAt m n = cls (Char.ofNat n))
    (hhigh : ∀ c : Char, 128 ≤ c.toNat → cls c = none) (c : Char) :
    lookup map c = .ok (cls c) := by
  unfold lookup
  rw [hm]
  show getState m c.toNat = _
  rw [C29_getState m hasc]
  rcases Nat.lt_or_ge c.toNat 128 with h | h
  · rw [hlow _ h, char_ofNat_toNat]
  · rw [hhigh c h]
    unfold stateAt
    rw [segment_none (fun e he => Nat.lt_of_lt_of_le (hhi e he) h)]
    rfl

theorem ne_of_high {c x : Char} (h : 128 ≤ c.toNat) (hx : x.toNat < 128) : c ≠ x := by
  rintro rfl; omega

theorem not_le_of_high {c x : Char} (h : 128 ≤ c.toNat) (hx : x.toNat < 128) : ¬ c ≤ x := by
  intro hle
  have : c.toNat ≤ x.toNat := hle
  omega

def initialClass (c : Char) : Option InitialAct :=
  if isOp c then some .op
  else if isDigit19 c then some .digit
  else if c = '"' then some .quote
  else if c = '0' then some .zero
  else if c = '-' then some .minus
  else if isIdStart c then some .id
  else if c = '\n' then some .newLine
  else if isBlank c then some .white
  else if c = '/' then some .slash
  else none

def idClass (c : Char) : Option IdAct := if isIdChar c then some .char else none

def stringClass (c : Char) : Option StringAct :=
  if c = '"' then some .quote else if c = '\\' then some .backslash else none

def escapeClass (c : Char) : Option EscapeAct :=
  if c = '"' || c = '\\' || c = '/' then some .self
  else if c = 'b' then some .b
  else if c = 'f' then some .f
  else if c = 'n' then some .n
  else if c = 'r' then some .r
  else if c = 't' then some .t
  else if c = 'u' then some .u
  else none

def unicodeClass (c : Char) : Option UnicodeAct :=
  if isDigit c then some .digit else if isLowHex c then some .lower
  else if isUpHex c then some .upper else none

def zeroClass (c : Char) : Option ZeroAct :=
  if c = '.' then some .dot else if isExp c then some .exp else if c = 'n' then some .n
  else if isTerminal c then some .terminal else none

def intClass (c : Char) : Option IntAct :=
  if isDigit c then some .digit else if c = '.' then some .dot else if isExp c then some .exp
  else if c = 'n' then some .n else if isTerminal c then some .terminal else none

def fracBeginClass (c : Char) : Option FracBeginAct := if isDigit c then some .digit else none

def fracClass (c : Char) : Option FracAct :=
  if isDigit c then some .digit else if isExp c then some .exp
  else if isTerminal c then some .terminal else none

def minusClass (c : Char) : Option MinusAct :=
  if c = '0' then some .zero else if isDigit19 c then some .digit else none

def expBeginClass (c : Char) : Option ExpBeginAct :=
  if isDigit c then some .digit else if c = '+' then some .plus else if c = '-' then some .minus
  else if isTerminal c then some .terminal else none

def expClass (c : Char) : Option ExpAct :=
  if isDigit c then some .digit else if isTerminal c then some .terminal else none

def bigIntClass (c : Char) : Option BigIntAct := if isTerminal c then some .terminal else none
def newLineClass (c : Char) : Option NewLineAct := if isWhite c then some .white else none
def commentStartClass (c : Char) : Option CommentStartAct :=
  if c = '/' then some .slash else if c = '*' then some .star else none
def singlelineClass (c : Char) : Option SinglelineAct :=
  if isLineEnd c then some .newLine else none
def multilineClass (c : Char) : Option MultilineAct := if c = '*' then some .star else none
def asterixClass (c : Char) : Option AsterixAct :=
  if c = '/' then some .slash else if c = '*' then some .star else none
def operatorClass (c : Char) : Option OperatorAct := if isOp c then some .op else none

/-- the table that a successful construction returns -/
def built {T : Type} (r : Res (Map T)) : Map T := match r with | .ok m => m | .error _ => []

instance {V : Type} (m : List (Entry V)) : Decidable (Ascending m) := by
  unfold Ascending; infer_instance

/-- proves a table lemma -/
macro "table" m:ident k:ident : tactic => `(tactic|
  (refine lookup_eq (m := built $m) $k (by decide +kernel) (by decide +kernel) (by decide +kernel)
    (by decide +kernel) ?_ _
   intro c h
   have h1 : ∀ x : Char, x.toNat < 128 → (c = x) = False := fun x hx => eq_false (ne_of_high h hx)
   have h2 : ∀ x : Char, x.toNat < 128 → (c ≤ x) = False := fun x hx => eq_false (not_le_of_high h hx)
   simp (discharger := decide) [$k:ident, isOp, isIdStart, isIdChar, isTerminal, isWhite, isDigit,
     isDigit19, isLetter, isPunct, isBlank, isExp, isLineEnd, isLowHex, isUpHex, h1, h2, -Char.not_le]))

theorem lookup_initial (c : Char) : lookup initialMap c = .ok (initialClass c) := by
  table initialMap initialClass
theorem lookup_id (c : Char) : lookup idMap c = .ok (idClass c) := by table idMap idClass
theorem lookup_string (c : Char) : lookup stringMap c = .ok (stringClass c) := by
  table stringMap stringClass
theorem lookup_escape (c : Char) : lookup escapeMap c = .ok (escapeClass c) := by
  table escapeMap escapeClass
theorem lookup_unicode (c : Char) : lookup unicodeMap c = .ok (unicodeClass c) := by
  table unicodeMap unicodeClass
theorem lookup_zero (c : Char) : lookup zeroMap c = .ok (zeroClass c) := by table zeroMap zeroClass
theorem lookup_int (c : Char) : lookup intMap c = .ok (intClass c) := by table intMap intClass
theorem lookup_fracBegin (c : Char) : lookup fracBeginMap c = .ok (fracBeginClass c) := by
  table fracBeginMap fracBeginClass
theorem lookup_frac (c : Char) : lookup fracMap c = .ok (fracClass c) := by table fracMap fracClass
theorem lookup_minus (c : Char) : lookup minusMap c = .ok (minusClass c) := by
  table minusMap minusClass
theorem lookup_expBegin (c : Char) : lookup expBeginMap c = .ok (expBeginClass c) := by
  table expBeginMap expBeginClass
theorem lookup_exp (c : Char) : lookup expMap c = .ok (expClass c) := by table expMap expClass
theorem lookup_bigInt (c : Char) : lookup bigIntMap c = .ok (bigIntClass c) := by
  table bigIntMap bigIntClass
theorem lookup_newLine (c : Char) : lookup newLineMap c = .ok (newLineClass c) := by
  table newLineMap newLineClass
theorem lookup_commentStart (c : Char) : lookup commentStartMap c = .ok (commentStartClass c) := by
  table commentStartMap commentStartClass
theorem lookup_singleline (c : Char) : lookup singlelineMap c = .ok (singlelineClass c) := by
  table singlelineMap singlelineClass
theorem lookup_multiline (c : Char) : lookup multilineMap c = .ok (multilineClass c) := by
  table multilineMap multilineClass
theorem lookup_asterix (c : Char) : lookup asterixMap c = .ok (asterixClass c) := by
  table asterixMap asterixClass
theorem lookup_operator (c : Char) : lookup operatorMap c = .ok (operatorClass c) := by
  table operatorMap operatorClass

end Tok
end Nanvm
