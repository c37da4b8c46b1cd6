import Verif.Spec.Chars
/-!
# Number literals (specification)

The grammar of JSON numbers, `-? (0 | [1-9][0-9]*) ('.' [0-9]+)? ([eE] [+-]? [0-9]+)?`, and of
bigint literals, `-? (0 | [1-9][0-9]*) n`.
-/
namespace Nanvm

def AllDigits (ds : List Char) : Prop := ∀ c ∈ ds, isDigit c = true

instance (ds : List Char) : Decidable (AllDigits ds) := by unfold AllDigits; infer_instance

/-- the number written by decimal digits -/
def decVal (ds : List Char) : Nat := ds.foldl (fun n c => 10 * n + (c.toNat - 48)) 0

/-- `0 | [1-9][0-9]*` -/
def IntPart (ds : List Char) : Prop :=
  ds = ['0'] ∨ ∃ c cs, ds = c :: cs ∧ isDigit19 c = true ∧ AllDigits cs

structure ExpPart where
  marker : Char
  sign : Option Char
  digits : List Char
deriving Repr, DecidableEq

/-- `[eE] [+-]? [0-9]*` -/
structure ExpPart.Lax (e : ExpPart) : Prop where
  marker : isExp e.marker = true
  sign : ∀ c, e.sign = some c → c = '+' ∨ c = '-'
  digits : AllDigits e.digits

/-- `[eE] [+-]? [0-9]+` -/
def ExpPart.Valid (e : ExpPart) : Prop := e.Lax ∧ e.digits ≠ []

def ExpPart.text (e : ExpPart) : List Char := e.marker :: (e.sign.toList ++ e.digits)

def ExpPart.value (e : ExpPart) : Int :=
  if e.sign = some '-' then -(decVal e.digits : Int) else decVal e.digits

structure NumLit where
  neg : Bool
  int : List Char
  frac : Option (List Char)
  exp : Option ExpPart
deriving Repr, DecidableEq

namespace NumLit

def signText (neg : Bool) : List Char := if neg then ['-'] else []

def fracText (frac : Option (List Char)) : List Char :=
  match frac with
  | none => []
  | some ds => '.' :: ds

def expText (exp : Option ExpPart) : List Char :=
  match exp with
  | none => []
  | some e => e.text

def text (l : NumLit) : List Char := signText l.neg ++ (l.int ++ (fracText l.frac ++ expText l.exp))

/-- the grammar, except that the digits of the exponent may be missing -/
structure Lax (l : NumLit) : Prop where
  int : IntPart l.int
  frac : ∀ ds, l.frac = some ds → ds ≠ [] ∧ AllDigits ds
  exp : ∀ e, l.exp = some e → e.Lax

/-- the grammar -/
def Valid (l : NumLit) : Prop := l.Lax ∧ ∀ e, l.exp = some e → e.digits ≠ []

/-- all digits as one number -/
def mant (l : NumLit) : Nat := decVal (l.int ++ l.frac.getD [])

/-- the decimal exponent: the literal denotes `± mant * 10 ^ expo` -/
def expo (l : NumLit) : Int :=
  (match l.exp with | none => 0 | some e => e.value) - ((l.frac.getD []).length : Int)

end NumLit

/-- the text of a bigint literal -/
def bigText (neg : Bool) (ds : List Char) : List Char := NumLit.signText neg ++ (ds ++ ['n'])

end Nanvm
