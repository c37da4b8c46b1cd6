/-!
# Character classes of the language (specification)
-/
namespace Nanvm

def isDigit (c : Char) : Bool := '0' ≤ c && c ≤ '9'
def isDigit19 (c : Char) : Bool := '1' ≤ c && c ≤ '9'
def isLetter (c : Char) : Bool := ('a' ≤ c && c ≤ 'z') || ('A' ≤ c && c ≤ 'Z')
def isIdStart (c : Char) : Bool := isLetter c || c = '_' || c = '$'
def isIdChar (c : Char) : Bool := isIdStart c || isDigit c
/-- punctuation without the dot -/
def isPunct (c : Char) : Bool :=
  c = '{' || c = '}' || c = '[' || c = ']' || c = ':' || c = ',' || c = '=' || c = ';' ||
  c = '(' || c = ')'
/-- punctuation -/
def isOp (c : Char) : Bool := isPunct c || c = '.'
/-- white space within a line -/
def isBlank (c : Char) : Bool := c = ' ' || c = '\t' || c = '\r'
def isWhite (c : Char) : Bool := isBlank c || c = '\n'
def isLineEnd (c : Char) : Bool := c = '\n' || c = '\r'
/-- characters that may follow a number directly -/
def isTerminal (c : Char) : Bool := isWhite c || isPunct c || c = '"' || c = '/'
def isExp (c : Char) : Bool := c = 'e' || c = 'E'
/-- hexadecimal digits -/
def isLowHex (c : Char) : Bool := 'a' ≤ c && c ≤ 'f'
def isUpHex (c : Char) : Bool := 'A' ≤ c && c ≤ 'F'

/-- value of a hexadecimal digit -/
def hexVal (c : Char) : Option Nat :=
  if isDigit c then some (c.toNat - 48)
  else if isLowHex c then some (c.toNat - 87)
  else if isUpHex c then some (c.toNat - 55)
  else none

end Nanvm
