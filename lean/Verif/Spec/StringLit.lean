import Verif.Spec.Chars
import Verif.Spec.Utf16
/-!
# JSON string literals (specification)

A literal is a sequence of raw characters and escapes between quotes.  Its content is the text
denoted by the UTF-16 code units of its pieces.
-/
namespace Nanvm

inductive Piece
  | raw (c : Char)
  /-- `\c` -/
  | esc (c : Char)
  /-- `\uabcd` -/
  | uni (a b c d : Char)
deriving Repr, DecidableEq

namespace Piece

/-- the character denoted by `\c` -/
def escaped : Char → Option Char
  | '"' => some '"'
  | '\\' => some '\\'
  | '/' => some '/'
  | 'b' => some (Char.ofNat 8)
  | 'f' => some (Char.ofNat 12)
  | 'n' => some '\n'
  | 'r' => some '\r'
  | 't' => some '\t'
  | _ => none

/-- the number written by four hexadecimal digits -/
def hex4 (a b c d : Char) : Nat :=
  (((hexVal a).getD 0 * 16 + (hexVal b).getD 0) * 16 + (hexVal c).getD 0) * 16 + (hexVal d).getD 0

def Valid : Piece → Prop
  | raw c => c ≠ '"' ∧ c ≠ '\\'
  | esc c => (escaped c).isSome
  | uni a b c d => (hexVal a).isSome ∧ (hexVal b).isSome ∧ (hexVal c).isSome ∧ (hexVal d).isSome

instance (p : Piece) : Decidable p.Valid := by cases p <;> unfold Valid <;> infer_instance

def text : Piece → List Char
  | raw c => [c]
  | esc c => ['\\', c]
  | uni a b c d => ['\\', 'u', a, b, c, d]

/-- the UTF-16 code units of a character -/
def unitsOf (c : Char) : List Nat :=
  if c.toNat < 0x10000 then [c.toNat]
  else [0xD800 + (c.toNat - 0x10000) / 1024, 0xDC00 + (c.toNat - 0x10000) % 1024]

/-- the code units a piece stands for -/
def units : Piece → List Nat
  | raw c => unitsOf c
  | esc c => unitsOf ((escaped c).getD c)
  | uni a b c d => [hex4 a b c d]

/-- an escape of half a surrogate pair -/
def Surrogate : Piece → Prop
  | uni a b c d => 0xD800 ≤ hex4 a b c d ∧ hex4 a b c d < 0xE000
  | _ => False

instance (p : Piece) : Decidable p.Surrogate := by cases p <;> unfold Surrogate <;> infer_instance

end Piece

/-- the literal with these pieces -/
def literal (ps : List Piece) : List Char := '"' :: (ps.flatMap Piece.text ++ ['"'])

/-- its content, `none` if a surrogate is not paired -/
def content (ps : List Piece) : Option (List Char) := decodeUtf16 (ps.flatMap Piece.units)

end Nanvm
