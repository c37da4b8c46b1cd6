import Verif.Spec.NumLit
import Verif.Spec.StringLit
import Verif.Spec.Double
/-!
# JSON texts, and how doubles are printed (specification)
-/
namespace Nanvm

/-- texts separated by commas -/
def commaSep : List (List Char) → List Char
  | [] => []
  | [t] => t
  | t :: ts => t ++ ',' :: commaSep ts

/-- the texts of JSON (RFC 8259), without white space -/
inductive JsonText : List Char → Prop
  | null : JsonText "null".toList
  | true : JsonText "true".toList
  | false : JsonText "false".toList
  | num (l : NumLit) : l.Valid → JsonText l.text
  | str (ps : List Piece) : (∀ p ∈ ps, p.Valid) → (∀ c ∈ literal ps, 0x20 ≤ c.toNat) →
    JsonText (literal ps)
  | arr (l : List (List Char)) : (∀ t ∈ l, JsonText t) → JsonText ('[' :: commaSep l ++ [']'])
  | obj (l : List (List Piece × List Char)) : (∀ m ∈ l, ∀ p ∈ m.1, p.Valid) →
    (∀ m ∈ l, ∀ c ∈ literal m.1, 0x20 ≤ c.toNat) → (∀ m ∈ l, JsonText m.2) →
    JsonText ('{' :: commaSep (l.map fun m => literal m.1 ++ ':' :: m.2) ++ ['}'])

/-- the value written by a literal -/
def NumLit.value (l : NumLit) : ℚ := l.mant * 10 ^ l.expo

/-- the bits of a finite double -/
def FiniteBits (bits : Nat) : Prop := bits < 2 ^ 64 ∧ bits % 2 ^ 63 < INF

/-- The contract of `f64::to_string` for finite numbers, as the Rust standard library documents it:
a decimal number without exponent from which the number is recovered by rounding. -/
def PrintsDoubles (sh : Nat → List Char) : Prop :=
  ∀ bits, FiniteBits bits → ∃ l : NumLit, l.Valid ∧ l.exp = none ∧ l.text.length < 2 ^ 56 ∧
    sh bits = l.text ∧ IsNearestDouble l.neg l.value bits

end Nanvm
