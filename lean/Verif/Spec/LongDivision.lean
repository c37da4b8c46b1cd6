import Mathlib.Data.Nat.Log
/-!
# Long division with guessed digits

Long division of `a` by `b` in base `2^64`, from the top.  At the position `i` the part of `a` that is
left is `a % (b * base ^ (i + 1))`.  The digit of the quotient is guessed by dividing by the leading
digit of `b` alone; such a guess is never too small.
-/
namespace Nanvm
namespace LongDiv

def base : Nat := 2 ^ 64

/-- the number with all digits but the first replaced by 0 -/
def leading (b : Nat) : Nat := b / base ^ Nat.log base b * base ^ Nat.log base b

/-- the digit of the quotient at the position `i` -/
def digit (a b i : Nat) : Nat := a % (b * base ^ (i + 1)) / (b * base ^ i)

/-- the guess at the position `i` -/
def guess (a b i : Nat) : Nat := a % (b * base ^ (i + 1)) / (leading b * base ^ i)

/-- the guess is too large by more than 1 -/
def Overshoots (a b i : Nat) : Prop := digit a b i + 1 < guess a b i

/-- what is left after the digit at the position `i > 0` is such that another digit is guessed there -/
def Sticks (a b i : Nat) : Prop := 0 < i ∧ leading b * base ^ i ≤ a % (b * base ^ i)

/-- all guesses above the position `i` are good enough -/
def FineAbove (a b i : Nat) : Prop := ∀ j, i < j → ¬ Overshoots a b j ∧ ¬ Sticks a b j

end LongDiv
end Nanvm
