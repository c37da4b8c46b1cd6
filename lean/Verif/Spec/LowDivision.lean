import Verif.Spec.LongDivision
/-!
# Long division with guessed digits that are corrected by the wrong comparison

Another way to divide `a` by `b` in base `2^64`: the leading digits of what is left of `a`, divided by
the leading digit of `b`, give a guess.  The guess is reduced by 1 if what is left of `a` is less than
the product when numbers are compared from their **lowest** digit.
-/
namespace Nanvm
namespace LongDiv

/-- `a` is before `m` when they are compared digit by digit from the lowest -/
def LowBefore (a m : Nat) : Prop :=
  ∃ k, a % base ^ k = m % base ^ k ∧ a / base ^ k % base < m / base ^ k % base

/-- the position of the guess -/
def place (a b : Nat) : Nat := Nat.log base (a / leading b)

/-- the guess for what is left of the dividend: its leading digits by the leading digit of `b` -/
def tried (a b : Nat) : Nat := a / (leading b * base ^ place a b)

/-- the digit that is taken: the guess, or one less -/
def Takes (a b d : Nat) : Prop :=
  (LowBefore a (b * (tried a b * base ^ place a b)) → d = tried a b - 1) ∧
  (¬ LowBefore a (b * (tried a b * base ^ place a b)) → d = tried a b)

/-- every digit that is taken until less than `b` is left is neither 0 nor too large -/
inductive GoesWell (b : Nat) : Nat → Prop
  | small {a : Nat} : a < b → GoesWell b a
  | digit {a d : Nat} : b ≤ a → Takes a b d → 0 < d → b * (d * base ^ place a b) ≤ a →
      GoesWell b (a - b * (d * base ^ place a b)) → GoesWell b a

end LongDiv
end Nanvm
