import Mathlib.Data.Rat.Defs
import Mathlib.Algebra.Order.Field.Rat
import Mathlib.Algebra.Order.Ring.Abs
import Mathlib.Algebra.Order.Field.Power
/-!
# Specification of IEEE-754 binary64 rounding (round to nearest, ties to even)

The magnitude of a double is the lower 63 bits of its bit pattern: eleven exponent bits and
52 fraction bits.
-/
namespace Nanvm

/-- the value of the magnitude bits `b` in units of `2^-1074` -/
def ulps (b : Nat) : Nat :=
  if b / 2 ^ 52 = 0 then b else (2 ^ 52 + b % 2 ^ 52) * 2 ^ (b / 2 ^ 52 - 1)

/-- the value of the magnitude bits `b` -/
def dval (b : Nat) : ℚ := ulps b * 2 ^ (-1074 : ℤ)

/-- the magnitude bits of infinity; for rounding it stands for `2^1024` (`dval_inf`) -/
def INF : Nat := 2047 * 2 ^ 52

/-- `b` is the magnitude nearest to `x ≥ 0`, the even one of two equally near ones. -/
def Nearest (x : ℚ) (b : Nat) : Prop :=
  b ≤ INF ∧ ∀ b' ≤ INF, |x - dval b| ≤ |x - dval b'| ∧
    (|x - dval b| = |x - dval b'| → b' ≠ b → b % 2 = 0)

/-- `bits` is the double nearest to `-x` (if `neg`) or `x`. -/
def IsNearestDouble (neg : Bool) (x : ℚ) (bits : Nat) : Prop :=
  ∃ b, Nearest x b ∧ bits = (if neg then 2 ^ 63 else 0) + b

end Nanvm
