import Mathlib.Data.Nat.Bitwise
/-!
# Specification: which right shifts lose bits
-/
namespace Nanvm

/-- **Specification**: no bit is lost in a shift of `v` by `n`.  The `n % 64` low bits of a limb above
limb `n / 64` move to the limb below; only the highest of them may be set. -/
def NoLostBits (v n : Nat) : Prop :=
  ∀ i, n / 64 < i → ∀ j, j + 1 < n % 64 → v.testBit (64 * i + j) = false

end Nanvm
