import Verif.Model.JsBigint
/-!
# Mathematical meaning of limb vectors and bigints (specification side)
-/
namespace Nanvm

/-- the natural number denoted by a little-endian limb vector in base `2^64` -/
def val : List Nat → Nat
  | [] => 0
  | d :: ds => d + 2 ^ 64 * val ds

/-- every limb is a `u64` -/
def Limbs (l : List Nat) : Prop := ∀ d ∈ l, d < 2 ^ 64

/-- no most significant zero limb -/
def Norm (l : List Nat) : Prop := l.getLast? ≠ some 0

instance (l : List Nat) : Decidable (Limbs l) := by unfold Limbs; infer_instance
instance (l : List Nat) : Decidable (Norm l) := by unfold Norm; infer_instance

/-- apply a sign to a magnitude -/
def signed (s : Sign) (n : Nat) : Int :=
  match s with
  | .pos => n
  | .neg => -(n : Int)

/-- the integer denoted by a `JsBigint` -/
def JsBig.toInt (b : JsBig) : Int := if b.len < 0 then -(val b.items : Int) else val b.items

/-- representation invariant: the header length is the number of stored limbs,
limbs are `u64`, the top limb is not zero -/
structure JsBig.Canon (b : JsBig) : Prop where
  len : b.len.natAbs = b.items.length
  limbs : Limbs b.items
  norm : Norm b.items

instance (b : JsBig) : Decidable b.Canon :=
  decidable_of_iff (b.len.natAbs = b.items.length ∧ Limbs b.items ∧ Norm b.items)
    ⟨fun h => ⟨h.1, h.2.1, h.2.2⟩, fun h => ⟨h.1, h.2, h.3⟩⟩

end Nanvm
