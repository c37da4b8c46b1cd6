import Verif.Model.BigInt
/-!
# The unit tests of `big_numbers/big_int.rs`

Written by `tools/repotests.py`.
-/
namespace Nanvm
namespace RepoTests
open BInt

/-- `from_i64` of a number that is not `i64::MIN` -/
def get (n : Int) : BInt :=
  match fromI64 n with
  | .ok b => b
  | .error _ => ⟨.neg, []⟩

/-- `test_ord`, big_int.rs:219 -/
example :
    cmp (fromU64 (1)) (fromU64 (1)) = .eq ∧
    cmp (fromU64 (1)) (fromU64 (2)) = .lt ∧
    cmp (fromU64 (1)) (get (-2)) = .gt ∧
    cmp (⟨.pos,[1,2]⟩:BInt) (⟨.pos,[2,1]⟩:BInt) = .gt := by
  decide +kernel

/-- `test_add_same_sign`, big_int.rs:249 -/
example :
    add (fromU64 (1)) (fromU64 (2)) = (fromU64 (3)) ∧
    add (get (-1)) (get (-2)) = (get (-3)) ∧
    add (fromU64 (1)) (⟨.pos,[2,4]⟩:BInt) = (⟨.pos,[3,4]⟩:BInt) ∧
    add (fromU64 (1 * 2 ^ 63)) (fromU64 (1 * 2 ^ 63)) = (⟨.pos,[0,1]⟩:BInt) := by
  decide +kernel

/-- `test_add_different_sign`, big_int.rs:294 -/
example :
    add (fromU64 (1 * 2 ^ 63)) (⟨.neg,[1*2^63]⟩:BInt) = BInt.zero ∧
    add (fromU64 (3)) (get (-2)) = (fromU64 (1)) ∧
    add (get (-2)) (fromU64 (3)) = (fromU64 (1)) ∧
    add (⟨.pos,[0,1]⟩:BInt) (get (-1)) = (fromU64 ((2 ^ 64 - 1))) := by
  decide +kernel

/-- `test_add_overflow`, big_int.rs:325 -/
example :
    add (⟨.pos,[(2^64-1),0,1]⟩:BInt) (⟨.pos,[(2^64-1),(2^64-1)]⟩:BInt) = (⟨.pos,[(2^64-1)-1,0,2]⟩:BInt) ∧
    add (⟨.pos,[(2^64-1),(2^64-1)]⟩:BInt) (⟨.pos,[(2^64-1),0,1]⟩:BInt) = (⟨.pos,[(2^64-1)-1,0,2]⟩:BInt) := by
  decide +kernel

/-- `test_sub_same_sign`, big_int.rs:362 -/
example :
    sub (fromU64 (1 * 2 ^ 63)) (fromU64 (1 * 2 ^ 63)) = BInt.zero ∧
    sub (fromU64 (3)) (fromU64 (2)) = (fromU64 (1)) ∧
    sub (fromU64 (2)) (fromU64 (3)) = (get (-1)) ∧
    sub (⟨.pos,[0,1]⟩:BInt) (fromU64 (1)) = (fromU64 ((2 ^ 64 - 1))) := by
  decide +kernel

/-- `test_sub_different_sign`, big_int.rs:388 -/
example :
    sub (fromU64 (1)) (get (-2)) = (fromU64 (3)) ∧
    sub (get (-1)) (fromU64 (2)) = (get (-3)) ∧
    sub (fromU64 (1)) (⟨.neg,[2,4]⟩:BInt) = (⟨.pos,[3,4]⟩:BInt) ∧
    sub (fromU64 (1 * 2 ^ 63)) (⟨.neg,[1*2^63]⟩:BInt) = (⟨.pos,[0,1]⟩:BInt) := by
  decide +kernel

/-- `test_mul`, big_int.rs:438 -/
example :
    mul (fromU64 (1)) BInt.zero = .ok BInt.zero ∧
    mul BInt.zero (fromU64 (1)) = .ok BInt.zero ∧
    mul (get (-1)) BInt.zero = .ok BInt.zero ∧
    mul BInt.zero (get (-1)) = .ok BInt.zero ∧
    mul (get (-1)) (get (-1)) = .ok (fromU64 (1)) ∧
    mul (⟨.neg,[1,2,3,4]⟩:BInt) (⟨.neg,[5,6,7]⟩:BInt) = .ok (⟨.pos,[5,16,34,52,45,28]⟩:BInt) ∧
    mul (⟨.neg,[5,6,7]⟩:BInt) (⟨.neg,[1,2,3,4]⟩:BInt) = .ok (⟨.pos,[5,16,34,52,45,28]⟩:BInt) ∧
    mul (⟨.neg,[(2^64-1)]⟩:BInt) (⟨.neg,[(2^64-1)]⟩:BInt) = .ok (⟨.pos,[1,(2^64-1)-1]⟩:BInt) ∧
    mul (⟨.neg,[(2^64-1)]⟩:BInt) (⟨.neg,[(2^64-1)]⟩:BInt) = .ok (⟨.pos,[1,(2^64-1)-1]⟩:BInt) ∧
    mul (⟨.neg,[(2^64-1),(2^64-1),(2^64-1)]⟩:BInt) (⟨.neg,[(2^64-1)]⟩:BInt) = .ok (⟨.pos,[1,(2^64-1),(2^64-1),(2^64-1)-1]⟩:BInt) ∧
    mul (⟨.neg,[(2^64-1)]⟩:BInt) (⟨.neg,[(2^64-1),(2^64-1),(2^64-1)]⟩:BInt) = .ok (⟨.pos,[1,(2^64-1),(2^64-1),(2^64-1)-1]⟩:BInt) := by
  decide +kernel

/-- `test_div_by_zero`, big_int.rs:559 -/
example :
    div 64 (fromU64 (1)) BInt.zero = .error (.panic .explicit) := by
  decide +kernel

/-- `test_div_zero_by_zero`, big_int.rs:567 -/
example :
    div 64 BInt.zero BInt.zero = .error (.panic .explicit) := by
  decide +kernel

/-- `test_div_simple`, big_int.rs:573 -/
example :
    div 64 (fromU64 (2)) (fromU64 (7)) = .ok BInt.zero ∧
    div 64 (fromU64 (7)) (fromU64 (7)) = .ok (fromU64 (1)) ∧
    div 64 (fromU64 (7)) (fromU64 (2)) = .ok (fromU64 (3)) ∧
    div 64 (⟨.pos,[6,8]⟩:BInt) (fromU64 (2)) = .ok (⟨.pos,[3,4]⟩:BInt) ∧
    div 64 (⟨.pos,[4,7]⟩:BInt) (fromU64 (2)) = .ok (⟨.pos,[(1*2^63)+2,3]⟩:BInt) := by
  decide +kernel

/-- `test_div_mod`, big_int.rs:627 -/
example :
    divMod 64 (get (7)) (get (2)) = .ok ((get (3)), (get (1))) ∧
    divMod 64 (get (-7)) (get (2)) = .ok ((get (-3)), (get (-1))) := by
  decide +kernel

end RepoTests
end Nanvm
