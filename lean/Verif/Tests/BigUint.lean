import Verif.Model.BigUint
/-!
# The unit tests of `big_numbers/big_uint.rs`

Written by `tools/repotests.py`.
-/
namespace Nanvm
namespace RepoTests
open BigUint

/-- `test_ord`, big_uint.rs:376 -/
example :
    cmp [1] [1] = .eq ∧
    cmp [1] [2] = .lt ∧
    cmp [2] [1] = .gt ∧
    cmp [1,2] [2,1] = .gt := by
  decide +kernel

/-- `test_add`, big_uint.rs:400 -/
example :
    add [1] [2] = [3] ∧
    add [1] [2,4] = [3,4] ∧
    add [1*2^63] [1*2^63] = [0,1] := by
  decide +kernel

/-- `test_add_overflow`, big_uint.rs:435 -/
example :
    add [(2^64-1),0,1] [(2^64-1),(2^64-1)] = [(2^64-1)-1,0,2] ∧
    add [(2^64-1),(2^64-1)] [(2^64-1),0,1] = [(2^64-1)-1,0,2] := by
  decide +kernel

/-- `test_sub`, big_uint.rs:460 -/
example :
    sub [1*2^63] [1*2^63] = [] ∧
    sub [3] [2] = [1] ∧
    sub [2] [3] = [] ∧
    sub [0,1] [1] = [(2^64-1)] := by
  decide +kernel

/-- `test_mul`, big_uint.rs:492 -/
example :
    mul [1] [] = .ok [] ∧
    mul [] [1] = .ok [] ∧
    mul [1] [1] = .ok [1] ∧
    mul [1,2,3,4] [5,6,7] = .ok [5,16,34,52,45,28] ∧
    mul [5,6,7] [1,2,3,4] = .ok [5,16,34,52,45,28] ∧
    mul [(2^64-1)] [(2^64-1)] = .ok [1,(2^64-1)-1] ∧
    mul [(2^64-1)] [(2^64-1)] = .ok [1,(2^64-1)-1] ∧
    mul [(2^64-1),(2^64-1),(2^64-1)] [(2^64-1)] = .ok [1,(2^64-1),(2^64-1),(2^64-1)-1] ∧
    mul [(2^64-1)] [(2^64-1),(2^64-1),(2^64-1)] = .ok [1,(2^64-1),(2^64-1),(2^64-1)-1] := by
  decide +kernel

/-- `test_div_by_zero`, big_uint.rs:570 -/
example :
    div 64 [1] [] = .error (.panic .explicit) := by
  decide +kernel

/-- `test_div_zero_by_zero`, big_uint.rs:578 -/
example :
    div 64 [] [] = .error (.panic .explicit) := by
  decide +kernel

/-- `test_div_simple`, big_uint.rs:584 -/
example :
    div 64 [2] [7] = .ok [] ∧
    div 64 [7] [7] = .ok [1] ∧
    div 64 [7] [2] = .ok [3] ∧
    div 64 [6,8] [2] = .ok [3,4] ∧
    div 64 [4,7] [2] = .ok [(1*2^63)+2,3] ∧
    div 64 [0,4] [1,2] = .ok [1] ∧
    div 64 [1,1] [1] = .ok [1,1] := by
  decide +kernel

/-- `test_div_mod`, big_uint.rs:647 -/
example :
    divMod 64 [7] [2] = .ok ([3], [1]) ∧
    divMod 64 [7,5] [0,3] = .ok ([1], [7,2]) := by
  decide +kernel

/-- `test_pow_u64`, big_uint.rs:676 -/
example :
    powU64 [100] 0 = .ok [1] ∧
    powU64 [2] 7 = .ok [128] ∧
    powU64 [5] 3 = .ok [125] ∧
    powU64 [] 3 = .ok [] ∧
    powU64 [] 0 = .ok [1] ∧
    powU64 one 0 = .ok [1] ∧
    powU64 one 100 = .ok [1] := by
  decide +kernel

/-- `test_pow`, big_uint.rs:720 -/
example :
    pow [100] [] = .ok [1] ∧
    pow [2] [7] = .ok [128] ∧
    pow [5] [3] = .ok [125] ∧
    pow [] [100,100] = .ok [] ∧
    pow [] [] = .ok [1] ∧
    pow one [] = .ok [1] ∧
    pow one [100,100] = .ok [1] := by
  decide +kernel

/-- `test_pow_overflow`, big_uint.rs:769 -/
example :
    pow [5] [100,100] = .error (.panic .explicit) := by
  decide +kernel

/-- `test_shl_zero`, big_uint.rs:778 -/
example :
    shl [] [] = .ok [] ∧
    shl [5] [] = .ok [5] ∧
    shl [] [5] = .ok [] := by
  decide +kernel

/-- `test_shl`, big_uint.rs:792 -/
example :
    shl [1] [1] = .ok [2] ∧
    shl [5] [63] = .ok [1*2^63,2] ∧
    shl [5,9] [63] = .ok [1*2^63,(1*2^63)+2,4] ∧
    shl [5,9] [64] = .ok [0,5,9] ∧
    shl [5,9] [65] = .ok [0,10,18] := by
  decide +kernel

/-- `test_shl_overflow`, big_uint.rs:847 -/
example :
    shl one [1,1] = .error (.panic .explicit) := by
  decide +kernel

/-- `test_shr_zero`, big_uint.rs:857 -/
example :
    shr [] [] = [] ∧
    shr [5] [] = [5] ∧
    shr [] [5] = [] := by
  decide +kernel

/-- `test_shr`, big_uint.rs:871 -/
example :
    shr [1,1,1,1] [256] = [] ∧
    shr [1] [1] = [] ∧
    shr [2] [1] = [1] ∧
    shr [1,5,9] [65] = [(1*2^63)+2,4] := by
  decide +kernel

end RepoTests
end Nanvm
