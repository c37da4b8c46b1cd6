import Verif.Model.BigFloat
/-!
# The unit tests of `big_numbers/big_float.rs`

Written by `tools/repotests.py`.
-/
namespace Nanvm
namespace RepoTests
open BigFloat JsBig

/-- `test_zero`, big_float.rs:249 -/
example :
    (fun b : BigFloat => b.sig.sign) <$> toBin 4000 64 BigFloat.zero = .ok .pos ∧
    (fun b : BigFloat => b.sig.items) <$> toBin 4000 64 BigFloat.zero = .ok [] ∧
    BigFloat.exp <$> toBin 4000 64 BigFloat.zero = .ok (0) ∧
    BigFloat.rem <$> toBin 4000 64 BigFloat.zero = .ok false ∧
    (fun b : BigFloat => b.sig.sign) <$> toBin 4000 64 ⟨JsBig.zero, .pos, 10, false⟩ = .ok .pos ∧
    (fun b : BigFloat => b.sig.items) <$> toBin 4000 64 ⟨JsBig.zero, .pos, 10, false⟩ = .ok [] ∧
    BigFloat.exp <$> toBin 4000 64 ⟨JsBig.zero, .pos, 10, false⟩ = .ok (0) ∧
    BigFloat.rem <$> toBin 4000 64 ⟨JsBig.zero, .pos, 10, false⟩ = .ok false ∧
    (fun b : BigFloat => b.sig.sign) <$> toBin 4000 64 ⟨JsBig.zero, .pos, -10, false⟩ = .ok .pos ∧
    (fun b : BigFloat => b.sig.items) <$> toBin 4000 64 ⟨JsBig.zero, .pos, -10, false⟩ = .ok [] ∧
    BigFloat.exp <$> toBin 4000 64 ⟨JsBig.zero, .pos, -10, false⟩ = .ok (0) ∧
    BigFloat.rem <$> toBin 4000 64 ⟨JsBig.zero, .pos, -10, false⟩ = .ok false := by
  decide +kernel

/-- `test_integer`, big_float.rs:303 -/
example :
    (fun b : BigFloat => b.sig.sign) <$> toBin 4000 7 ⟨fromU64 .pos (100), .pos, 0, false⟩ = .ok .pos ∧
    (fun b : BigFloat => b.sig.items) <$> toBin 4000 7 ⟨fromU64 .pos (100), .pos, 0, false⟩ = .ok [100] ∧
    BigFloat.exp <$> toBin 4000 7 ⟨fromU64 .pos (100), .pos, 0, false⟩ = .ok (0) ∧
    BigFloat.rem <$> toBin 4000 7 ⟨fromU64 .pos (100), .pos, 0, false⟩ = .ok false ∧
    (fun b : BigFloat => b.sig.sign) <$> toBin 4000 64 ⟨fromU64 .pos (1), .pos, 1, false⟩ = .ok .pos ∧
    (fun b : BigFloat => b.sig.items) <$> toBin 4000 64 ⟨fromU64 .pos (1), .pos, 1, false⟩ = .ok [10 * 2 ^ 60] ∧
    BigFloat.exp <$> toBin 4000 64 ⟨fromU64 .pos (1), .pos, 1, false⟩ = .ok (-60) ∧
    BigFloat.rem <$> toBin 4000 64 ⟨fromU64 .pos (1), .pos, 1, false⟩ = .ok false ∧
    (fun b : BigFloat => b.sig.sign) <$> toBin 4000 64 ⟨fromU64 .pos (100), .pos, 2, false⟩ = .ok .pos ∧
    (fun b : BigFloat => b.sig.items) <$> toBin 4000 64 ⟨fromU64 .pos (100), .pos, 2, false⟩ = .ok [10000 * 2 ^ 50] ∧
    BigFloat.exp <$> toBin 4000 64 ⟨fromU64 .pos (100), .pos, 2, false⟩ = .ok (-50) ∧
    BigFloat.rem <$> toBin 4000 64 ⟨fromU64 .pos (100), .pos, 2, false⟩ = .ok false ∧
    (fun b : BigFloat => b.sig.sign) <$> toBin 4000 9 ⟨fromU64 .pos (128), .pos, 0, false⟩ = .ok .pos ∧
    (fun b : BigFloat => b.sig.items) <$> toBin 4000 9 ⟨fromU64 .pos (128), .pos, 0, false⟩ = .ok [256] ∧
    BigFloat.exp <$> toBin 4000 9 ⟨fromU64 .pos (128), .pos, 0, false⟩ = .ok (-1) ∧
    BigFloat.rem <$> toBin 4000 9 ⟨fromU64 .pos (128), .pos, 0, false⟩ = .ok false := by
  decide +kernel

/-- `test_integer_rounding`, big_float.rs:382 -/
example :
    (fun b : BigFloat => b.sig.sign) <$> toBin 4000 4 ⟨fromU64 .pos (128), .pos, 0, false⟩ = .ok .pos ∧
    (fun b : BigFloat => b.sig.items) <$> toBin 4000 4 ⟨fromU64 .pos (128), .pos, 0, false⟩ = .ok [8] ∧
    BigFloat.exp <$> toBin 4000 4 ⟨fromU64 .pos (128), .pos, 0, false⟩ = .ok (4) ∧
    BigFloat.rem <$> toBin 4000 4 ⟨fromU64 .pos (128), .pos, 0, false⟩ = .ok false ∧
    (fun b : BigFloat => b.sig.sign) <$> toBin 4000 4 ⟨fromU64 .pos (129), .pos, 0, false⟩ = .ok .pos ∧
    (fun b : BigFloat => b.sig.items) <$> toBin 4000 4 ⟨fromU64 .pos (129), .pos, 0, false⟩ = .ok [8] ∧
    BigFloat.exp <$> toBin 4000 4 ⟨fromU64 .pos (129), .pos, 0, false⟩ = .ok (4) ∧
    BigFloat.rem <$> toBin 4000 4 ⟨fromU64 .pos (129), .pos, 0, false⟩ = .ok true := by
  decide +kernel

/-- `test_float`, big_float.rs:425 -/
example :
    (fun b : BigFloat => b.sig.sign) <$> toBin 4000 5 ⟨fromU64 .pos (100), .pos, -1, false⟩ = .ok .pos ∧
    (fun b : BigFloat => b.sig.items) <$> toBin 4000 5 ⟨fromU64 .pos (100), .pos, -1, false⟩ = .ok [20] ∧
    BigFloat.exp <$> toBin 4000 5 ⟨fromU64 .pos (100), .pos, -1, false⟩ = .ok (-1) ∧
    BigFloat.rem <$> toBin 4000 5 ⟨fromU64 .pos (100), .pos, -1, false⟩ = .ok false ∧
    (fun b : BigFloat => b.sig.sign) <$> toBin 4000 64 ⟨fromU64 .pos (100), .pos, -1, false⟩ = .ok .pos ∧
    (fun b : BigFloat => b.sig.items) <$> toBin 4000 64 ⟨fromU64 .pos (100), .pos, -1, false⟩ = .ok [(1 * 2 ^ 63) + (1 * 2 ^ 61)] ∧
    BigFloat.exp <$> toBin 4000 64 ⟨fromU64 .pos (100), .pos, -1, false⟩ = .ok (-60) ∧
    BigFloat.rem <$> toBin 4000 64 ⟨fromU64 .pos (100), .pos, -1, false⟩ = .ok false ∧
    (fun b : BigFloat => b.sig.sign) <$> toBin 4000 53 ⟨new .pos [0, 1], .pos, 0, false⟩ = .ok .pos ∧
    (fun b : BigFloat => b.sig.items) <$> toBin 4000 53 ⟨new .pos [0, 1], .pos, 0, false⟩ = .ok [1 * 2 ^ 52] ∧
    BigFloat.exp <$> toBin 4000 53 ⟨new .pos [0, 1], .pos, 0, false⟩ = .ok (12) ∧
    BigFloat.rem <$> toBin 4000 53 ⟨new .pos [0, 1], .pos, 0, false⟩ = .ok false := by
  decide +kernel

/-- `test_rounding`, big_float.rs:486 -/
example :
    (fun b : BigFloat => b.sig.sign) <$> toBin 4000 5 ⟨fromU64 .pos (129), .pos, -1, false⟩ = .ok .pos ∧
    (fun b : BigFloat => b.sig.items) <$> toBin 4000 5 ⟨fromU64 .pos (129), .pos, -1, false⟩ = .ok [25] ∧
    BigFloat.exp <$> toBin 4000 5 ⟨fromU64 .pos (129), .pos, -1, false⟩ = .ok (-1) ∧
    BigFloat.rem <$> toBin 4000 5 ⟨fromU64 .pos (129), .pos, -1, false⟩ = .ok true ∧
    (fun b : BigFloat => b.sig.sign) <$> toBin 4000 4 ⟨fromU64 .pos (129), .pos, -1, false⟩ = .ok .pos ∧
    (fun b : BigFloat => b.sig.items) <$> toBin 4000 4 ⟨fromU64 .pos (129), .pos, -1, false⟩ = .ok [12] ∧
    BigFloat.exp <$> toBin 4000 4 ⟨fromU64 .pos (129), .pos, -1, false⟩ = .ok (0) ∧
    BigFloat.rem <$> toBin 4000 4 ⟨fromU64 .pos (129), .pos, -1, false⟩ = .ok true ∧
    (fun b : BigFloat => b.sig.sign) <$> toBin 4000 3 ⟨fromU64 .pos (129), .pos, -1, false⟩ = .ok .pos ∧
    (fun b : BigFloat => b.sig.items) <$> toBin 4000 3 ⟨fromU64 .pos (129), .pos, -1, false⟩ = .ok [6] ∧
    BigFloat.exp <$> toBin 4000 3 ⟨fromU64 .pos (129), .pos, -1, false⟩ = .ok (1) ∧
    BigFloat.rem <$> toBin 4000 3 ⟨fromU64 .pos (129), .pos, -1, false⟩ = .ok true := by
  decide +kernel

/-- `test_rounding_half`, big_float.rs:547 -/
example :
    (fun b : BigFloat => b.sig.sign) <$> toBin 4000 3 ⟨fromU64 .pos (90), .pos, -1, false⟩ = .ok .pos ∧
    (fun b : BigFloat => b.sig.items) <$> toBin 4000 3 ⟨fromU64 .pos (90), .pos, -1, false⟩ = .ok [4] ∧
    BigFloat.exp <$> toBin 4000 3 ⟨fromU64 .pos (90), .pos, -1, false⟩ = .ok (1) ∧
    BigFloat.rem <$> toBin 4000 3 ⟨fromU64 .pos (90), .pos, -1, false⟩ = .ok true ∧
    (fun b : BigFloat => b.sig.sign) <$> toBin 4000 3 ⟨fromU64 .pos (91), .pos, -1, false⟩ = .ok .pos ∧
    (fun b : BigFloat => b.sig.items) <$> toBin 4000 3 ⟨fromU64 .pos (91), .pos, -1, false⟩ = .ok [4] ∧
    BigFloat.exp <$> toBin 4000 3 ⟨fromU64 .pos (91), .pos, -1, false⟩ = .ok (1) ∧
    BigFloat.rem <$> toBin 4000 3 ⟨fromU64 .pos (91), .pos, -1, false⟩ = .ok true ∧
    (fun b : BigFloat => b.sig.sign) <$> toBin 4000 3 ⟨fromU64 .pos (109), .pos, -1, false⟩ = .ok .pos ∧
    (fun b : BigFloat => b.sig.items) <$> toBin 4000 3 ⟨fromU64 .pos (109), .pos, -1, false⟩ = .ok [5] ∧
    BigFloat.exp <$> toBin 4000 3 ⟨fromU64 .pos (109), .pos, -1, false⟩ = .ok (1) ∧
    BigFloat.rem <$> toBin 4000 3 ⟨fromU64 .pos (109), .pos, -1, false⟩ = .ok true ∧
    (fun b : BigFloat => b.sig.sign) <$> toBin 4000 3 ⟨fromU64 .pos (110), .pos, -1, false⟩ = .ok .pos ∧
    (fun b : BigFloat => b.sig.items) <$> toBin 4000 3 ⟨fromU64 .pos (110), .pos, -1, false⟩ = .ok [5] ∧
    BigFloat.exp <$> toBin 4000 3 ⟨fromU64 .pos (110), .pos, -1, false⟩ = .ok (1) ∧
    BigFloat.rem <$> toBin 4000 3 ⟨fromU64 .pos (110), .pos, -1, false⟩ = .ok true ∧
    (fun b : BigFloat => b.sig.sign) <$> toBin 4000 3 ⟨fromU64 .pos (150), .pos, -1, false⟩ = .ok .pos ∧
    (fun b : BigFloat => b.sig.items) <$> toBin 4000 3 ⟨fromU64 .pos (150), .pos, -1, false⟩ = .ok [7] ∧
    BigFloat.exp <$> toBin 4000 3 ⟨fromU64 .pos (150), .pos, -1, false⟩ = .ok (1) ∧
    BigFloat.rem <$> toBin 4000 3 ⟨fromU64 .pos (150), .pos, -1, false⟩ = .ok true := by
  decide +kernel

/-- `test_zero_to_f64`, big_float.rs:644 -/
example :
    (· % 2 ^ 63) <$> f64Bits 4000 ⟨JsBig.zero, .pos, 100, false⟩ = .ok 0 ∧
    (fun n : Nat => decide (n / 2 ^ 63 = 0)) <$> f64Bits 4000 ⟨JsBig.zero, .pos, 100, false⟩ = .ok true ∧
    (· % 2 ^ 63) <$> f64Bits 4000 ⟨JsBig.zero, .neg, 100, false⟩ = .ok 0 ∧
    (fun n : Nat => decide (n / 2 ^ 63 = 1)) <$> f64Bits 4000 ⟨JsBig.zero, .neg, 100, false⟩ = .ok true := by
  decide +kernel

/-- `test_normal_to_f64`, big_float.rs:673 -/
example :
    f64Bits 4000 ⟨fromU64 .pos (1), .pos, 0, false⟩ = .ok 4607182418800017408 ∧
    f64Bits 4000 ⟨fromU64 .pos (3), .neg, -1, false⟩ = .ok 13832806255468478464 ∧
    f64Bits 4000 ⟨fromU64 .pos (1), .pos, -1022, false⟩ = .ok 4503599627370496 ∧
    (fun n : Nat => decide (n / 2 ^ 52 % 2 ^ 11 ≠ 0 ∧ n / 2 ^ 52 % 2 ^ 11 ≠ 2047)) <$> f64Bits 4000 ⟨fromU64 .pos (1), .pos, -1022, false⟩ = .ok true ∧
    f64Bits 4000 ⟨fromU64 .pos (1 * 2 ^ 59), .pos, -1022 - 59, false⟩ = .ok 4503599627370496 ∧
    (fun n : Nat => decide (n / 2 ^ 52 % 2 ^ 11 ≠ 0 ∧ n / 2 ^ 52 % 2 ^ 11 ≠ 2047)) <$> f64Bits 4000 ⟨fromU64 .pos (1 * 2 ^ 59), .pos, -1022 - 59, false⟩ = .ok true ∧
    f64Bits 4000 ⟨fromU64 .pos ((1 * 2 ^ 60) - 1), .pos, -1022 - 60, false⟩ = .ok 4503599627370496 ∧
    (fun n : Nat => decide (n / 2 ^ 52 % 2 ^ 11 ≠ 0 ∧ n / 2 ^ 52 % 2 ^ 11 ≠ 2047)) <$> f64Bits 4000 ⟨fromU64 .pos ((1 * 2 ^ 60) - 1), .pos, -1022 - 60, false⟩ = .ok true ∧
    f64Bits 4000 ⟨fromU64 .pos (1), .pos, 1023, false⟩ = .ok 9214364837600034816 ∧
    f64Bits 4000 ⟨fromU64 .pos ((1 * 2 ^ 52) - 1), .pos, 0, false⟩ = .ok 4841369599423283198 ∧
    f64Bits 4000 ⟨fromU64 .pos ((1 * 2 ^ 53) - 1), .pos, 0, false⟩ = .ok 4845873199050653695 := by
  decide +kernel

/-- `test_normal_to_f64_rounding`, big_float.rs:763 -/
example :
    f64Bits 4000 ⟨fromU64 .pos ((1 * 2 ^ 54) - 1), .pos, 0, false⟩ = .ok 4850376798678024192 ∧
    f64Bits 4000 ⟨fromU64 .pos ((1 * 2 ^ 54) - 2), .pos, 0, false⟩ = .ok 4850376798678024191 ∧
    f64Bits 4000 ⟨fromU64 .pos ((1 * 2 ^ 54) - 3), .pos, 0, true⟩ = .ok 4850376798678024191 ∧
    f64Bits 4000 ⟨fromU64 .pos ((1 * 2 ^ 54) - 3), .pos, 0, false⟩ = .ok 4850376798678024190 ∧
    (fun n : Nat => decide (n / 2 ^ 52 % 2 ^ 11 ≠ 0 ∧ n / 2 ^ 52 % 2 ^ 11 ≠ 2047)) <$> f64Bits 4000 ⟨fromU64 .pos ((1 * 2 ^ 54) - 1), .pos, 969, false⟩ = .ok true ∧
    (fun n : Nat => decide (n % 2 ^ 63 = 2047 * 2 ^ 52)) <$> f64Bits 4000 ⟨fromU64 .pos ((1 * 2 ^ 54) - 1), .pos, 970, false⟩ = .ok true := by
  decide +kernel

/-- `test_infinity_to_f64`, big_float.rs:830 -/
example :
    (fun n : Nat => decide (n % 2 ^ 63 = 2047 * 2 ^ 52)) <$> f64Bits 4000 ⟨fromU64 .pos (1), .pos, 1024, false⟩ = .ok true ∧
    (fun n : Nat => decide (n / 2 ^ 63 = 0)) <$> f64Bits 4000 ⟨fromU64 .pos (1), .pos, 1024, false⟩ = .ok true ∧
    (fun n : Nat => decide (n % 2 ^ 63 = 2047 * 2 ^ 52)) <$> f64Bits 4000 ⟨fromU64 .pos (1), .neg, 1024, false⟩ = .ok true ∧
    (fun n : Nat => decide (n / 2 ^ 63 = 1)) <$> f64Bits 4000 ⟨fromU64 .pos (1), .neg, 1024, false⟩ = .ok true := by
  decide +kernel

/-- `test_subnormal_to_f64`, big_float.rs:859 -/
example :
    f64Bits 4000 ⟨fromU64 .pos (1), .pos, -1023, false⟩ = .ok 2251799813685248 ∧
    (fun n : Nat => decide (n / 2 ^ 52 % 2 ^ 11 = 0 ∧ n % 2 ^ 52 ≠ 0)) <$> f64Bits 4000 ⟨fromU64 .pos (1), .pos, -1023, false⟩ = .ok true ∧
    f64Bits 4000 ⟨fromU64 .pos (1), .neg, -1023, false⟩ = .ok 9225623836668461056 ∧
    (fun n : Nat => decide (n / 2 ^ 52 % 2 ^ 11 = 0 ∧ n % 2 ^ 52 ≠ 0)) <$> f64Bits 4000 ⟨fromU64 .pos (1), .neg, -1023, false⟩ = .ok true ∧
    f64Bits 4000 ⟨fromU64 .pos (1), .pos, -1074, false⟩ = .ok 1 ∧
    f64Bits 4000 ⟨fromU64 .pos (1), .pos, -1074, false⟩ = .ok 1 ∧
    (fun n : Nat => decide (n / 2 ^ 52 % 2 ^ 11 = 0 ∧ n % 2 ^ 52 ≠ 0)) <$> f64Bits 4000 ⟨fromU64 .pos (1), .pos, -1074, false⟩ = .ok true ∧
    (· % 2 ^ 63) <$> f64Bits 4000 ⟨fromU64 .pos (1), .pos, -1075, false⟩ = .ok 0 := by
  decide +kernel

/-- `test_subnormal_to_f64_rounding`, big_float.rs:910 -/
example :
    f64Bits 4000 ⟨fromU64 .pos (4), .pos, -1075, false⟩ = .ok 2 ∧
    f64Bits 4000 ⟨fromU64 .pos (4), .pos, -1075, false⟩ = .ok 2 ∧
    (fun n : Nat => decide (n / 2 ^ 52 % 2 ^ 11 = 0 ∧ n % 2 ^ 52 ≠ 0)) <$> f64Bits 4000 ⟨fromU64 .pos (4), .pos, -1075, false⟩ = .ok true ∧
    f64Bits 4000 ⟨fromU64 .pos (4), .pos, -1075, true⟩ = .ok 2 ∧
    f64Bits 4000 ⟨fromU64 .pos (4), .pos, -1075, true⟩ = .ok 2 ∧
    (fun n : Nat => decide (n / 2 ^ 52 % 2 ^ 11 = 0 ∧ n % 2 ^ 52 ≠ 0)) <$> f64Bits 4000 ⟨fromU64 .pos (4), .pos, -1075, true⟩ = .ok true ∧
    f64Bits 4000 ⟨fromU64 .pos (5), .pos, -1075, false⟩ = .ok 2 ∧
    f64Bits 4000 ⟨fromU64 .pos (5), .pos, -1075, false⟩ = .ok 2 ∧
    (fun n : Nat => decide (n / 2 ^ 52 % 2 ^ 11 = 0 ∧ n % 2 ^ 52 ≠ 0)) <$> f64Bits 4000 ⟨fromU64 .pos (5), .pos, -1075, false⟩ = .ok true ∧
    f64Bits 4000 ⟨fromU64 .pos (5), .pos, -1075, true⟩ = .ok 3 ∧
    f64Bits 4000 ⟨fromU64 .pos (5), .pos, -1075, true⟩ = .ok 3 ∧
    (fun n : Nat => decide (n / 2 ^ 52 % 2 ^ 11 = 0 ∧ n % 2 ^ 52 ≠ 0)) <$> f64Bits 4000 ⟨fromU64 .pos (5), .pos, -1075, true⟩ = .ok true ∧
    f64Bits 4000 ⟨fromU64 .pos (6), .pos, -1075, false⟩ = .ok 3 ∧
    f64Bits 4000 ⟨fromU64 .pos (6), .pos, -1075, false⟩ = .ok 3 ∧
    (fun n : Nat => decide (n / 2 ^ 52 % 2 ^ 11 = 0 ∧ n % 2 ^ 52 ≠ 0)) <$> f64Bits 4000 ⟨fromU64 .pos (6), .pos, -1075, false⟩ = .ok true ∧
    f64Bits 4000 ⟨fromU64 .pos (6), .pos, -1075, true⟩ = .ok 3 ∧
    f64Bits 4000 ⟨fromU64 .pos (6), .pos, -1075, true⟩ = .ok 3 ∧
    (fun n : Nat => decide (n / 2 ^ 52 % 2 ^ 11 = 0 ∧ n % 2 ^ 52 ≠ 0)) <$> f64Bits 4000 ⟨fromU64 .pos (6), .pos, -1075, true⟩ = .ok true ∧
    f64Bits 4000 ⟨fromU64 .pos (7), .pos, -1075, false⟩ = .ok 4 ∧
    f64Bits 4000 ⟨fromU64 .pos (7), .pos, -1075, false⟩ = .ok 4 ∧
    (fun n : Nat => decide (n / 2 ^ 52 % 2 ^ 11 = 0 ∧ n % 2 ^ 52 ≠ 0)) <$> f64Bits 4000 ⟨fromU64 .pos (7), .pos, -1075, false⟩ = .ok true ∧
    f64Bits 4000 ⟨fromU64 .pos (7), .pos, -1075, true⟩ = .ok 4 ∧
    f64Bits 4000 ⟨fromU64 .pos (7), .pos, -1075, true⟩ = .ok 4 ∧
    (fun n : Nat => decide (n / 2 ^ 52 % 2 ^ 11 = 0 ∧ n % 2 ^ 52 ≠ 0)) <$> f64Bits 4000 ⟨fromU64 .pos (7), .pos, -1075, true⟩ = .ok true := by
  decide +kernel

/-- `test_rust_cast`, big_float.rs:1021; the conversion of Rust is computed by the script -/
example :
    f64Bits 4000 ⟨fromU64 .pos 18014398509481981, .pos, 0, false⟩ = .ok 4850376798678024190 ∧
    f64Bits 4000 ⟨fromU64 .pos 18014398509481982, .pos, 0, false⟩ = .ok 4850376798678024191 ∧
    f64Bits 4000 ⟨fromU64 .pos 18014398509481983, .pos, 0, false⟩ = .ok 4850376798678024192 ∧
    f64Bits 4000 ⟨fromU64 .pos 18014398509481984, .pos, 0, false⟩ = .ok 4850376798678024192 ∧
    f64Bits 4000 ⟨fromU64 .pos 18014398509481985, .pos, 0, false⟩ = .ok 4850376798678024192 := by
  decide +kernel

end RepoTests
end Nanvm
