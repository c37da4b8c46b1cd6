import Verif.Model.JsBigint
/-!
# The unit tests of `js/js_bigint.rs`

Written by `tools/repotests.py`.
-/
namespace Nanvm
namespace RepoTests
open JsBig

/-- `test_add_u64`, js_bigint.rs:630 -/
example :
    sign <$> (.ok (add (fromU64 .pos (1)) (fromU64 .pos (2))) : Res JsBig) = .ok .pos ∧
    items <$> (.ok (add (fromU64 .pos (1)) (fromU64 .pos (2))) : Res JsBig) = .ok [3] ∧
    sign <$> (.ok (add (fromU64 .neg (1)) (fromU64 .neg (2))) : Res JsBig) = .ok .neg ∧
    items <$> (.ok (add (fromU64 .neg (1)) (fromU64 .neg (2))) : Res JsBig) = .ok [3] ∧
    sign <$> (.ok (add (fromU64 .pos (1)) (fromU64 .neg (2))) : Res JsBig) = .ok .neg ∧
    items <$> (.ok (add (fromU64 .pos (1)) (fromU64 .neg (2))) : Res JsBig) = .ok [1] ∧
    items <$> (.ok (add (fromU64 .neg (100)) (fromU64 .pos (100))) : Res JsBig) = .ok [] ∧
    sign <$> (.ok (add (fromU64 .pos (1 * 2 ^ 63)) (fromU64 .pos (1 * 2 ^ 63))) : Res JsBig) = .ok .pos ∧
    items <$> (.ok (add (fromU64 .pos (1 * 2 ^ 63)) (fromU64 .pos (1 * 2 ^ 63))) : Res JsBig) = .ok [0, 1] := by
  decide +kernel

/-- `test_add_overflow`, js_bigint.rs:701 -/
example :
    sign <$> (.ok (add (fromU64 .pos (1 * 2 ^ 63)) (fromU64 .pos (1 * 2 ^ 63))) : Res JsBig) = .ok .pos ∧
    items <$> (.ok (add (fromU64 .pos (1 * 2 ^ 63)) (fromU64 .pos (1 * 2 ^ 63))) : Res JsBig) = .ok [0, 1] := by
  decide +kernel

/-- `test_sub_u64`, js_bigint.rs:721 -/
example :
    sign <$> (.ok (sub (fromU64 .pos (1)) (fromU64 .pos (2))) : Res JsBig) = .ok .neg ∧
    items <$> (.ok (sub (fromU64 .pos (1)) (fromU64 .pos (2))) : Res JsBig) = .ok [1] ∧
    sign <$> (.ok (sub (fromU64 .pos (1)) (fromU64 .neg (2))) : Res JsBig) = .ok .pos ∧
    items <$> (.ok (sub (fromU64 .pos (1)) (fromU64 .neg (2))) : Res JsBig) = .ok [3] ∧
    items <$> (.ok (sub (fromU64 .neg (100)) (fromU64 .neg (100))) : Res JsBig) = .ok [] := by
  decide +kernel

/-- `test_cmp`, js_bigint.rs:766 -/
example :
    compare (fromU64 .pos (1)) (fromU64 .pos (1)) = .eq ∧
    compare (fromU64 .pos (1)) (fromU64 .pos (2)) = .lt ∧
    compare (fromU64 .pos (1)) (fromU64 .neg (2)) = .gt ∧
    compare (new .pos [1, 2]) (new .pos [2, 1]) = .gt := by
  decide +kernel

/-- `test_shl_zero`, js_bigint.rs:797 -/
example :
    items <$> ((shl zero (fromU64 .pos (2))) : Res JsBig) = .ok [] ∧
    sign <$> ((shl (fromU64 .pos (2)) zero) : Res JsBig) = .ok .pos ∧
    items <$> ((shl (fromU64 .pos (2)) zero) : Res JsBig) = .ok [2] ∧
    items <$> ((shl zero zero) : Res JsBig) = .ok [] := by
  decide +kernel

/-- `test_shl`, js_bigint.rs:834 -/
example :
    sign <$> ((shl (fromU64 .pos (1)) (fromU64 .pos (1))) : Res JsBig) = .ok .pos ∧
    items <$> ((shl (fromU64 .pos (1)) (fromU64 .pos (1))) : Res JsBig) = .ok [2] ∧
    sign <$> ((shl (fromU64 .neg (1)) (fromU64 .pos (1))) : Res JsBig) = .ok .neg ∧
    items <$> ((shl (fromU64 .neg (1)) (fromU64 .pos (1))) : Res JsBig) = .ok [2] ∧
    sign <$> ((shl (fromU64 .pos (5)) (fromU64 .pos (63))) : Res JsBig) = .ok .pos ∧
    items <$> ((shl (fromU64 .pos (5)) (fromU64 .pos (63))) : Res JsBig) = .ok [1 * 2 ^ 63, 2] ∧
    sign <$> ((shl (new .pos [5, 9]) (fromU64 .pos (63))) : Res JsBig) = .ok .pos ∧
    items <$> ((shl (new .pos [5, 9]) (fromU64 .pos (63))) : Res JsBig) = .ok [1 * 2 ^ 63, (1 * 2 ^ 63) + 2, 4] ∧
    sign <$> ((shl (new .pos [5, 9]) (fromU64 .pos (64))) : Res JsBig) = .ok .pos ∧
    items <$> ((shl (new .pos [5, 9]) (fromU64 .pos (64))) : Res JsBig) = .ok [0, 5, 9] ∧
    sign <$> ((shl (new .pos [5, 9]) (fromU64 .pos (65))) : Res JsBig) = .ok .pos ∧
    items <$> ((shl (new .pos [5, 9]) (fromU64 .pos (65))) : Res JsBig) = .ok [0, 10, 18] ∧
    sign <$> ((shl (fromU64 .pos (2)) (fromU64 .neg (1))) : Res JsBig) = .ok .pos ∧
    items <$> ((shl (fromU64 .pos (2)) (fromU64 .neg (1))) : Res JsBig) = .ok [1] := by
  decide +kernel

/-- `test_shl_overflow`, js_bigint.rs:933 -/
example :
    (shl (fromU64 .pos (1)) (new .pos [1, 1])) = .error (.panic .explicit) := by
  decide +kernel

/-- `test_shr_zero`, js_bigint.rs:946 -/
example :
    items <$> ((shr zero (fromU64 .pos (2))) : Res JsBig) = .ok [] ∧
    sign <$> ((shr (fromU64 .pos (2)) zero) : Res JsBig) = .ok .pos ∧
    items <$> ((shr (fromU64 .pos (2)) zero) : Res JsBig) = .ok [2] ∧
    items <$> ((shr zero zero) : Res JsBig) = .ok [] := by
  decide +kernel

/-- `test_shr`, js_bigint.rs:983 -/
example :
    items <$> ((shr (new .pos [1, 1, 1, 1]) (fromU64 .pos (256))) : Res JsBig) = .ok [] ∧
    sign <$> ((shr (new .neg [1, 1, 1, 1]) (fromU64 .pos (256))) : Res JsBig) = .ok .neg ∧
    items <$> ((shr (new .neg [1, 1, 1, 1]) (fromU64 .pos (256))) : Res JsBig) = .ok [1] ∧
    items <$> ((shr (fromU64 .pos (1)) (fromU64 .pos (1))) : Res JsBig) = .ok [] ∧
    sign <$> ((shr (fromU64 .neg (1)) (fromU64 .pos (1))) : Res JsBig) = .ok .neg ∧
    items <$> ((shr (fromU64 .neg (1)) (fromU64 .pos (1))) : Res JsBig) = .ok [1] ∧
    sign <$> ((shr (fromU64 .pos (2)) (fromU64 .pos (1))) : Res JsBig) = .ok .pos ∧
    items <$> ((shr (fromU64 .pos (2)) (fromU64 .pos (1))) : Res JsBig) = .ok [1] ∧
    sign <$> ((shr (new .pos [1, 5, 9]) (fromU64 .pos (65))) : Res JsBig) = .ok .pos ∧
    items <$> ((shr (new .pos [1, 5, 9]) (fromU64 .pos (65))) : Res JsBig) = .ok [(1 * 2 ^ 63) + 2, 4] ∧
    sign <$> ((shr (fromU64 .pos (2)) (fromU64 .neg (1))) : Res JsBig) = .ok .pos ∧
    items <$> ((shr (fromU64 .pos (2)) (fromU64 .neg (1))) : Res JsBig) = .ok [4] := by
  decide +kernel

/-- `test_shr_overflow`, js_bigint.rs:1080 -/
example :
    (shr (fromU64 .pos (1)) (new .neg [1, 1])) = .error (.panic .explicit) := by
  decide +kernel

/-- `test_and`, js_bigint.rs:1093 -/
example :
    items <$> (.ok (and (new .pos [1, 3, 5, 7, 9]) (new .pos [3, 5, 7, 9, 11])) : Res JsBig) = .ok [1, 1, 5, 1, 9] ∧
    sign <$> (.ok (and (fromU64 .pos (12)) (fromU64 .neg (9))) : Res JsBig) = .ok .pos ∧
    items <$> (.ok (and (fromU64 .pos (12)) (fromU64 .neg (9))) : Res JsBig) = .ok [4] ∧
    sign <$> (.ok (and (fromU64 .neg (12)) (fromU64 .neg (9))) : Res JsBig) = .ok .neg ∧
    items <$> (.ok (and (fromU64 .neg (12)) (fromU64 .neg (9))) : Res JsBig) = .ok [12] ∧
    items <$> (.ok (and (fromU64 .pos (1)) zero) : Res JsBig) = .ok [] ∧
    items <$> (.ok (and (fromU64 .neg (1)) zero) : Res JsBig) = .ok [] ∧
    sign <$> (.ok (and (fromU64 .pos (1)) (new .neg [1, 1])) : Res JsBig) = .ok .pos ∧
    items <$> (.ok (and (fromU64 .pos (1)) (new .neg [1, 1])) : Res JsBig) = .ok [1] ∧
    sign <$> (.ok (and (fromU64 .neg (1)) (new .pos [1, 1])) : Res JsBig) = .ok .pos ∧
    items <$> (.ok (and (fromU64 .neg (1)) (new .pos [1, 1])) : Res JsBig) = .ok [1, 1] := by
  decide +kernel

/-- `test_or`, js_bigint.rs:1188 -/
example :
    items <$> (.ok (or (new .pos [1, 3, 5, 7, 9]) (new .pos [3, 5, 7, 9, 11])) : Res JsBig) = .ok [3, 7, 7, 15, 11] ∧
    sign <$> (.ok (or (fromU64 .pos (12)) (fromU64 .neg (9))) : Res JsBig) = .ok .neg ∧
    items <$> (.ok (or (fromU64 .pos (12)) (fromU64 .neg (9))) : Res JsBig) = .ok [1] ∧
    sign <$> (.ok (or (fromU64 .neg (12)) (fromU64 .neg (9))) : Res JsBig) = .ok .neg ∧
    items <$> (.ok (or (fromU64 .neg (12)) (fromU64 .neg (9))) : Res JsBig) = .ok [9] ∧
    sign <$> (.ok (or (fromU64 .pos (1)) zero) : Res JsBig) = .ok .pos ∧
    items <$> (.ok (or (fromU64 .pos (1)) zero) : Res JsBig) = .ok [1] ∧
    sign <$> (.ok (or (fromU64 .neg (1)) zero) : Res JsBig) = .ok .neg ∧
    items <$> (.ok (or (fromU64 .neg (1)) zero) : Res JsBig) = .ok [1] ∧
    sign <$> (.ok (or (fromU64 .pos (1)) (new .neg [0, 1])) : Res JsBig) = .ok .neg ∧
    items <$> (.ok (or (fromU64 .pos (1)) (new .neg [0, 1])) : Res JsBig) = .ok [(2 ^ 64 - 1)] ∧
    sign <$> (.ok (or (fromU64 .neg (1)) (new .pos [0, 1])) : Res JsBig) = .ok .neg ∧
    items <$> (.ok (or (fromU64 .neg (1)) (new .pos [0, 1])) : Res JsBig) = .ok [1] := by
  decide +kernel

/-- `test_xor`, js_bigint.rs:1285 -/
example :
    items <$> (.ok (xor (new .pos [1, 3, 5, 7, 9]) (new .pos [3, 5, 7, 9, 11])) : Res JsBig) = .ok [2, 6, 2, 14, 2] ∧
    sign <$> (.ok (xor (fromU64 .pos (12)) (fromU64 .neg (9))) : Res JsBig) = .ok .neg ∧
    items <$> (.ok (xor (fromU64 .pos (12)) (fromU64 .neg (9))) : Res JsBig) = .ok [5] ∧
    sign <$> (.ok (xor (fromU64 .neg (12)) (fromU64 .neg (9))) : Res JsBig) = .ok .pos ∧
    items <$> (.ok (xor (fromU64 .neg (12)) (fromU64 .neg (9))) : Res JsBig) = .ok [3] ∧
    sign <$> (.ok (xor (fromU64 .pos (1)) zero) : Res JsBig) = .ok .pos ∧
    items <$> (.ok (xor (fromU64 .pos (1)) zero) : Res JsBig) = .ok [1] ∧
    sign <$> (.ok (xor (fromU64 .neg (1)) zero) : Res JsBig) = .ok .neg ∧
    items <$> (.ok (xor (fromU64 .neg (1)) zero) : Res JsBig) = .ok [1] ∧
    sign <$> (.ok (xor (fromU64 .pos (1)) (new .neg [0, 1])) : Res JsBig) = .ok .neg ∧
    items <$> (.ok (xor (fromU64 .pos (1)) (new .neg [0, 1])) : Res JsBig) = .ok [(2 ^ 64 - 1)] ∧
    sign <$> (.ok (xor (fromU64 .neg (1)) (new .pos [0, 1])) : Res JsBig) = .ok .neg ∧
    items <$> (.ok (xor (fromU64 .neg (1)) (new .pos [0, 1])) : Res JsBig) = .ok [1, 1] := by
  decide +kernel

/-- `test_not`, js_bigint.rs:1382 -/
example :
    sign <$> (.ok (not zero) : Res JsBig) = .ok .neg ∧
    items <$> (.ok (not zero) : Res JsBig) = .ok [1] ∧
    items <$> (.ok (not (fromU64 .neg (1))) : Res JsBig) = .ok [] ∧
    sign <$> (.ok (not (new .pos [1, 5, 9])) : Res JsBig) = .ok .neg ∧
    items <$> (.ok (not (new .pos [1, 5, 9])) : Res JsBig) = .ok [2, 5, 9] ∧
    sign <$> (.ok (not (new .neg [1, 5, 9])) : Res JsBig) = .ok .pos ∧
    items <$> (.ok (not (new .neg [1, 5, 9])) : Res JsBig) = .ok [0, 5, 9] ∧
    sign <$> (.ok (not (new .neg [0, 1])) : Res JsBig) = .ok .pos ∧
    items <$> (.ok (not (new .neg [0, 1])) : Res JsBig) = .ok [(2 ^ 64 - 1)] := by
  decide +kernel

/-- `test_mul`, js_bigint.rs:1443 -/
example :
    items <$> ((mul (fromU64 .pos (1)) zero) : Res JsBig) = .ok [] ∧
    items <$> ((mul zero (fromU64 .pos (1))) : Res JsBig) = .ok [] ∧
    items <$> ((mul (fromU64 .neg (1)) zero) : Res JsBig) = .ok [] ∧
    items <$> ((mul zero (fromU64 .neg (1))) : Res JsBig) = .ok [] ∧
    sign <$> ((mul (fromU64 .pos (1)) (fromU64 .neg (1))) : Res JsBig) = .ok .neg ∧
    items <$> ((mul (fromU64 .pos (1)) (fromU64 .neg (1))) : Res JsBig) = .ok [1] ∧
    sign <$> ((mul (new .pos [1, 2, 3, 4]) (new .pos [5, 6, 7])) : Res JsBig) = .ok .pos ∧
    items <$> ((mul (new .pos [1, 2, 3, 4]) (new .pos [5, 6, 7])) : Res JsBig) = .ok [5, 16, 34, 52, 45, 28] ∧
    sign <$> ((mul (fromU64 .neg ((2 ^ 64 - 1))) (fromU64 .neg ((2 ^ 64 - 1)))) : Res JsBig) = .ok .pos ∧
    items <$> ((mul (fromU64 .neg ((2 ^ 64 - 1))) (fromU64 .neg ((2 ^ 64 - 1)))) : Res JsBig) = .ok [1, (2 ^ 64 - 1) - 1] ∧
    sign <$> ((mul (new .neg [(2 ^ 64 - 1), (2 ^ 64 - 1), (2 ^ 64 - 1)]) (fromU64 .neg ((2 ^ 64 - 1)))) : Res JsBig) = .ok .pos ∧
    items <$> ((mul (new .neg [(2 ^ 64 - 1), (2 ^ 64 - 1), (2 ^ 64 - 1)]) (fromU64 .neg ((2 ^ 64 - 1)))) : Res JsBig) = .ok [1, (2 ^ 64 - 1), (2 ^ 64 - 1), (2 ^ 64 - 1) - 1] := by
  decide +kernel

/-- `test_div_by_zero`, js_bigint.rs:1538 -/
example :
    divMod 64 (fromU64 .pos (1)) zero = .error (.panic .explicit) := by
  decide +kernel

/-- `test_div_zero_by_zero`, js_bigint.rs:1549 -/
example :
    divMod 64 zero zero = .error (.panic .explicit) := by
  decide +kernel

/-- `test_div`, js_bigint.rs:1559 -/
example :
    sign <$> ((Prod.fst <$> divMod 64 (fromU64 .pos (2)) (fromU64 .pos (7))) : Res JsBig) = .ok .pos ∧
    items <$> ((Prod.fst <$> divMod 64 (fromU64 .pos (2)) (fromU64 .pos (7))) : Res JsBig) = .ok [] ∧
    sign <$> ((Prod.snd <$> divMod 64 (fromU64 .pos (2)) (fromU64 .pos (7))) : Res JsBig) = .ok .pos ∧
    items <$> ((Prod.snd <$> divMod 64 (fromU64 .pos (2)) (fromU64 .pos (7))) : Res JsBig) = .ok [7] ∧
    sign <$> ((Prod.fst <$> divMod 64 (fromU64 .pos (7)) (fromU64 .pos (2))) : Res JsBig) = .ok .pos ∧
    items <$> ((Prod.fst <$> divMod 64 (fromU64 .pos (7)) (fromU64 .pos (2))) : Res JsBig) = .ok [3] ∧
    sign <$> ((Prod.snd <$> divMod 64 (fromU64 .pos (7)) (fromU64 .pos (2))) : Res JsBig) = .ok .pos ∧
    items <$> ((Prod.snd <$> divMod 64 (fromU64 .pos (7)) (fromU64 .pos (2))) : Res JsBig) = .ok [1] ∧
    sign <$> ((Prod.fst <$> divMod 64 (new .neg [1, 1]) (fromU64 .neg (1))) : Res JsBig) = .ok .pos ∧
    items <$> ((Prod.fst <$> divMod 64 (new .neg [1, 1]) (fromU64 .neg (1))) : Res JsBig) = .ok [1, 1] ∧
    sign <$> ((Prod.snd <$> divMod 64 (new .neg [1, 1]) (fromU64 .neg (1))) : Res JsBig) = .ok .pos ∧
    items <$> ((Prod.snd <$> divMod 64 (new .neg [1, 1]) (fromU64 .neg (1))) : Res JsBig) = .ok [] ∧
    sign <$> ((Prod.fst <$> divMod 64 (new .pos [7, 5]) (new .neg [0, 3])) : Res JsBig) = .ok .neg ∧
    items <$> ((Prod.fst <$> divMod 64 (new .pos [7, 5]) (new .neg [0, 3])) : Res JsBig) = .ok [1] ∧
    sign <$> ((Prod.snd <$> divMod 64 (new .pos [7, 5]) (new .neg [0, 3])) : Res JsBig) = .ok .neg ∧
    items <$> ((Prod.snd <$> divMod 64 (new .pos [7, 5]) (new .neg [0, 3])) : Res JsBig) = .ok [7, 2] := by
  decide +kernel

/-- `test_pow_overflow`, js_bigint.rs:1655 -/
example :
    (pow (fromU64 .pos (5)) (new .pos [100, 100])) = .error (.panic .explicit) := by
  decide +kernel

/-- `test_pow_negative`, js_bigint.rs:1666 -/
example :
    (pow (fromU64 .pos (5)) (new .neg [5])) = .error (.panic .explicit) := by
  decide +kernel

/-- `test_pow`, js_bigint.rs:1676 -/
example :
    sign <$> ((pow (fromU64 .pos (100)) zero) : Res JsBig) = .ok .pos ∧
    items <$> ((pow (fromU64 .pos (100)) zero) : Res JsBig) = .ok [1] ∧
    sign <$> ((pow (fromU64 .pos (2)) (fromU64 .pos (7))) : Res JsBig) = .ok .pos ∧
    items <$> ((pow (fromU64 .pos (2)) (fromU64 .pos (7))) : Res JsBig) = .ok [128] ∧
    sign <$> ((pow (fromU64 .neg (2)) (fromU64 .pos (7))) : Res JsBig) = .ok .neg ∧
    items <$> ((pow (fromU64 .neg (2)) (fromU64 .pos (7))) : Res JsBig) = .ok [128] ∧
    sign <$> ((pow (fromU64 .pos (5)) (fromU64 .pos (4))) : Res JsBig) = .ok .pos ∧
    items <$> ((pow (fromU64 .pos (5)) (fromU64 .pos (4))) : Res JsBig) = .ok [625] ∧
    sign <$> ((pow (fromU64 .neg (5)) (fromU64 .pos (4))) : Res JsBig) = .ok .pos ∧
    items <$> ((pow (fromU64 .neg (5)) (fromU64 .pos (4))) : Res JsBig) = .ok [625] ∧
    sign <$> ((pow zero zero) : Res JsBig) = .ok .pos ∧
    items <$> ((pow zero zero) : Res JsBig) = .ok [1] ∧
    sign <$> ((pow (fromU64 .pos (1)) zero) : Res JsBig) = .ok .pos ∧
    items <$> ((pow (fromU64 .pos (1)) zero) : Res JsBig) = .ok [1] ∧
    sign <$> ((pow (fromU64 .pos (1)) (new .pos [100, 100])) : Res JsBig) = .ok .pos ∧
    items <$> ((pow (fromU64 .pos (1)) (new .pos [100, 100])) : Res JsBig) = .ok [1] := by
  decide +kernel

end RepoTests
end Nanvm
