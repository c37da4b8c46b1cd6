import Verif.Model.RangeMap
/-!
# The unit tests of `range_map.rs`

Written by `tools/repotests.py`.
-/
namespace Nanvm
namespace RepoTests
open RangeMap

/-- `test_get`, range_map.rs:218 -/
example :
    RangeMap.get ([ (10, 'a'), (20, 'b'), (30, 'c') ] : List (Entry Char)) 5 = .ok (some 'a') ∧
    RangeMap.get ([ (10, 'a'), (20, 'b'), (30, 'c') ] : List (Entry Char)) 10 = .ok (some 'a') ∧
    RangeMap.get ([ (10, 'a'), (20, 'b'), (30, 'c') ] : List (Entry Char)) 15 = .ok (some 'b') ∧
    RangeMap.get ([ (10, 'a'), (20, 'b'), (30, 'c') ] : List (Entry Char)) 20 = .ok (some 'b') ∧
    RangeMap.get ([ (10, 'a'), (20, 'b'), (30, 'c') ] : List (Entry Char)) 25 = .ok (some 'c') ∧
    RangeMap.get ([ (10, 'a'), (20, 'b'), (30, 'c') ] : List (Entry Char)) 30 = .ok (some 'c') ∧
    RangeMap.get ([ (10, 'a'), (20, 'b'), (30, 'c') ] : List (Entry Char)) 35 = .ok none := by
  decide +kernel

/-- `test_get_from_empty`, range_map.rs:253 -/
example :
    RangeMap.get ([] : List (Entry Char)) 10 = .ok none := by
  decide +kernel

/-- `test_merge`, range_map.rs:262 -/
example :
    List.length <$> merge ([(10, (some 'a'))] : List (Entry (Option Char))) [] = .ok 1 ∧
    (fun l => (l[0]?).map Prod.fst) <$> merge ([(10, (some 'a'))] : List (Entry (Option Char))) [] = .ok (some 10) ∧
    (fun l => (l[0]?).map Prod.snd) <$> merge ([(10, (some 'a'))] : List (Entry (Option Char))) [] = .ok (some (some 'a')) ∧
    List.length <$> merge ([] : List (Entry (Option Char))) [(10, (some 'a'))] = .ok 1 ∧
    (fun l => (l[0]?).map Prod.fst) <$> merge ([] : List (Entry (Option Char))) [(10, (some 'a'))] = .ok (some 10) ∧
    (fun l => (l[0]?).map Prod.snd) <$> merge ([] : List (Entry (Option Char))) [(10, (some 'a'))] = .ok (some (some 'a')) ∧
    List.length <$> merge ([ (10, (some 'a')), (20, (some 'b')), (30, (some 'c')), (40, none) ] : List (Entry (Option Char))) [ (10, (some 'a')), (20, none), (30, (some 'c')), (40, none), (50, (some 'd')) ] = .ok 5 ∧
    (fun l => (l[0]?).map Prod.fst) <$> merge ([ (10, (some 'a')), (20, (some 'b')), (30, (some 'c')), (40, none) ] : List (Entry (Option Char))) [ (10, (some 'a')), (20, none), (30, (some 'c')), (40, none), (50, (some 'd')) ] = .ok (some 10) ∧
    (fun l => (l[0]?).map Prod.snd) <$> merge ([ (10, (some 'a')), (20, (some 'b')), (30, (some 'c')), (40, none) ] : List (Entry (Option Char))) [ (10, (some 'a')), (20, none), (30, (some 'c')), (40, none), (50, (some 'd')) ] = .ok (some (some 'a')) ∧
    (fun l => (l[1]?).map Prod.fst) <$> merge ([ (10, (some 'a')), (20, (some 'b')), (30, (some 'c')), (40, none) ] : List (Entry (Option Char))) [ (10, (some 'a')), (20, none), (30, (some 'c')), (40, none), (50, (some 'd')) ] = .ok (some 20) ∧
    (fun l => (l[1]?).map Prod.snd) <$> merge ([ (10, (some 'a')), (20, (some 'b')), (30, (some 'c')), (40, none) ] : List (Entry (Option Char))) [ (10, (some 'a')), (20, none), (30, (some 'c')), (40, none), (50, (some 'd')) ] = .ok (some (some 'b')) ∧
    (fun l => (l[2]?).map Prod.fst) <$> merge ([ (10, (some 'a')), (20, (some 'b')), (30, (some 'c')), (40, none) ] : List (Entry (Option Char))) [ (10, (some 'a')), (20, none), (30, (some 'c')), (40, none), (50, (some 'd')) ] = .ok (some 30) ∧
    (fun l => (l[2]?).map Prod.snd) <$> merge ([ (10, (some 'a')), (20, (some 'b')), (30, (some 'c')), (40, none) ] : List (Entry (Option Char))) [ (10, (some 'a')), (20, none), (30, (some 'c')), (40, none), (50, (some 'd')) ] = .ok (some (some 'c')) ∧
    (fun l => (l[3]?).map Prod.fst) <$> merge ([ (10, (some 'a')), (20, (some 'b')), (30, (some 'c')), (40, none) ] : List (Entry (Option Char))) [ (10, (some 'a')), (20, none), (30, (some 'c')), (40, none), (50, (some 'd')) ] = .ok (some 40) ∧
    (fun l => (l[3]?).map Prod.snd) <$> merge ([ (10, (some 'a')), (20, (some 'b')), (30, (some 'c')), (40, none) ] : List (Entry (Option Char))) [ (10, (some 'a')), (20, none), (30, (some 'c')), (40, none), (50, (some 'd')) ] = .ok (some none) ∧
    (fun l => (l[4]?).map Prod.fst) <$> merge ([ (10, (some 'a')), (20, (some 'b')), (30, (some 'c')), (40, none) ] : List (Entry (Option Char))) [ (10, (some 'a')), (20, none), (30, (some 'c')), (40, none), (50, (some 'd')) ] = .ok (some 50) ∧
    (fun l => (l[4]?).map Prod.snd) <$> merge ([ (10, (some 'a')), (20, (some 'b')), (30, (some 'c')), (40, none) ] : List (Entry (Option Char))) [ (10, (some 'a')), (20, none), (30, (some 'c')), (40, none), (50, (some 'd')) ] = .ok (some (some 'd')) := by
  decide +kernel

/-- `test_merge_list`, range_map.rs:351 -/
example :
    List.length <$> mergeList ([] : List (List (Entry (Option Char)))) = .ok 0 ∧
    List.length <$> mergeList ([ [(10, (some 'a'))], [ (10, none), (20, (some 'b'))], [ (20, none), (30, (some 'c'))]] : List (List (Entry (Option Char)))) = .ok 3 ∧
    (fun l => (l[0]?).map Prod.fst) <$> mergeList ([ [(10, (some 'a'))], [ (10, none), (20, (some 'b'))], [ (20, none), (30, (some 'c'))]] : List (List (Entry (Option Char)))) = .ok (some 10) ∧
    (fun l => (l[0]?).map Prod.snd) <$> mergeList ([ [(10, (some 'a'))], [ (10, none), (20, (some 'b'))], [ (20, none), (30, (some 'c'))]] : List (List (Entry (Option Char)))) = .ok (some (some 'a')) ∧
    (fun l => (l[1]?).map Prod.fst) <$> mergeList ([ [(10, (some 'a'))], [ (10, none), (20, (some 'b'))], [ (20, none), (30, (some 'c'))]] : List (List (Entry (Option Char)))) = .ok (some 20) ∧
    (fun l => (l[1]?).map Prod.snd) <$> mergeList ([ [(10, (some 'a'))], [ (10, none), (20, (some 'b'))], [ (20, none), (30, (some 'c'))]] : List (List (Entry (Option Char)))) = .ok (some (some 'b')) ∧
    (fun l => (l[2]?).map Prod.fst) <$> mergeList ([ [(10, (some 'a'))], [ (10, none), (20, (some 'b'))], [ (20, none), (30, (some 'c'))]] : List (List (Entry (Option Char)))) = .ok (some 30) ∧
    (fun l => (l[2]?).map Prod.snd) <$> mergeList ([ [(10, (some 'a'))], [ (10, none), (20, (some 'b'))], [ (20, none), (30, (some 'c'))]] : List (List (Entry (Option Char)))) = .ok (some (some 'c')) := by
  decide +kernel

/-- `test_merge_panic`, range_map.rs:405 -/
example :
    merge ([(10, (some 'a'))] : List (Entry (Option Char))) [(20, (some 'b'))] = .error (.panic .explicit) := by
  decide +kernel

/-- `test_from_range`, range_map.rs:425 -/
example :
    (fromRange 'b'.toNat 'd'.toNat 'A' >>= fun m => getState m 'a'.toNat) = .ok none ∧
    (fromRange 'b'.toNat 'd'.toNat 'A' >>= fun m => getState m 'b'.toNat) = .ok (some 'A') ∧
    (fromRange 'b'.toNat 'd'.toNat 'A' >>= fun m => getState m 'c'.toNat) = .ok (some 'A') ∧
    (fromRange 'b'.toNat 'd'.toNat 'A' >>= fun m => getState m 'd'.toNat) = .ok (some 'A') ∧
    (fromRange 'b'.toNat 'd'.toNat 'A' >>= fun m => getState m 'e'.toNat) = .ok none := by
  decide +kernel

/-- `test_from_one`, range_map.rs:438 -/
example :
    (fromOne 'b'.toNat 'A' >>= fun m => getState m 'a'.toNat) = .ok none ∧
    (fromOne 'b'.toNat 'A' >>= fun m => getState m 'b'.toNat) = .ok (some 'A') := by
  decide +kernel

end RepoTests
end Nanvm
