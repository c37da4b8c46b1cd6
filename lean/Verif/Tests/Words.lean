import Verif.Model.AnyWord
import Verif.Model.RefMut
/-!
# The unit tests of `common/bit_subset64.rs`, `js/any.rs`, `js/bool.rs` and `common/ref_mut.rs`

Written by hand.  Of the tests of values in blocks (`test_string` and so on), the part about the
words is here; the address of the block is that of some block.
-/
namespace Nanvm
namespace RepoTests
open BitSubset

/-! ## `common/bit_subset64.rs` -/

def A := fromTagAndUnion 0b010 0b011
def B := fromTagAndUnion 0b000110 0b000111
def C := fromTagAndUnion 0b010100 0b011111
def UBC := do orUnchecked (← B) (← C)
def D := fromTagAndUnion 0b00110 0b00111
def E := fromTagAndUnion 0b00100 0b01111
def UDE := do orUnchecked (← D) (← E)
def IDE := do BitSubset.and (← D) (← E)

/-- `test_a` and the constants, bit_subset64.rs:152-173 -/
example :
    superposition <$> A = .ok 0b001 ∧ tag <$> A = .ok 0b010 ∧ (has · 0b000) <$> A = .ok false ∧
    (has · 0b010) <$> A = .ok true ∧ (has · 0b011) <$> A = .ok true ∧
    (do let s ← split (← A) 1; return (s.1.tag, s.1.superposition, s.2.tag, s.2.superposition)) =
      (.ok (0b010, 0, 0b011, 0) : Res (W × W × W × W)) := by decide +kernel

/-- `test_ubc` and the constants, bit_subset64.rs:175-193 -/
example :
    superposition <$> UBC = .ok 0b011011 ∧ tag <$> UBC = .ok 0b000100 ∧
    union <$> UBC = .ok 0b011111 ∧
    (do let s ← split (← UBC) 0b1000; return (s.1.superposition, s.1.tag, s.2.tag)) =
      (.ok (0b010011, 0b000100, 0b001100) : Res (W × W × W)) := by decide +kernel

/-- `test_ibc`, bit_subset64.rs:195-200 -/
example : (do BitSubset.and (← B) (← C)) = .error (.panic .assert) := by decide +kernel

/-- `test_split_fail`, bit_subset64.rs:202-207 -/
example : (do split (← UBC) 0b100) = .error (.panic .assert) := by decide +kernel

/-- `test_ude`, `test_ide` and the constants, bit_subset64.rs:209-234 -/
example :
    superposition <$> UDE = .ok 0b01011 ∧ tag <$> UDE = .ok 0b00100 ∧ union <$> UDE = .ok 0b01111 ∧
    superposition <$> IDE = .ok 0b00001 ∧ tag <$> IDE = .ok 0b00110 ∧
    union <$> IDE = .ok 0b00111 := by decide +kernel

/-! ## `js/any.rs` -/

def one : TVal := .number 0x3FF0_0000_0000_0000
def fifteen : TVal := .number 0x402E_0000_0000_0000
def inf : TVal := .number 0x7FF0_0000_0000_0000
def negInf : TVal := .number 0xFFF0_0000_0000_0000
def nan : TVal := .number 0x7FF8_0000_0000_0000
def minusOne : TVal := .number 0xBFF0_0000_0000_0000

/-- `test_number`, any.rs:150-164 -/
example :
    (∀ x ∈ [one, minusOne, inf, negInf, nan], tryMove .number (moveFrom x) = some x) ∧
    tryMove .number (moveFrom (.bool true)) = none ∧
    tryMove .number (moveFrom .null) = none := by decide +kernel

/-- `test_bool`, any.rs:168-175 -/
example :
    tryMove .bool (moveFrom (.bool true)) = some (.bool true) ∧
    tryMove .bool (moveFrom (.bool false)) = some (.bool false) ∧
    tryMove .bool (moveFrom fifteen) = none ∧ tryMove .bool (moveFrom .null) = none := by
  decide +kernel

/-- `test_null`, any.rs:179-185 -/
example :
    isType .null (moveFrom .null) = true ∧
    isType .null (moveFrom (.number 0xC02F_6666_6666_6666)) = false ∧
    isType .null (moveFrom (.bool false)) = false := by decide +kernel

/-- `test_type`, any.rs:189-194 -/
example :
    getType (moveFrom fifteen) = .ok .number ∧ getType (moveFrom (.bool true)) = .ok .bool ∧
    getType (moveFrom .null) = .ok .null := by decide +kernel

/-- the words of `test_string`, `test_object`, `test_array`, `test_bigint`, any.rs:198-300 -/
example (p : W) (_ : p = 0x7F3A_5521_0010) :
    (∀ x ∈ [TVal.string p, .object p, .array p, .bigint p],
      isType x.type (moveFrom x) = true ∧ isType x.type (moveFrom .null) = false ∧
      isType x.type (moveFrom fifteen) = false ∧
      isType x.type (moveFrom (.bool true)) = false ∧
      getType (moveFrom x) = .ok x.type ∧ tryMove x.type (moveFrom x) = some x) := by
  subst p; decide +kernel

/-- `test_bool_to_bitset`, js/bool.rs:15-20 -/
example :
    moveFrom (.bool true) = BOOL.fromRaw 1 ∧ moveFrom (.bool false) = BOOL.fromRaw 0 := by
  decide +kernel

/-! ## `common/ref_mut.rs` -/

/-- `test_move_update`, ref_mut.rs:37-55: the first closure returns its argument, the second one
destroys it and returns a new value; at the end of the scope the variable is destroyed -/
example :
    RefMut.modify 0 (fun a => ⟨[], [], some a⟩) = (0, []) ∧
    RefMut.modify 0 (fun a => ⟨[1], [a], some 1⟩) = (1, [0]) ∧
    (RefMut.scope 0 (fun a => ⟨[1], [a], some 1⟩)).length = 2 := by decide +kernel

end RepoTests
end Nanvm
