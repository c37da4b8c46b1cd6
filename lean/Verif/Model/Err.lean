/-!
# Outcomes of modelled code

A Rust panic becomes an explicit error value, exhausting the fuel of a loop
becomes `Err.fuel`.
-/
namespace Nanvm

/-- The ways in which the modelled code panics. -/
inductive Panic
  /-- slice / `Vec` index out of range -/
  | index
  /-- integer overflow or underflow (checked in debug builds) -/
  | overflow
  /-- `panic!("…")` in the source -/
  | explicit
  /-- `unreachable!()` -/
  | unreachable
  /-- `todo!()` -/
  | todo
  /-- `unwrap()` on `None`/`Err` -/
  | unwrap
  /-- `assert!` -/
  | assert
  /-- integer division by zero -/
  | divZero
deriving Repr, DecidableEq

/-- Abnormal outcomes of a modelled function. -/
inductive Err
  | panic (p : Panic)
  /-- the fuel of a modelled loop ran out: the loop needs more iterations -/
  | fuel
deriving Repr, DecidableEq

abbrev Res := Except Err

deriving instance DecidableEq for Except

/-- indexing with a bounds check (Rust slice indexing) -/
def idx {α} (l : List α) (i : Nat) : Res α :=
  match l[i]? with
  | some a => .ok a
  | none => .error (.panic .index)

/-- `usize`/`u64` subtraction with underflow check -/
def subU (a b : Nat) : Res Nat :=
  if b ≤ a then .ok (a - b) else .error (.panic .overflow)

/-- `u64` division with the check of the divisor -/
def divU (a b : Nat) : Res Nat :=
  if b = 0 then .error (.panic .divZero) else .ok (a / b)

/-- the result of an `i64` operation, with overflow check -/
def i64 (x : Int) : Res Int :=
  if -2 ^ 63 ≤ x ∧ x < 2 ^ 63 then .ok x else .error (.panic .overflow)

end Nanvm
