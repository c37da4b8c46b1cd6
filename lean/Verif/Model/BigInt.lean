import Verif.Model.BigUint
/-!
# `big_numbers/big_int.rs`
-/
namespace Nanvm

/-- `BigInt`, big_int.rs:10-14 -/
structure BInt where
  sign : Sign
  value : List Nat
deriving Repr, DecidableEq

namespace BInt

/-- `ZERO`, big_int.rs:29-32 -/
def zero : BInt := ⟨.pos, []⟩

/-- `normalize`, big_int.rs:34-39 -/
def normalize (a : BInt) : BInt :=
  let v := normalizeVec a.value
  if v.isEmpty then ⟨.pos, v⟩ else ⟨a.sign, v⟩

/-- `is_zero`, big_int.rs:41-43 -/
def isZero (a : BInt) : Bool := BigUint.isZero a.value

/-- `from_i64`, big_int.rs:66-78: `n * sign` overflows for `i64::MIN` -/
def fromI64 (n : Int) : Res BInt :=
  let sign := if n < 0 then Sign.neg else Sign.pos
  let m := n * sign.toInt
  if m ≥ 2 ^ 63 then .error (.panic .overflow)
  else .ok ⟨sign, [m.toNat]⟩

/-- `from_u64`, big_int.rs:49-54: no zero test -/
def fromU64 (n : Nat) : BInt := ⟨.pos, [n]⟩

/-- `BigUint::to_big_int`, big_uint.rs:98-100, with `new`, big_int.rs:45-47 -/
def ofUint (v : List Nat) : BInt := ⟨.pos, v⟩

/-- `abs`, big_int.rs:56-64 -/
def abs (a : BInt) : BInt :=
  match a.sign with
  | .pos => a
  | .neg => ⟨.pos, a.value⟩

/-- `Add`, big_int.rs:95-117 -/
def add (a b : BInt) : BInt :=
  if a.sign = b.sign then ⟨a.sign, BigUint.add a.value b.value⟩
  else match BigUint.cmp a.value b.value with
    | .eq => zero
    | .gt => ⟨a.sign, BigUint.sub a.value b.value⟩
    | .lt => ⟨b.sign, BigUint.sub b.value a.value⟩

/-- `Neg`, big_int.rs:127-141 -/
def neg (a : BInt) : BInt :=
  if a.isZero then a else ⟨a.sign.opposite, a.value⟩

/-- `Sub`, big_int.rs:119-125 -/
def sub (a b : BInt) : BInt := add a (neg b)

/-- `Ord for Sign`, big_int.rs:149-153 -/
def cmpSign (a b : Sign) : Ordering := compare a.toInt b.toInt

/-- `Ord`, big_int.rs:161-169 -/
def cmp (a b : BInt) : Ordering :=
  if a.sign ≠ b.sign then cmpSign a.sign b.sign else BigUint.cmp a.value b.value

/-- `Mul`, big_int.rs:171-187 -/
def mul (a b : BInt) : Res BInt :=
  if a.isZero || b.isZero then .ok zero
  else do
    let value ← BigUint.mul a.value b.value
    return normalize ⟨if a.sign = b.sign then .pos else .neg, value⟩

/-- `div_mod`, big_int.rs:80-92 -/
def divMod (fuel : Nat) (a d : BInt) : Res (BInt × BInt) :=
  if d.isZero then .error (.panic .explicit)
  else do
    let sign := if a.sign = d.sign then Sign.pos else Sign.neg
    let (q, r) ← BigUint.divMod fuel a.value d.value
    return (⟨sign, q⟩, ⟨sign, r⟩)

/-- `Div`, big_int.rs:189-205 -/
def div (fuel : Nat) (a d : BInt) : Res BInt :=
  if d.isZero then .error (.panic .explicit)
  else do
    let sign := if a.sign = d.sign then Sign.pos else Sign.neg
    let (q, _) ← BigUint.divMod fuel a.value d.value
    return ⟨sign, q⟩

end BInt
end Nanvm
