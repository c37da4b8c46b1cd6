import Verif.Model.Release
import Verif.Model.BigFloat
/-!
# Release builds: `big_numbers/big_float.rs`

The functions of `Model/BigFloat.lean` with exponents that wrap.  `mul`, `pow_u64`, `div_mod` and
`shl` are those of the debug build: for the arguments here they do not overflow
(`C89_division_partial` for `div_mod`).
-/
namespace Nanvm
namespace BigFloat
open JsBig

/-- the loop of `increase_significand_to`, big_float.rs:49-56 -/
def incLoopR (min : JsBig) : Nat → BigFloat → Res BigFloat
  | 0, _ => .error .fuel
  | fuel + 1, b =>
    match b.sig.compare min with
    | .gt | .eq => .ok b
    | .lt => do
      let sig ← shlOnU64R b.sig 1
      incLoopR min fuel { b with sig, exp := wrap64 (b.exp - 1) }

/-- `increase_significand_to`, big_float.rs:44-57 -/
def increaseToR (fuel : Nat) (min : JsBig) (b : BigFloat) : Res BigFloat :=
  if b.sig.isZero then .ok b else incLoopR min fuel b

/-- `increase_significand`, big_float.rs:31-42 -/
def increaseR (fuel precision : Nat) (b : BigFloat) : Res BigFloat :=
  if b.sig.isZero then .ok b
  else do increaseToR fuel (← pow2 precision) b

/-- the loop of `decrease_significand`, big_float.rs:69-79 -/
def decLoopR (max : JsBig) : Nat → BigFloat → Res BigFloat
  | 0, _ => .error .fuel
  | fuel + 1, b =>
    if b.sig.compare max = .lt then .ok b
    else
      let rem := if b.sig.getLastBit = 1 then true else b.rem
      decLoopR max fuel { b with sig := shrOnU64 b.sig 1, exp := wrap64 (b.exp + 1), rem }

/-- `decrease_significand`, big_float.rs:59-80 -/
def decreaseR (fuel precision : Nat) (b : BigFloat) : Res BigFloat :=
  if b.sig.isZero then .ok b
  else do decLoopR (← pow2 precision) fuel b

/-- `BigFloat<10>::to_bin`, big_float.rs:84-148; `-self.exp` wraps and is cast to `u64` -/
def toBinR (fuel precision : Nat) (b : BigFloat) : Res BigFloat :=
  if b.sig.isZero then .ok zero
  else if b.exp = 0 then do
    let r ← increaseR fuel precision b
    decreaseR fuel precision r
  else
    let five := fromU64 .pos 5
    if b.exp > 0 then do
      let sig ← mul b.sig (← powU64 five b.exp.toNat)
      let r ← increaseR fuel precision { b with sig }
      decreaseR fuel precision r
    else do
      let p ← powU64 five (wrap64 (-b.exp) % 2 ^ 64).toNat
      let min ← pow2 precision
      let bf10 ← increaseToR fuel (← mul p min) b
      let (q, r) ← divMod fuel bf10.sig p
      decreaseR fuel precision
        { sig := q, sign := b.sign, exp := bf10.exp, rem := b.rem || !r.isZero }

/-- `get_f64_bits`, big_float.rs:171-228 -/
def f64BitsR (fuel : Nat) (b : BigFloat) : Res Nat :=
  let bits := if b.sign = .neg then 1 <<< 63 else 0
  if b.sig.isZero then .ok bits
  else do
    let value ← increaseR fuel (52 + 1) b
    let value ← decreaseR fuel (52 + 2) value
    let f64Exp := wrap64 (wrap64 (value.exp + 52) + 1)
    if -1022 ≤ f64Exp ∧ f64Exp ≤ 1023 then
      let frac ← getFracRound value
      let (frac, f64Exp) := if frac = 1 <<< 53 then (frac / 2, f64Exp + 1) else (frac, f64Exp)
      let expBits := (f64Exp + 1023).toNat
      let bits := bits ||| (expBits <<< 52) % 2 ^ 64
      return bits ||| (frac &&& (1 <<< 52 - 1))
    else if -1074 ≤ f64Exp ∧ f64Exp ≤ -1023 then
      let value ← decreaseR fuel (f64Exp + 1076).toNat value
      let frac ← getFracRound value
      return bits ||| frac
    else if f64Exp > 1023 then return bits ||| (2047 <<< 52)
    else return bits

/-- `bigfloat_to_f64`, tokenizer/mod.rs:210-213 -/
def toF64R (fuel : Nat) (b : BigFloat) : Res Nat := do
  f64BitsR fuel (← toBinR fuel 54 b)

end BigFloat
end Nanvm
