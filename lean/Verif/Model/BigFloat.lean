import Verif.Model.JsBigint
/-!
# `big_numbers/big_float.rs`

A double is its bit pattern (`f64::from_bits` is not modelled further).
The bases 10 and 2 share one structure; the code's methods for either base take it as
their argument.  `fuel` bounds the iterations of each loop.
-/
namespace Nanvm

/-- `BigFloat<BASE, M>`, big_float.rs:11-18 -/
structure BigFloat where
  sig : JsBig
  sign : Sign
  exp : Int
  /-- `non_zero_reminder` -/
  rem : Bool
deriving Repr, DecidableEq

namespace BigFloat
open JsBig

/-- `float_zero`, big_float.rs:20-28 -/
def zero : BigFloat := ⟨JsBig.zero, .pos, 0, false⟩

/-- the loop of `increase_significand_to`, big_float.rs:49-56 -/
def incLoop (min : JsBig) : Nat → BigFloat → Res BigFloat
  | 0, _ => .error .fuel
  | fuel + 1, b =>
    match b.sig.compare min with
    | .gt | .eq => .ok b
    | .lt => do
      let sig ← shlOnU64 b.sig 1
      let exp ← i64 (b.exp - 1)
      incLoop min fuel { b with sig, exp }

/-- `increase_significand_to`, big_float.rs:44-57 -/
def increaseTo (fuel : Nat) (min : JsBig) (b : BigFloat) : Res BigFloat :=
  if b.sig.isZero then .ok b else incLoop min fuel b

/-- `shl(m, from_u64(1), from_u64(precision))`, big_float.rs:36-40, 64-68, 129-133 -/
def pow2 (precision : Nat) : Res JsBig := shl (fromU64 .pos 1) (fromU64 .pos precision)

/-- `increase_significand`, big_float.rs:31-42 -/
def increase (fuel precision : Nat) (b : BigFloat) : Res BigFloat :=
  if b.sig.isZero then .ok b
  else do increaseTo fuel (← pow2 precision) b

/-- the loop of `decrease_significand`, big_float.rs:69-79 -/
def decLoop (max : JsBig) : Nat → BigFloat → Res BigFloat
  | 0, _ => .error .fuel
  | fuel + 1, b =>
    if b.sig.compare max = .lt then .ok b
    else do
      let rem := if b.sig.getLastBit = 1 then true else b.rem
      let sig := shrOnU64 b.sig 1
      let exp ← i64 (b.exp + 1)
      decLoop max fuel { b with sig, exp, rem }

/-- `decrease_significand`, big_float.rs:59-80 -/
def decrease (fuel precision : Nat) (b : BigFloat) : Res BigFloat :=
  if b.sig.isZero then .ok b
  else do decLoop (← pow2 precision) fuel b

/-- `BigFloat<10>::to_bin`, big_float.rs:84-148 -/
def toBin (fuel precision : Nat) (b : BigFloat) : Res BigFloat :=
  if b.sig.isZero then .ok zero
  else if b.exp = 0 then do
    let r ← increase fuel precision b
    decrease fuel precision r
  else
    let five := fromU64 .pos 5
    if b.exp > 0 then do
      let sig ← mul b.sig (← powU64 five b.exp.toNat)
      let r ← increase fuel precision { b with sig }
      decrease fuel precision r
    else do
      let p ← powU64 five (← i64 (-b.exp)).toNat
      let min ← pow2 precision
      let bf10 ← increaseTo fuel (← mul p min) b
      let (q, r) ← divMod fuel bf10.sig p
      decrease fuel precision
        { sig := q, sign := b.sign, exp := bf10.exp, rem := b.rem || !r.isZero }

/-- `get_frac_round`, big_float.rs:152-165 -/
def getFracRound (b : BigFloat) : Res Nat := do
  let lastBit := b.sig.getLastBit
  let frac := (← idx b.sig.items 0) / 2
  let lastBit := if lastBit = 1 ∧ !b.rem then frac &&& 1 else lastBit
  return if lastBit = 1 then frac + 1 else frac

/-- `get_f64_bits`, big_float.rs:171-228 (`to_f64`, 167-169) -/
def f64Bits (fuel : Nat) (b : BigFloat) : Res Nat :=
  let bits := if b.sign = .neg then 1 <<< 63 else 0
  if b.sig.isZero then .ok bits
  else do
    let value ← increase fuel (52 + 1) b
    let value ← decrease fuel (52 + 2) value
    let f64Exp ← i64 ((← i64 (value.exp + 52)) + 1)
    if -1022 ≤ f64Exp ∧ f64Exp ≤ 1023 then
      let frac ← getFracRound value
      let (frac, f64Exp) := if frac = 1 <<< 53 then (frac / 2, f64Exp + 1) else (frac, f64Exp)
      let expBits := (f64Exp + 1023).toNat
      let bits := bits ||| (expBits <<< 52) % 2 ^ 64
      return bits ||| (frac &&& (1 <<< 52 - 1))
    else if -1074 ≤ f64Exp ∧ f64Exp ≤ -1023 then
      let value ← decrease fuel (f64Exp + 1076).toNat value
      let frac ← getFracRound value
      return bits ||| frac
    else if f64Exp > 1023 then return bits ||| (2047 <<< 52)
    else return bits

/-- `bigfloat_to_f64`, tokenizer/mod.rs:210-213 -/
def toF64 (fuel : Nat) (b : BigFloat) : Res Nat := do
  f64Bits fuel (← toBin fuel 54 b)

end BigFloat
end Nanvm
