import Verif.Model.JsBigint
/-!
# `big_numbers/big_uint.rs`

A `BigUint` is its limb vector (`pub value: Vec<u64>`), big_uint.rs:11-14.
-/
namespace Nanvm
namespace BigUint

/-- `from_u64`, big_uint.rs:47-49 (also `BigInt::from_u64`): no zero test -/
def fromU64 (n : Nat) : List Nat := [n]

/-- `is_zero`/`is_empty`, big_uint.rs:39-45 -/
def isZero (a : List Nat) : Bool := a.isEmpty

/-- `one`, big_uint.rs:19-21 -/
def one : List Nat := [1]

/-- `is_one`, big_uint.rs:29-31 -/
def isOne (a : List Nat) : Bool := a.length == 1 && a[0]? == some 1

/-- `get_last_bit`, big_uint.rs:90-96 -/
def getLastBit (a : List Nat) : Nat :=
  match a with
  | [] => 0
  | d :: _ => d &&& 1

/-- `Ord::cmp`, big_uint.rs:214-236 (the code of `cmp_vec`) -/
def cmp (a b : List Nat) : Ordering := cmpVec a b

/-- `Add`, big_uint.rs:151-179 (the code of `add_vec`) -/
def add (a b : List Nat) : List Nat := addVec a b

/-- `Sub`, big_uint.rs:181-206: saturating -/
def sub (a b : List Nat) : List Nat :=
  match cmp a b with
  | .lt => []
  | .eq => []
  | .gt => normalizeVec (subVec a b)

/-- `Mul`, big_uint.rs:238-265 -/
def mul (a b : List Nat) : Res (List Nat) :=
  if isZero a || isZero b then .ok [] else mulVec a b

/-- one iteration of the division loop, big_uint.rs:117-144 -/
def divStep (a b result : List Nat) : Res (List Nat × List Nat) := do
  let (qIndex, qDigit) ← JsBig.qEstimate a b
  let q := List.replicate qIndex 0 ++ [qDigit]
  let m ← mul b q
  if cmp a m = .lt then
    let q := List.replicate qIndex 0 ++ [← subU qDigit 1]
    let m ← mul b q
    return (sub a m, add result q)
  else
    return (sub a m, add result q)

/-- the loop of `div_mod`, big_uint.rs:113-145 -/
def divLoop (b : List Nat) : Nat → List Nat → List Nat → Res (List Nat × List Nat)
  | 0, _, _ => .error .fuel
  | fuel + 1, a, result =>
    if cmp a b = .lt then .ok (result, a)
    else do
      let (a', result') ← divStep a b result
      divLoop b fuel a' result'

/-- `div_mod`, big_uint.rs:102-148 -/
def divMod (fuel : Nat) (a b : List Nat) : Res (List Nat × List Nat) :=
  if isZero b then .error (.panic .explicit)
  else match cmp a b with
    | .lt => .ok ([], a)
    | .eq => .ok ([1], [])
    | .gt => divLoop b fuel a []

/-- `Div`, big_uint.rs:267-278 -/
def div (fuel : Nat) (a b : List Nat) : Res (List Nat) :=
  if isZero b then .error (.panic .explicit)
  else do
    let (res, _) ← divMod fuel a b
    return res

/-- the loop of `pow_u64`, big_uint.rs:78-87 -/
def powLoop : Nat → List Nat → List Nat → Nat → Res (List Nat)
  | 0, _, _, _ => .error .fuel
  | fuel + 1, res, b, e =>
    if e = 0 then .ok res
    else do
      let res ← if e &&& 1 > 0 then mul res b else pure res
      let b ← mul b b
      powLoop fuel res b (e / 2)

/-- `pow_u64`, big_uint.rs:75-88 -/
def powU64 (a : List Nat) (e : Nat) : Res (List Nat) := powLoop 65 [1] a e

/-- `pow`, big_uint.rs:51-73 -/
def pow (a e : List Nat) : Res (List Nat) :=
  if a = [1] then .ok [1]
  else if isZero a then .ok (if isZero e then [1] else [])
  else if isZero e then .ok [1]
  else match e with
    | [n] => powU64 a n
    | _ => .error (.panic .explicit)

/-- `Shl`, big_uint.rs:280-316 -/
def shl (a r : List Nat) : Res (List Nat) :=
  if isZero a || isZero r then .ok a
  else match r with
    | [n] =>
      let s := n &&& 63
      let v := if s > 0 then shlLoop s a else a
      let zeros := n / 64
      let v := if zeros > 0 then List.replicate zeros 0 ++ v else v
      .ok (normalizeVec v)
    | _ => .error (.panic .explicit)

/-- `Shr`, big_uint.rs:318-352: only the first limb of the shift amount is used -/
def shr (a r : List Nat) : List Nat :=
  if isZero a then a
  else match r with
    | [] => a
    | n :: _ =>
      let remove := n / 64
      if remove ≥ a.length then []
      else
        let v := a.drop remove
        let s := n &&& 63
        let v := if s > 0 then shrLoop s (2 ^ (s - 1)) v else v
        normalizeVec v

end BigUint
end Nanvm
