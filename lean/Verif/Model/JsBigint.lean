import Verif.Model.Limbs
/-!
# `js/js_bigint.rs`

A `JsBigint` is a flexible array of limbs whose header stores `±len`; the sign is
the sign of that header, so a zero-length bigint is always positive.
The memory manager argument `m` is not modelled here.
-/
namespace Nanvm

/-- `Sign`, js_bigint.rs:18-22 -/
inductive Sign | pos | neg
deriving Repr, DecidableEq

/-- `Sign::opposite`, js_bigint.rs:79-86 -/
def Sign.opposite : Sign → Sign
  | .pos => .neg
  | .neg => .pos

/-- `Sign as isize` -/
def Sign.toInt : Sign → Int
  | .pos => 1
  | .neg => -1

/-- `JsBigint = FlexibleArray<u64, JsBigintHeader>`, js_bigint.rs:24-40 -/
structure JsBig where
  /-- `header.len` -/
  len : Int
  items : List Nat
deriving Repr, DecidableEq

namespace JsBig

/-- `new_bigint`, js_bigint.rs:65-77 -/
def new (sign : Sign) (items : List Nat) : JsBig := ⟨items.length * sign.toInt, items⟩

/-- `sign`, js_bigint.rs:476-484 -/
def sign (b : JsBig) : Sign := if b.len < 0 then .neg else .pos

/-- `zero`, js_bigint.rs:88-90 -/
def zero : JsBig := new .pos []

/-- `from_u64`, js_bigint.rs:92-97 -/
def fromU64 (s : Sign) (n : Nat) : JsBig := if n = 0 then zero else new s [n]

/-- `is_zero`, js_bigint.rs:125-127 -/
def isZero (b : JsBig) : Bool := b.items.isEmpty

/-- `not`, js_bigint.rs:99-111 -/
def not (v : JsBig) : JsBig :=
  if v.isZero then fromU64 .neg 1
  else match v.sign with
    | .pos => new .neg (addVec v.items [1])
    | .neg => new .pos (normalizeVec (subVec v.items [1]))

/-- `add`, js_bigint.rs:113-123 -/
def add (l r : JsBig) : JsBig :=
  if l.sign = r.sign then new l.sign (addVec l.items r.items)
  else match cmpVec l.items r.items with
    | .eq => zero
    | .gt => new l.sign (subVecNorm l.items r.items)
    | .lt => new r.sign (subVecNorm r.items l.items)

/-- `JsBigint::compare`, js_bigint.rs:130-136 -/
def compare (l r : JsBig) : Ordering :=
  match Ord.compare l.len r.len with
  | .eq => cmpVec l.items r.items
  | .lt => .lt
  | .gt => .gt

/-- `get_last_bit`, js_bigint.rs:138-143 -/
def getLastBit (b : JsBig) : Nat :=
  match b.items with
  | [] => 0
  | d :: _ => d &&& 1

/-- `negative`, js_bigint.rs:146-151 -/
def negative (v : JsBig) : JsBig :=
  if v.isZero then zero else new v.sign.opposite v.items

/-- `sub`, js_bigint.rs:153-167 -/
def sub (l r : JsBig) : JsBig :=
  if l.sign ≠ r.sign then new l.sign (addVec l.items r.items)
  else match cmpVec l.items r.items with
    | .eq => zero
    | .gt => new l.sign (subVecNorm l.items r.items)
    | .lt => new r.sign.opposite (subVecNorm r.items l.items)

/-- the sign of products and quotients, js_bigint.rs:173-176, 217-220 -/
def mulSign (l r : JsBig) : Sign := if l.sign = r.sign then .pos else .neg

/-- `mul`, js_bigint.rs:169-178 -/
def mul (l r : JsBig) : Res JsBig :=
  if l.isZero || r.isZero then .ok zero
  else do return new (mulSign l r) (← mulVec l.items r.items)

/-- the quotient digit estimate of one division step, js_bigint.rs:233-248
(same code big_uint.rs:117-134): `(q_index, q_digit)`; a top limb that is zero (which only a
number with leading zeros has, such as `BigUint::from_u64(0)`) makes `a_high / b_high` panic -/
def qEstimate (a b : List Nat) : Res (Nat × Nat) := do
  let aHighDigit ← subU a.length 1
  let bHighDigit ← subU b.length 1
  let aHigh ← idx a aHighDigit
  let bHigh ← idx b bHighDigit
  if bHigh ≤ aHigh then
    return (← subU aHighDigit bHighDigit, ← divU aHigh bHigh)
  else
    let i ← subU aHighDigit 1
    let aHigh2 := aHigh * B + (← idx a i)
    return (← subU (← subU aHighDigit bHighDigit) 1, aHigh2 / bHigh % B)

/-- one iteration of the division loop after the exit test, js_bigint.rs:233-258:
new `(a, result)` -/
def divStep (a b result : List Nat) : Res (List Nat × List Nat) := do
  let (qIndex, qDigit) ← qEstimate a b
  let q := List.replicate qIndex 0 ++ [qDigit]
  let m ← mulVec b q
  if lexCmp a m = .lt then
    let q := List.replicate qIndex 0 ++ [← subU qDigit 1]
    let m ← mulVec b q
    return (normalizeVec (subVec a m), addVec result q)
  else
    return (normalizeVec (subVec a m), addVec result q)

/-- the loop of `div_mod`, js_bigint.rs:229-259, `fuel` bounds the iterations -/
def divLoop (b : List Nat) : Nat → List Nat → List Nat → Res (List Nat × List Nat)
  | 0, _, _ => .error .fuel
  | fuel + 1, a, result =>
    if cmpVec a b = .lt then .ok (result, a)
    else do
      let (a', result') ← divStep a b result
      divLoop b fuel a' result'

/-- `div_mod`, js_bigint.rs:208-262 -/
def divMod (fuel : Nat) (l r : JsBig) : Res (JsBig × JsBig) :=
  if r.isZero then .error (.panic .explicit)
  else
    let sign := mulSign l r
    match cmpVec l.items r.items with
    | .lt => .ok (zero, new sign r.items)
    | .eq => .ok (fromU64 sign 1, zero)
    | .gt => do
      let (q, a) ← divLoop r.items fuel l.items []
      return (new sign q, new sign a)

/-- the loop of `pow_u64`, js_bigint.rs:300-309; 65 iterations suffice for a `u64` -/
def powLoop : Nat → List Nat → List Nat → Nat → Res (List Nat)
  | 0, _, _, _ => .error .fuel
  | fuel + 1, res, b, e =>
    if e = 0 then .ok res
    else do
      let res ← if e &&& 1 > 0 then mulVec res b else pure res
      let b ← mulVec b b
      powLoop fuel res b (e / 2)

/-- `pow_u64`, js_bigint.rs:292-310 -/
def powU64 (l : JsBig) (e : Nat) : Res JsBig := do
  let sign := if l.sign = .pos ∨ e &&& 1 = 0 then Sign.pos else Sign.neg
  return new sign (← powLoop 65 [1] l.items e)

/-- `pow`, js_bigint.rs:264-290 -/
def pow (l r : JsBig) : Res JsBig :=
  if r.sign = .neg then .error (.panic .explicit)
  else if l.items = [1] then .ok (fromU64 .pos 1)
  else if l.isZero then .ok (if r.isZero then fromU64 .pos 1 else zero)
  else if r.isZero then .ok (fromU64 .pos 1)
  else match r.items with
    | [e] => powU64 l e
    | _ => .error (.panic .explicit)

/-- `shr_on_big`, js_bigint.rs:605-610 -/
def shrOnBig : Sign → JsBig
  | .pos => zero
  | .neg => fromU64 .neg 1

/-- `shl_on_u64`, js_bigint.rs:550-573; `0..=len - 1` underflows for an empty vector -/
def shlOnU64 (l : JsBig) (n : Nat) : Res JsBig :=
  let s := n &&& 63
  if s > 0 ∧ l.items = [] then .error (.panic .overflow)
  else
    let vec := if s > 0 then shlLoop s l.items else l.items
    let zeros := n / 64
    let vec := if zeros > 0 then List.replicate zeros 0 ++ vec else vec
    .ok (new l.sign (normalizeVec vec))

/-- `shr_on_u64`, js_bigint.rs:575-603 -/
def shrOnU64 (l : JsBig) (n : Nat) : JsBig :=
  let remove := n / 64
  if remove ≥ l.items.length then shrOnBig l.sign
  else
    let vec := l.items.drop remove
    let s := n &&& 63
    let vec := if s > 0 then shrLoop s (2 ^ (s - 1)) vec else vec
    let vec := normalizeVec vec
    if vec.isEmpty ∧ l.sign = .neg then fromU64 .neg 1
    else new l.sign vec

/-- `shl`, js_bigint.rs:333-353 -/
def shl (l r : JsBig) : Res JsBig :=
  if l.isZero then .ok zero
  else if r.isZero then .ok (new l.sign l.items)
  else match r.items with
    | [n] => match r.sign with
      | .pos => shlOnU64 l n
      | .neg => .ok (shrOnU64 l n)
    | _ => match r.sign with
      | .pos => .error (.panic .explicit)
      | .neg => .ok (shrOnBig l.sign)

/-- `shr`, js_bigint.rs:355-375 -/
def shr (l r : JsBig) : Res JsBig :=
  if l.isZero then .ok zero
  else if r.isZero then .ok (new l.sign l.items)
  else match r.items with
    | [n] => match r.sign with
      | .pos => .ok (shrOnU64 l n)
      | .neg => shlOnU64 l n
    | _ => match r.sign with
      | .pos => .ok (shrOnBig l.sign)
      | .neg => .error (.panic .explicit)

/-- `equals`, js_bigint.rs:377-382 -/
def equals (l r : JsBig) : Bool :=
  if l.sign ≠ r.sign then false else cmpVec l.items r.items == .eq

/-- `!d` on `u64` -/
def notLimb (d : Nat) : Nat := B - 1 - d

/-- `TwosComplement`, js_bigint.rs:29-32 -/
structure TwosC where
  sign : Sign
  vec : List Nat
deriving Repr, DecidableEq

/-- `TwosComplement::repeat`, js_bigint.rs:57-62 -/
def TwosC.rep (t : TwosC) : Nat :=
  match t.sign with
  | .pos => 0
  | .neg => B - 1

/-- `to_twos_complement`, js_bigint.rs:384-399 -/
def toTwos (v : JsBig) : TwosC :=
  { sign := v.sign
    vec := match v.sign with
      | .pos => v.items
      | .neg => (subVec v.items [1]).map notLimb }

/-- `from_twos_complement`, js_bigint.rs:401-417 -/
def fromTwos (t : TwosC) : JsBig :=
  match t.sign with
  | .pos => new .pos t.vec
  | .neg =>
    let res := normalizeVec ((subVec t.vec [1]).map notLimb)
    if res.isEmpty then fromU64 .neg 1 else new .neg res

/-- `twos_complement_zip`, js_bigint.rs:458-474: the longer vector first -/
def twosZip (l r : TwosC) : List (Nat × Nat) :=
  if r.vec.length > l.vec.length then zipPad l.rep r.vec l.vec
  else zipPad r.rep l.vec r.vec

/-- `and_twos_complement`, js_bigint.rs:419-430 -/
def andTwos (l r : TwosC) : TwosC :=
  { sign := if l.sign = .neg ∧ r.sign = .neg then .neg else .pos
    vec := normalizeVec ((twosZip l r).map fun p => p.1 &&& p.2) }

/-- `or_twos_complement`, js_bigint.rs:432-443 -/
def orTwos (l r : TwosC) : TwosC :=
  { sign := if l.sign = .neg ∨ r.sign = .neg then .neg else .pos
    vec := normalizeVec ((twosZip l r).map fun p => p.1 ||| p.2) }

/-- `xor_twos_complement`, js_bigint.rs:445-456 -/
def xorTwos (l r : TwosC) : TwosC :=
  { sign := if l.sign = r.sign then .pos else .neg
    vec := normalizeVec ((twosZip l r).map fun p => p.1 ^^^ p.2) }

/-- `and`, js_bigint.rs:312-317 -/
def and (l r : JsBig) : JsBig := fromTwos (andTwos (toTwos l) (toTwos r))
/-- `or`, js_bigint.rs:319-324 -/
def or (l r : JsBig) : JsBig := fromTwos (orTwos (toTwos l) (toTwos r))
/-- `xor`, js_bigint.rs:326-331 -/
def xor (l r : JsBig) : JsBig := fromTwos (xorTwos (toTwos l) (toTwos r))

end JsBig
end Nanvm
