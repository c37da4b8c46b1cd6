import Verif.Model.Tokenizer
import Verif.Model.BigInt
import Verif.Model.Layout
/-!
# Release builds

`cargo build --release` compiles `+`, `-`, `*` on integers without the overflow check: the result
wraps.  The other models follow the debug build, where an overflow is the panic
`Panic.overflow`; this file has the functions of them that can overflow, with wrapping results.

Simplified: the conversion `conv` of a decimal number (`BigFloat10 → f64`) is a parameter as in
the model of the tokenizer; `ReleaseFloat.lean` has it.  The subtractions in the divisions of big integers are not here.
-/
namespace Nanvm

/-- the result of an `i64` operation that wraps -/
def wrap64 (x : Int) : Int := (x + 2 ^ 63) % 2 ^ 64 - 2 ^ 63

/-- `usize` addition that wraps -/
def addUR (a b : Nat) : Nat := (a + b) % 2 ^ 64

/-- `usize` multiplication that wraps -/
def mulUR (a b : Nat) : Nat := a * b % 2 ^ 64

/-- `from_i64`, big_int.rs:66-78: the product wraps and is then cast to `u64` -/
def BInt.fromI64R (n : Int) : BInt :=
  let sign := if n < 0 then Sign.neg else Sign.pos
  ⟨sign, [(wrap64 (n * sign.toInt) % 2 ^ 64).toNat]⟩

/-- `shl_on_u64`, js_bigint.rs:550-573: for an empty vector `len - 1` is `usize::MAX`, and the
first `vec[i]` (line 557) is out of range -/
def JsBig.shlOnU64R (l : JsBig) (n : Nat) : Res JsBig :=
  let s := n &&& 63
  if s > 0 ∧ l.items = [] then .error (.panic .index)
  else
    let vec := if s > 0 then shlLoop s l.items else l.items
    let zeros := n / 64
    let vec := if zeros > 0 then List.replicate zeros 0 ++ vec else vec
    .ok (new l.sign (normalizeVec vec))

namespace RangeMap

/-- `n - 1` on `u32` -/
def predR (n : Nat) : Nat := (n + (2 ^ 32 - 1)) % 2 ^ 32

/-- `from_range`, range_map.rs:165-179 -/
def fromRangeR {T : Type} (start stop : Nat) (value : T) : List (Entry (Option T)) :=
  let p := predR start
  let key := if validChar p then p else start
  [(key, none), (stop, some value)]

/-- `from_one`, range_map.rs:181-202 -/
def fromOneR {T : Type} (c : Nat) (value : T) : List (Entry (Option T)) :=
  let p := predR c
  if validChar p then [(p, none), (c, some value)]
  else [(c, some value)]

end RangeMap

/-- `flexible_size`, flexible_array/mod.rs:40-42; `FLEXIBLE_HEADER_LAYOUT` is a constant, and
the compiler rejects a constant that overflows in every build -/
def flexibleSizeR (t i : TypeInfo) (len : Nat) : Res Nat := do
  return addUR (← flexHeaderLayout t i).size (mulUR len i.size)

namespace Tok
open RangeMap

/-- `FloatState::add_digit`, lines 281-285 -/
def FloatState.addDigitR (f : FloatState) (c : Char) : Res FloatState := do
  return { f with b := ← Tok.addDigit f.b c, fe := wrap64 (f.fe - 1) }

/-- `ExpState::add_digit`, lines 320-323; the character is a digit -/
def ExpState.addDigitR (x : ExpState) (c : Char) : Res ExpState := do
  let d ← digitToNumber c
  return { x with e := wrap64 (wrap64 (x.e * 10) + d) }

/-- `exp_state_into_token`, lines 326-342 -/
def expTokenR (conv : BigFloat → Res Nat) (x : ExpState) : Res Token := do
  let e := match x.es with
    | .pos => x.e
    | .neg => wrap64 (-x.e)
  return .number (← conv ⟨x.b, x.s, wrap64 (x.fe + e), false⟩)

/-- `TokenizerState::push`, lines 85-130.  The five states that count or convert an exponent have
closures that can wrap; `transfer_state` only pushes to `Initial` and `ParseString`, so the inner
push is the one of the debug build. -/
def pushR (conv : BigFloat → Res Nat) (st : State) (c : Char) : Res Out :=
  match st with
  -- lines 757-772
  | .parseFracBegin i => do
    match ← lookup fracBeginMap c with
    | none => invalidNumber (push conv) c
    | some .digit => return ([], .parseFrac (← i.intoFloat.addDigitR c))
  -- lines 774-805
  | .parseFrac f => do
    match ← lookup fracMap c with
    | none => invalidNumber (push conv) c
    | some .digit => return ([], .parseFrac (← f.addDigitR c))
    | some .exp => return ([], .parseExpBegin f.intoExp)
    | some .terminal => transfer (push conv) [← floatToken conv f] .initial c
  -- lines 826-858
  | .parseExpBegin x => do
    match ← lookup expBeginMap c with
    | none => invalidNumber (push conv) c
    | some .digit => return ([], .parseExp (← x.addDigitR c))
    | some .plus => return ([], .parseExpSign x)
    | some .minus => return ([], .parseExpSign { x with es := .neg })
    | some .terminal => transfer (push conv) [← expTokenR conv x] .initial c
  -- lines 111-113, 860-880
  | .parseExpSign x => do
    match ← lookup expMap c with
    | none => invalidNumber (push conv) c
    | some .digit => return ([], .parseExp (← x.addDigitR c))
    | some .terminal => transfer (push conv) [← expTokenR conv x] .initial c
  | .parseExp x => do
    match ← lookup expMap c with
    | none => invalidNumber (push conv) c
    | some .digit => return ([], .parseExp (← x.addDigitR c))
    | some .terminal => transfer (push conv) [← expTokenR conv x] .initial c
  | st => push conv st c

/-- `TokenizerState::end`, lines 143-174 -/
def endTokensR (conv : BigFloat → Res Nat) (st : State) : Res (List Token) :=
  match st with
  | .parseExp x => do return [← expTokenR conv x]
  | st => endTokens conv st

/-- pushing the characters of a text one after the other -/
def runR (conv : BigFloat → Res Nat) (st : State) : Text → Res Out
  | [] => .ok ([], st)
  | c :: cs => do
    let (a, st) ← pushR conv st c
    let (b, st) ← runR conv st cs
    return (a ++ b, st)

/-- `tokenize`, lines 1034-1036 -/
def tokenizeR (conv : BigFloat → Res Nat) (input : Text) : Res (List Token) := do
  let (ts, st) ← runR conv .initial input
  return ts ++ (← endTokensR conv st)

end Tok
end Nanvm
