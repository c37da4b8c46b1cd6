import Verif.Model.Serializer
/-!
# `Any::for_each`, `js/any.rs:94-118`

Simplifications:
* The closure `f` has access to variables outside; it is a function of a key, a value and the state
  `S` of those variables.
* A key that is a string is the string; its block has no number in `Val`.
* `k as f64` is exact for `k < 2^53`; an array with more items would need `2^56` bytes.  The
  conversion of larger numbers, which rounds, is not modelled.
* The clone of the array or object, which keeps it alive during the loop, is left out.
-/
namespace Nanvm

/-- the first argument of the closure: a string or a number (its bits), any.rs:104, 110 -/
inductive Key | name (s : JsStr) | index (bits : Nat)
deriving Repr, DecidableEq

/-- `k as f64` for `k < 2^53`, any.rs:110 -/
def usizeAsF64 (k : Nat) : Nat :=
  if k = 0 then 0 else (Nat.log2 k + 1022) * 2 ^ 52 + k * 2 ^ (52 - Nat.log2 k)

section
variable {S E : Type} (f : Key → Val → S → Except E Unit × S)

/-- the loop over an object, any.rs:103-105; `?` returns at the first error -/
def forEachMembers : List (JsStr × Val) → S → Except E Unit × S
  | [], s => (.ok (), s)
  | (k, v) :: l, s =>
    match f (.name k) v s with
    | (.ok _, s) => forEachMembers l s
    | (.error e, s) => (.error e, s)

/-- the loop over an array, any.rs:109-111; `k` counts as `enumerate` does -/
def forEachItems (k : Nat) : List Val → S → Except E Unit × S
  | [], s => (.ok (), s)
  | v :: l, s =>
    match f (.index (usizeAsF64 k)) v s with
    | (.ok _, s) => forEachItems (k + 1) l s
    | (.error e, s) => (.error e, s)

/-- `Any::for_each`, any.rs:96-118 -/
def forEach (v : Val) (s : S) : Except E Unit × S :=
  match v with
  | .obj _ l => forEachMembers f l s
  | .arr _ l => forEachItems f 0 l s
  | _ => (.ok (), s)

end
end Nanvm
