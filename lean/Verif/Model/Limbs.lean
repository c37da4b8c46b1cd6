import Verif.Model.Err
/-!
# Limb vectors (`Vec<u64>`, least significant limb first)

Models the private vector helpers of `js/js_bigint.rs` (and the identical loops
inlined in `big_numbers/big_uint.rs`).  A limb is a `Nat`; the code's `as u64`
is `% B`, `>> 64` is `/ B`.  All inputs that can occur in the code satisfy
"every limb `< B`"; the lemmas prove that every function preserves this.
-/
namespace Nanvm

/-- `2^64` -/
def B : Nat := 18446744073709551616

/-- `2^128`, the capacity of the `u128` intermediates -/
def B2 : Nat := 340282366920938463463374607431768211456

/-- `Iterator::zip(a, b.chain(repeat(c)))`: as long as `a`.
js_bigint.rs:467, 472, 493, 497, 520; big_uint.rs:160-167, 189 -/
def zipPad (c : Nat) : List Nat → List Nat → List (Nat × Nat)
  | [], _ => []
  | a :: as, [] => (a, c) :: zipPad c as []
  | a :: as, b :: bs => (a, b) :: zipPad c as bs

/-- the loop of `add_vec`, js_bigint.rs:499-507 (same loop big_uint.rs:169-176) -/
def addLoop : List (Nat × Nat) → Nat → List Nat
  | [], carry => if carry ≠ 0 then [carry % B] else []
  | (a, b) :: r, carry => (a + b + carry) % B :: addLoop r ((a + b + carry) / B)

/-- `add_vec`, js_bigint.rs:486-508 -/
def addVec (lhs rhs : List Nat) : List Nat :=
  addLoop (if rhs.length > lhs.length then zipPad 0 rhs lhs else zipPad 0 lhs rhs) 0

/-- the loop of `sub_vec`, js_bigint.rs:521-525: `next as u64` is `% 2^64` of the
(possibly negative) `i128`, `next >> 64 & 1` is floor division then parity. -/
def subLoop : List (Nat × Nat) → Int → List Nat
  | [], _ => []
  | (a, b) :: r, borrow =>
    let next : Int := (a : Int) - b - borrow
    (next % (B : Int)).toNat :: subLoop r ((next / (B : Int)) % 2)

/-- `sub_vec`, js_bigint.rs:514-527 -/
def subVec (lhs rhs : List Nat) : List Nat := subLoop (zipPad 0 lhs rhs) 0

/-- `normalize_vec`, js_bigint.rs:529-534: pop trailing (most significant) zeros -/
def normalizeVec (v : List Nat) : List Nat := (v.reverse.dropWhile (· == 0)).reverse

/-- `sub_vec_norm`, js_bigint.rs:510-512 -/
def subVecNorm (lhs rhs : List Nat) : List Nat := normalizeVec (subVec lhs rhs)

/-- the loop of `cmp_vec` over the reversed limb sequences, js_bigint.rs:542-547 -/
def cmpHigh : List Nat → List Nat → Ordering
  | a :: as, b :: bs => if a ≠ b then compare a b else cmpHigh as bs
  | _, _ => .eq

/-- `cmp_vec`, js_bigint.rs:536-548 -/
def cmpVec (lhs rhs : List Nat) : Ordering :=
  if lhs.length ≠ rhs.length then compare lhs.length rhs.length
  else cmpHigh lhs.reverse rhs.reverse

/-- `Vec<u64>: Ord` — lexicographic from index 0 (std), used at js_bigint.rs:252 -/
def lexCmp : List Nat → List Nat → Ordering
  | [], [] => .eq
  | [], _ :: _ => .lt
  | _ :: _, [] => .gt
  | a :: as, b :: bs => if a < b then .lt else if a > b then .gt else lexCmp as bs

/-- `add_to_vec`, js_bigint.rs:198-206: index panic when the carry runs past the
end, overflow panic if the `u128` sum overflows.  (The recursion on `index + 1`
is written as recursion on the tail of the vector.) -/
def addToVec : List Nat → Nat → Nat → Res (List Nat)
  | [], _, _ => .error (.panic .index)
  | d :: ds, 0, add =>
    if d + add ≥ B2 then .error (.panic .overflow)
    else if (d + add) / B > 0 then do
      let r ← addToVec ds 0 ((d + add) / B)
      return (d + add) % B :: r
    else .ok ((d + add) % B :: ds)
  | d :: ds, i + 1, add => do
    let r ← addToVec ds i add
    return d :: r

/-- body of the inner `while` of `mul_vec`, js_bigint.rs:190 -/
def mulStep (lhs rhs : List Nat) (i : Nat) (vec : List Nat) (j : Nat) : Res (List Nat) := do
  let a ← idx lhs j
  let b ← idx rhs (i - j)
  addToVec vec i (a * b)

/-- the inner `while` of `mul_vec` for one `i`, js_bigint.rs:187-192 -/
def mulColumn (lhs rhs : List Nat) (vec : List Nat) (i : Nat) : Res (List Nat) :=
  let lhsMax := lhs.length - 1
  let rhsMax := rhs.length - 1
  let j := i - rhsMax            -- `saturating_sub`
  let max := if i < lhsMax then i else lhsMax
  (List.range' j (max + 1 - j)).foldlM (mulStep lhs rhs i) vec

/-- `mul_vec`, js_bigint.rs:180-196 (same code big_uint.rs:238-262).
`len() - 1` underflows for an empty operand. -/
def mulVec (lhs rhs : List Nat) : Res (List Nat) := do
  let lhsMax ← subU lhs.length 1
  let rhsMax ← subU rhs.length 1
  let totalMax := lhsMax + rhsMax + 1
  let vec ← (List.range totalMax).foldlM (mulColumn lhs rhs) (List.replicate (totalMax + 1) 0)
  return normalizeVec vec

/-- the loop of `shl_on_u64`, js_bigint.rs:555-561, for `shift_mod = s`.  The code
pushes a zero limb and then updates indices `len-1 … 0` in place; limb `i` sends its
high bits to limb `i+1`, which was already shifted. -/
def shlLoop (s : Nat) : List Nat → List Nat
  | [] => [0]
  | d :: ds =>
    match shlLoop s ds with
    | [] => []  -- not reachable: the vector has one limb more than the input
    | h :: t => (d * 2 ^ s) % B :: (h ||| (d * 2 ^ s) / B) :: t

/-- the loop of `shr_on_u64`, js_bigint.rs:588-595, for `shift_mod = s` and the
`mask` computed by the code. -/
def shrLoop (s mask : Nat) : List Nat → List Nat
  | [] => []
  | [d] => [d / 2 ^ s]
  | d :: e :: ds => (d / 2 ^ s ||| ((e &&& mask) * 2 ^ (64 - s)) % B) :: shrLoop s mask (e :: ds)

end Nanvm
