import Verif.Spec.Grammar
/-!
# Source texts as trees

JSON values (with names of constants) as trees, their token sequences, and what they denote.
Nothing of the parser is used.
-/
namespace Nanvm
namespace Grammar
open Tok

/-- a value as it is written -/
inductive Src
  | null
  | bool (b : Bool)
  | num (bits : Nat)
  | str (t : Text)
  | big (b : JsBig)
  /-- the name of a constant -/
  | ref (n : Text)
  | arr (l : List Src)
  | obj (l : List (Text × Src))

theorem sizeOf_member {l : List (Text × Src)} {x : Text × Src} (h : x ∈ l) :
    sizeOf x.2 < sizeOf l := by
  have := List.sizeOf_lt_of_mem h
  have : sizeOf x = 1 + sizeOf x.1 + sizeOf x.2 := by cases x; rfl
  omega

/-- the tokens of a value: `[` values separated by commas `]`, `{` members separated by commas `}` -/
def Src.tokens : Src → List Token
  | .null => [.id "null".toList]
  | .bool b => [.id (if b then "true".toList else "false".toList)]
  | .num b => [.number b]
  | .str t => [.string t]
  | .big b => [.bigInt b]
  | .ref n => [.id n]
  | .arr l => .arrayBegin :: commas (l.map fun x => x.tokens) ++ [.arrayEnd]
  | .obj l =>
    .objectBegin :: commas (l.map fun m => .string m.1 :: .colon :: m.2.tokens) ++ [.objectEnd]
termination_by x => sizeOf x
decreasing_by
  · have := List.sizeOf_lt_of_mem ‹_›; simp; omega
  · have := sizeOf_member ‹_›; simp; omega

theorem Src.ind {P : Src → Prop} (null : P .null) (bool : ∀ b, P (.bool b)) (num : ∀ b, P (.num b))
    (str : ∀ t, P (.str t)) (big : ∀ b, P (.big b)) (ref : ∀ n, P (.ref n))
    (arr : ∀ l, (∀ x ∈ l, P x) → P (.arr l))
    (obj : ∀ l, (∀ x ∈ l, P x.2) → P (.obj l)) : ∀ x, P x
  | .arr l => arr l (fun x _ => Src.ind null bool num str big ref arr obj x)
  | .obj l => obj l (fun x _ => Src.ind null bool num str big ref arr obj x.2)
  | .null => null
  | .bool b => bool b
  | .num b => num b
  | .str t => str t
  | .big b => big b
  | .ref n => ref n
termination_by x => sizeOf x
decreasing_by
  · have := List.sizeOf_lt_of_mem ‹_›; simp; omega
  · have := sizeOf_member ‹_›; simp; omega

/-- the name `n` occurs in a value -/
inductive Src.Uses : Src → Text → Prop
  | ref (n) : Uses (.ref n) n
  | arr (l x n) : x ∈ l → Uses x n → Uses (.arr l) n
  | obj (l) (x : Text × Src) (n) : x ∈ l → Uses x.2 n → Uses (.obj l) n

/-- `x.Is c v`: the written value `x` is the value `v`, when `c` gives the values of the constants.
The numbers of the heap blocks of literals are arbitrary. -/
inductive Src.Is (c : Text → Option Val) : Src → Val → Prop
  | null : Is c .null .null
  | bool (b) : Is c (.bool b) (.bool b)
  | num (b) : Is c (.num b) (.num b)
  | str (i t) : Is c (.str t) (.str i (toJsString t))
  | big (i b) : Is c (.big b) (.big i b)
  | ref (n v) : c n = some v → Is c (.ref n) v
  | arr (i l vs) : l.length = vs.length → (∀ p ∈ l.zip vs, Is c p.1 p.2) → Is c (.arr l) (.arr i vs)
  | obj (i l vs kvs) : l.length = vs.length → (∀ p ∈ l.zip vs, Is c p.1.2 p.2) →
    Keyed ((l.map (·.1)).zip vs) kvs → Is c (.obj l) (.obj i (stored kvs))

/-- `x.Makes c n v m`: when the blocks from number `n` on are free, the written value `x` is the value
`v`, and the blocks from number `m` on are free afterwards.  Every string, bigint, array and object
literal is a new block, numbered in the order in which the literals end; a name makes no block, it
stands for the value of the constant. -/
inductive Src.Makes (c : Text → Option Val) : Src → Nat → Val → Nat → Prop
  | null (n) : Makes c .null n .null n
  | bool (b n) : Makes c (.bool b) n (.bool b) n
  | num (b n) : Makes c (.num b) n (.num b) n
  | str (t n) : Makes c (.str t) n (.str n (toJsString t)) (n + 1)
  | big (b n) : Makes c (.big b) n (.big n b) (n + 1)
  | ref (x v n) : c x = some v → Makes c (.ref x) n v n
  | arr (l vs) (ns : Nat → Nat) : l.length = vs.length →
    (∀ (i : Nat) (x : Src) (v : Val), l[i]? = some x → vs[i]? = some v →
      Makes c x (ns i) v (ns (i + 1))) →
    Makes c (.arr l) (ns 0) (.arr (ns l.length) vs) (ns l.length + 1)
  | obj (l vs kvs) (ns : Nat → Nat) : l.length = vs.length →
    (∀ (i : Nat) (x : Text × Src) (v : Val), l[i]? = some x → vs[i]? = some v →
      Makes c x.2 (ns i) v (ns (i + 1))) →
    Keyed ((l.map (·.1)).zip vs) kvs →
    Makes c (.obj l) (ns 0) (.obj (ns l.length) (stored kvs)) (ns l.length + 1)

/-- `const n = x` -/
structure Stmt where
  name : Text
  value : Src

/-- the last line of a module: `x`, `export default x` or `module.exports = x` -/
inductive Final
  | plain | exportDefault | moduleExports

/-- the tokens before the value -/
def Final.tokens : Final → List Token
  | .plain => []
  | .exportDefault => [.id "export".toList, .id "default".toList]
  | .moduleExports => [.id "module".toList, .dot, .id "exports".toList, .equals]

/-- the tokens before the value of a constant -/
def Stmt.head (s : Stmt) : List Token := [.id "const".toList, .id s.name, .equals]

/-- `Written ss f x ts`: the tokens are a module with the constants `ss`, each on lines of its own,
and the value `x`, possibly with line breaks anywhere within the values -/
inductive Written (f : Final) (x : Src) : List Stmt → List Token → Prop
  | newLine (ss ts) : Written f x ss ts → Written f x ss (.newLine :: ts)
  | final (ts) : ts.filter (· ≠ .newLine) = x.tokens → Written f x [] (f.tokens ++ ts)
  | const_ (s : Stmt) (ss ts rest) : ts.filter (· ≠ .newLine) = s.value.tokens →
    Written f x ss rest → Written f x (s :: ss) (s.head ++ ts ++ .newLine :: rest)

/-- the constants after the statements `ss` are `c'` -/
inductive Defines : (Text → Option Val) → List Stmt → (Text → Option Val) → Prop
  | nil (c) : Defines c [] c
  | cons (c s ss v c') : s.value.Is c v → Defines (withConst c s.name v) ss c' →
    Defines c (s :: ss) c'

/-- the constants after the statements `ss` are `c'`, where the blocks from number `n` on are free
before the statements, and those from number `m` on afterwards -/
inductive Builds : (Text → Option Val) → Nat → List Stmt → (Text → Option Val) → Nat → Prop
  | nil (c n) : Builds c n [] c n
  | cons (c n s ss v k c' m) : s.value.Makes c n v k → Builds (withConst c s.name v) k ss c' m →
    Builds c n (s :: ss) c' m

end Grammar
end Nanvm
