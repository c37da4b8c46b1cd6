import Verif.Model.Parser
/-!
# What a module means

A specification of the language of the parser that does not mention parser states: which token
sequences are values and modules, and what they denote.  Apart from the types of tokens and values
and the encoding of strings (`C58`) nothing of the model is used.
-/
namespace Nanvm
namespace Grammar
open Tok

/-- the names that stand for themselves -/
def reserved : List Text := ["null".toList, "true".toList, "false".toList]

/-- `v` is the value of the last pair with key `k` -/
def LastOf {α : Type} (pairs : List (Text × α)) (k : Text) (v : α) : Prop :=
  ∃ a b, pairs = a ++ (k, v) :: b ∧ ∀ x ∈ b, x.1 ≠ k

/-- `l` has every key of `pairs` once, in order, with the value of its last occurrence -/
def Keyed {α : Type} (pairs l : List (Text × α)) : Prop :=
  (l.map (·.1)).Pairwise (· < ·) ∧ ∀ k v, (k, v) ∈ l ↔ LastOf pairs k v

/-- the members of an object as they are stored -/
def stored (l : List (Text × Val)) : List (JsStr × Val) := l.map fun kv => (toJsString kv.1, kv.2)

/-- a member of an object as written -/
structure Member where
  keyToken : Token
  key : Text
  tokens : List Token
  value : Val

/-- a key is a string or an identifier -/
def Member.KeyOk (m : Member) : Prop := m.keyToken = .string m.key ∨ m.keyToken = .id m.key

/-- `a , b , c` -/
def commas : List (List Token) → List Token
  | [] => []
  | [x] => x
  | x :: xs => x ++ .comma :: commas xs

/-- a comma may follow the last element -/
def trailing : Bool → List Token
  | true => [.comma]
  | false => []

/-- `Value M c ts v`: the tokens are a value, and it is `v`, when `c` gives the values of the
constants and `M` those of the modules -/
inductive Value (M : Text → Val → Prop) (c : Text → Option Val) : List Token → Val → Prop
  | null : Value M c [.id "null".toList] .null
  | true : Value M c [.id "true".toList] (.bool true)
  | false : Value M c [.id "false".toList] (.bool false)
  | num (b : Nat) : Value M c [.number b] (.num b)
  | str (i : Nat) (s : Text) : Value M c [.string s] (.str i (toJsString s))
  | big (i : Nat) (b : JsBig) : Value M c [.bigInt b] (.big i b)
  | ref (n : Text) (v : Val) : n ∉ reserved → c n = some v → Value M c [.id n] v
  | require (s : Text) (v : Val) : M s v →
    Value M c [.id "require".toList, .openingParenthesis, .string s, .closingParenthesis] v
  | arr (i : Nat) (items : List (List Token × Val)) (comma : Bool) :
    (∀ x ∈ items, Value M c x.1 x.2) → (items = [] → comma = false) →
    Value M c (.arrayBegin :: commas (items.map (·.1)) ++ trailing comma ++ [.arrayEnd])
      (.arr i (items.map (·.2)))
  | obj (i : Nat) (members : List Member) (comma : Bool) (l : List (Text × Val)) :
    (∀ m ∈ members, m.KeyOk) → (∀ m ∈ members, Value M c m.tokens m.value) →
    (members = [] → comma = false) →
    Keyed (members.map fun m => (m.key, m.value)) l →
    Value M c
      (.objectBegin :: commas (members.map fun m => m.keyToken :: .colon :: m.tokens) ++
        trailing comma ++ [.objectEnd])
      (.obj i (stored l))

/-- line breaks do not matter inside a value -/
def ValueNl (M : Text → Val → Prop) (c : Text → Option Val) (ts : List Token) (v : Val) : Prop :=
  Value M c (ts.filter (· ≠ .newLine)) v

/-- `c` with `n` bound to `v` -/
def withConst (c : Text → Option Val) (n : Text) (v : Val) : Text → Option Val :=
  fun m => if m = n then some v else c m

/-- `Module M c ts v`: the tokens are the rest of a module, where the constants bound so far are
`c`, and the value of the module is `v` -/
inductive Module (M : Text → Val → Prop) : (Text → Option Val) → List Token → Val → Prop
  | newLine (c ts v) : Module M c ts v → Module M c (.newLine :: ts) v
  | const_ (c n ts w rest v) : ValueNl M c ts w → Module M (withConst c n w) (.newLine :: rest) v →
    Module M c (.id "const".toList :: .id n :: .equals :: ts ++ .newLine :: rest) v
  | import_ (c n s w rest v) : M s w → Module M (withConst c n w) (.newLine :: rest) v →
    Module M c
      (.id "import".toList :: .id n :: .id "from".toList :: .string s :: .newLine :: rest) v
  | exportDefault (c ts v) : ValueNl M c ts v →
    Module M c (.id "export".toList :: .id "default".toList :: ts) v
  | moduleExports (c ts v) : ValueNl M c ts v →
    Module M c (.id "module".toList :: .dot :: .id "exports".toList :: .equals :: ts) v
  | value (c ts v) : ValueNl M c ts v → Module M c ts v

/-- `Denotes read resolve p v`: the module at path `p` has the value `v`, where `read` gives the
tokens of the files and `resolve p s` is the path that `s` stands for in the module at `p`.  A
module has a value only if the modules it imports have values, so that modules that import each
other have none. -/
inductive Denotes (read : Text → Option (List Token)) (resolve : Text → Text → Text) :
    Text → Val → Prop
  | module (p : Text) (ts : List Token) (M : Text → Val → Prop) (v : Val) : read p = some ts →
    Module M (fun _ => none) ts v → (∀ s w, M s w → Denotes read resolve (resolve p s) w) →
    Denotes read resolve p v

/-- the tokens name the module `s`, as in `import a from "s"` or `require("s")` -/
def Imports (ts : List Token) (s : Text) : Prop :=
  [.id "from".toList, .string s] <:+: ts ∨ [.openingParenthesis, .string s] <:+: ts

end Grammar
end Nanvm
