import Verif.Spec.Grammar
/-!
# Exactly which modules are accepted

A grammar for the token sequences that the parser accepts, without parser states.  It is narrower
than the language of `Spec/Grammar.lean`: what is allowed depends on the kind of the module that is
known so far (`DataType`) and on the place of a value.
-/
namespace Nanvm
namespace Grammar
open Tok
open Parser (DataType)

/-- where a value stands: on its own or as the value of a member, as the first element of an array,
or as a later element -/
inductive Place | single | first | later
deriving DecidableEq

/-- where `require` is a word of the language; elsewhere it is a name like any other -/
def RequireAllowed : Place → DataType → Prop
  | .single, k => k ≠ .mjs
  | .first, _ => False
  | .later, k => k = .cjs

/-- a key is a string; the first one may be an identifier, unless the text may still be JSON -/
def KeyAllowed (first : Bool) (k : DataType) (t : Token) : Prop :=
  (∃ s, t = .string s) ∨ first = true ∧ k ≠ .json ∧ ∃ s, t = .id s

/-- the parts of a value: a value, what follows `[` or a comma in an array, what follows `{` or a
comma in an object -/
inductive Part
  | value (p : Place)
  | elements (p : Place)
  | members (first : Bool)

/-- `Accepted X b part k ts k'`: the tokens are such a part, where the modules `X` can be loaded, the
names `b` are defined, and the kind of the module is `k` before and `k'` afterwards -/
inductive Accepted (X b : Text → Prop) : Part → DataType → List Token → DataType → Prop
  | literal (p k n) : n ∈ reserved → Accepted X b (.value p) k [.id n] k
  | num (p k x) : Accepted X b (.value p) k [.number x] k
  | str (p k s) : Accepted X b (.value p) k [.string s] k
  | big (p k x) : Accepted X b (.value p) k [.bigInt x] k
  | name (p k n) : n ∉ reserved → b n → ¬ (n = "require".toList ∧ RequireAllowed p k) →
    Accepted X b (.value p) k [.id n] k
  | require (p k s) : RequireAllowed p k → X s →
    Accepted X b (.value p) k
      [.id "require".toList, .openingParenthesis, .string s, .closingParenthesis] .cjs
  | array (p k ts k') : Accepted X b (.elements .first) k ts k' →
    Accepted X b (.value p) k (.arrayBegin :: ts) k'
  | object (p k ts k') : Accepted X b (.members true) k ts k' →
    Accepted X b (.value p) k (.objectBegin :: ts) k'
  | noElement (p k) : Accepted X b (.elements p) k [.arrayEnd] k
  | lastElement (p k x k') : Accepted X b (.value p) k x k' →
    Accepted X b (.elements p) k (x ++ [.arrayEnd]) k'
  | element (p k x k1 ts k') : Accepted X b (.value p) k x k1 →
    Accepted X b (.elements .later) k1 ts k' →
    Accepted X b (.elements p) k (x ++ .comma :: ts) k'
  | noMember (f k) : Accepted X b (.members f) k [.objectEnd] k
  | lastMember (f k t x k') : KeyAllowed f k t → Accepted X b (.value .single) k x k' →
    Accepted X b (.members f) k (t :: .colon :: x ++ [.objectEnd]) k'
  | member (f k t x k1 ts k') : KeyAllowed f k t → Accepted X b (.value .single) k x k1 →
    Accepted X b (.members false) k1 ts k' →
    Accepted X b (.members f) k (t :: .colon :: x ++ .comma :: ts) k'

/-- a value on its own, with line breaks anywhere -/
def AcceptedValue (X b : Text → Prop) (k : DataType) (ts : List Token) (k' : DataType) : Prop :=
  Accepted X b (.value .single) k (ts.filter (· ≠ .newLine)) k'

/-- a word that begins a line, other than the value of the module -/
def BeginsLine (k : DataType) (t : Token) : Prop :=
  t = .id "const".toList ∨ t = .id "export".toList ∧ k ≠ .cjs ∨
  t = .id "module".toList ∧ k ≠ .mjs ∨ t = .id "import".toList ∧ k ≠ .cjs

/-- `AcceptedModule X b k ts k'`: the tokens are the rest of a module, from the begin of a line on -/
inductive AcceptedModule (X : Text → Prop) :
    (Text → Prop) → DataType → List Token → DataType → Prop
  | newLine (b k ts k') : AcceptedModule X b k ts k' → AcceptedModule X b k (.newLine :: ts) k'
  | const_ (b k n ts k1 rest k') : AcceptedValue X b .djs ts k1 →
    AcceptedModule X (fun m => m = n ∨ b m) k1 rest k' →
    AcceptedModule X b k
      ([.id "const".toList, .id n, .equals] ++ (ts ++ .newLine :: rest)) k'
  | import_ (b k n s rest k') : k ≠ .cjs → X s →
    AcceptedModule X (fun m => m = n ∨ b m) .mjs rest k' →
    AcceptedModule X b k
      ([.id "import".toList, .id n, .id "from".toList, .string s] ++ .newLine :: rest) k'
  | exportDefault (b k ts k') : k ≠ .cjs → AcceptedValue X b .mjs ts k' →
    AcceptedModule X b k ([.id "export".toList, .id "default".toList] ++ ts) k'
  | moduleExports (b k ts k') : k ≠ .mjs → AcceptedValue X b .cjs ts k' →
    AcceptedModule X b k
      ([.id "module".toList, .dot, .id "exports".toList, .equals] ++ ts) k'
  | value (b k ts k') : (∀ t, (ts.filter (· ≠ .newLine)).head? = some t → ¬ BeginsLine k t) →
    AcceptedValue X b k ts k' → AcceptedModule X b k ts k'

/-- `LoadsAs read resolve p k`: the module at the path `p` is accepted as a module of the kind `k`,
with all modules it names.  `read` gives the tokens of the files, `resolve` the paths that names
stand for.  Modules that import each other are not accepted, as the definition is inductive. -/
inductive LoadsAs (read : Text → Option (List Token)) (resolve : Text → Text) :
    Text → DataType → Prop
  | mk (p ts) (X : Text → Prop) (kind : Text → DataType) (k) : read p = some ts →
    AcceptedModule X (fun _ => False) .json ts k →
    (∀ s, X s → LoadsAs read resolve (resolve s) (kind s)) → LoadsAs read resolve p k

end Grammar
end Nanvm
