import Verif.Spec.Accepts
/-!
# Exactly which modules make the parser panic

A grammar for texts that break off, without parser states.  The parser panics at a semicolon in the
unfinished value of a constant, and where a module that it needs at that point makes it panic.
-/
namespace Nanvm
namespace Grammar
open Tok
open Parser (DataType)

/-- `Begun X b part k ts a`: the tokens are an unfinished part of a value (see `Accepted`).  If `a` is
`some s`, the last token is the name `s` of a module that is needed; all modules before are in `X`. -/
inductive Begun (X b : Text → Prop) : Part → DataType → List Token → Option Text → Prop
  | nothing (part k) : Begun X b part k [] none
  | require (p k) : RequireAllowed p k → Begun X b (.value p) k [.id "require".toList] none
  | requireOpen (p k) : RequireAllowed p k →
    Begun X b (.value p) k [.id "require".toList, .openingParenthesis] none
  | requireAsks (p k s) : RequireAllowed p k →
    Begun X b (.value p) k [.id "require".toList, .openingParenthesis, .string s] (some s)
  | requireNamed (p k s) : RequireAllowed p k → X s →
    Begun X b (.value p) k [.id "require".toList, .openingParenthesis, .string s] none
  | array (p k ts a) : Begun X b (.elements .first) k ts a →
    Begun X b (.value p) k (.arrayBegin :: ts) a
  | object (p k ts a) : Begun X b (.members true) k ts a →
    Begun X b (.value p) k (.objectBegin :: ts) a
  | element (p k x a) : Begun X b (.value p) k x a → Begun X b (.elements p) k x a
  | elementDone (p k x k') : Accepted X b (.value p) k x k' → Begun X b (.elements p) k x none
  | elements (p k x k1 ts a) : Accepted X b (.value p) k x k1 →
    Begun X b (.elements .later) k1 ts a → Begun X b (.elements p) k (x ++ .comma :: ts) a
  | key (f k t) : KeyAllowed f k t → Begun X b (.members f) k [t] none
  | memberValue (f k t x a) : KeyAllowed f k t → Begun X b (.value .single) k x a →
    Begun X b (.members f) k (t :: .colon :: x) a
  | memberDone (f k t x k') : KeyAllowed f k t → Accepted X b (.value .single) k x k' →
    Begun X b (.members f) k (t :: .colon :: x) none
  | members (f k t x k1 ts a) : KeyAllowed f k t → Accepted X b (.value .single) k x k1 →
    Begun X b (.members false) k1 ts a →
    Begun X b (.members f) k (t :: .colon :: x ++ .comma :: ts) a

/-- an unfinished value on its own, with line breaks anywhere -/
def BegunValue (X b : Text → Prop) (k : DataType) (ts : List Token) (a : Option Text) : Prop :=
  Begun X b (.value .single) k (ts.filter (· ≠ .newLine)) a

/-- `BegunModule X b k ts a`: the tokens, from the begin of a line on, break off in the value of a
constant (`none`), or at the name of a module that is needed -/
inductive BegunModule (X : Text → Prop) :
    (Text → Prop) → DataType → List Token → Option Text → Prop
  | newLine (b k ts a) : BegunModule X b k ts a → BegunModule X b k (.newLine :: ts) a
  | const_ (b k n ts k1 rest a) : AcceptedValue X b .djs ts k1 →
    BegunModule X (fun m => m = n ∨ b m) k1 rest a →
    BegunModule X b k ([.id "const".toList, .id n, .equals] ++ (ts ++ .newLine :: rest)) a
  | import_ (b k n s rest a) : k ≠ .cjs → X s →
    BegunModule X (fun m => m = n ∨ b m) .mjs rest a →
    BegunModule X b k
      ([.id "import".toList, .id n, .id "from".toList, .string s] ++ .newLine :: rest) a
  | inConst (b k n ts a) : BegunValue X b .djs ts a →
    BegunModule X b k ([.id "const".toList, .id n, .equals] ++ ts) a
  | inImport (b k n s) : k ≠ .cjs →
    BegunModule X b k [.id "import".toList, .id n, .id "from".toList, .string s] (some s)
  | inExport (b k ts s) : k ≠ .cjs → BegunValue X b .mjs ts (some s) →
    BegunModule X b k ([.id "export".toList, .id "default".toList] ++ ts) (some s)
  | inModule (b k ts s) : k ≠ .mjs → BegunValue X b .cjs ts (some s) →
    BegunModule X b k ([.id "module".toList, .dot, .id "exports".toList, .equals] ++ ts) (some s)
  | inValue (b k ts s) : (∀ t, (ts.filter (· ≠ .newLine)).head? = some t → ¬ BeginsLine k t) →
    BegunValue X b k ts (some s) → BegunModule X b k ts (some s)

/-- `Crashes read broken resolve p`: loading the module at the path `p` panics.  `read` gives the
tokens of the files, `broken` are the files for which the tokenizer panics, `resolve` gives the paths
that names stand for. -/
inductive Crashes (read : Text → Option (List Token)) (broken : Text → Prop)
    (resolve : Text → Text) : Text → Prop
  | text (p) : broken p → Crashes read broken resolve p
  | semicolon (p pre rest) (X : Text → Prop) : read p = some (pre ++ .semicolon :: rest) →
    BegunModule X (fun _ => False) .json pre none →
    (∀ s, X s → ∃ k, LoadsAs read resolve (resolve s) k) → Crashes read broken resolve p
  | needed (p pre rest s) (X : Text → Prop) : read p = some (pre ++ rest) →
    BegunModule X (fun _ => False) .json pre (some s) →
    (∀ s, X s → ∃ k, LoadsAs read resolve (resolve s) k) →
    Crashes read broken resolve (resolve s) → Crashes read broken resolve p

end Grammar
end Nanvm
