import Mathlib.Logic.Relation
import Verif.Spec.Source
/-!
# Projects: modules that import each other

Modules as lists of lines and a value, their token sequences, and what they denote.  Nothing of the
parser is used.
-/
namespace Nanvm
namespace Grammar
open Tok

/-- a line of a module before its value -/
inductive Line
  /-- `const n = x` -/
  | const_ (n : Text) (x : Src)
  /-- `import n from "s"` -/
  | import_ (n s : Text)
  /-- `const n = require("s")` -/
  | require_ (n s : Text)

/-- the name that the line defines -/
def Line.name : Line → Text
  | .const_ n _ | .import_ n _ | .require_ n _ => n

/-- the modules that the line names -/
def Line.modules : Line → List Text
  | .const_ _ _ => []
  | .import_ _ s | .require_ _ s => [s]

/-- the line mentions the constant `n` -/
def Line.Uses : Line → Text → Prop
  | .const_ _ x, n => x.Uses n
  | _, _ => False

/-- a module: its lines and its value -/
structure Mod where
  lines : List Line
  final : Final
  value : Src

/-- ES modules use `import` and `export default`, CommonJS modules `require` and `module.exports` -/
inductive Style | es | cjs

def Line.In : Style → Line → Prop
  | .es, .require_ _ _ => False
  | .cjs, .import_ _ _ => False
  | _, _ => True

def Final.In : Style → Final → Prop
  | .es, .moduleExports => False
  | .cjs, .exportDefault => False
  | _, _ => True

/-- every name that is used is defined on an earlier line -/
def ScopedLines (x : Src) : List Text → List Line → Prop
  | bound, [] => ∀ n, x.Uses n → n ∈ bound
  | bound, l :: ls => (∀ n, l.Uses n → n ∈ bound) ∧ ScopedLines x (l.name :: bound) ls

/-- the modWords of the language that cannot be used as the name of a constant in a value -/
def modWords : List Text :=
  ["null".toList, "true".toList, "false".toList, "require".toList, "const".toList,
    "export".toList, "module".toList, "import".toList]

/-- the module keeps to one style, uses only names defined before and no word of the language -/
def Mod.Ok (m : Mod) : Prop :=
  (∃ style, (∀ l ∈ m.lines, l.In style) ∧ m.final.In style) ∧ ScopedLines m.value [] m.lines ∧
  (∀ n, m.value.Uses n → n ∉ modWords) ∧ ∀ l ∈ m.lines, ∀ n, l.Uses n → n ∉ modWords

/-- `LinesText f x ls ts`: the tokens are the lines `ls`, each followed by a line break, and the
value `x`; line breaks are allowed within values and between lines -/
inductive LinesText (f : Final) (x : Src) : List Line → List Token → Prop
  | newLine (ls ts) : LinesText f x ls ts → LinesText f x ls (.newLine :: ts)
  | final (ts) : ts.filter (· ≠ .newLine) = x.tokens → LinesText f x [] (f.tokens ++ ts)
  | const_ (n y ls ts rest) : ts.filter (· ≠ .newLine) = Src.tokens y → LinesText f x ls rest →
    LinesText f x (.const_ n y :: ls)
      ([.id "const".toList, .id n, .equals] ++ ts ++ .newLine :: rest)
  | import_ (n s ls rest) : LinesText f x ls rest →
    LinesText f x (.import_ n s :: ls)
      ([.id "import".toList, .id n, .id "from".toList, .string s] ++ .newLine :: rest)
  | require_ (n s ls ts rest) : ts.filter (· ≠ .newLine) =
      [.id "require".toList, .openingParenthesis, .string s, .closingParenthesis] →
    LinesText f x ls rest →
    LinesText f x (.require_ n s :: ls)
      ([.id "const".toList, .id n, .equals] ++ ts ++ .newLine :: rest)

/-- the tokens are the module -/
def Mod.Text (m : Mod) (ts : List Token) : Prop := LinesText m.final m.value m.lines ts

/-- the constants after the lines are `c'`; `M` gives the values of the modules -/
inductive LinesDefine (M : Text → Val → Prop) :
    (Text → Option Val) → List Line → (Text → Option Val) → Prop
  | nil (c) : LinesDefine M c [] c
  | const_ (c n x ls v c') : Src.Is c x v → LinesDefine M (withConst c n v) ls c' →
    LinesDefine M c (.const_ n x :: ls) c'
  | import_ (c n s ls v c') : M s v → LinesDefine M (withConst c n v) ls c' →
    LinesDefine M c (.import_ n s :: ls) c'
  | require_ (c n s ls v c') : M s v → LinesDefine M (withConst c n v) ls c' →
    LinesDefine M c (.require_ n s :: ls) c'

/-- `ModIs P resolve p v`: the module of the project `P` at the path `p` has the value `v`;
`resolve s` is the path that the name `s` stands for -/
inductive ModIs (P : Text → Option Mod) (resolve : Text → Text) : Text → Val → Prop
  | mk (p m M c v) : P p = some m → (∀ s w, M s w → ModIs P resolve (resolve s) w) →
    LinesDefine M (fun _ => none) m.lines c → m.value.Is c v → ModIs P resolve p v

/-- the module at `p` names the module at `q` -/
def Needs (P : Text → Option Mod) (resolve : Text → Text) (p q : Text) : Prop :=
  ∃ m l s, P p = some m ∧ l ∈ m.lines ∧ s ∈ Line.modules l ∧ q = resolve s

end Grammar
end Nanvm
