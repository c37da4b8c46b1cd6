import Verif.Spec.Values
import Verif.Spec.Json
import Verif.Model.Serializer
/-!
# Graphs of values, and documents with constants (specification)
-/
namespace Nanvm

/-! ## Graphs of values -/

/-- the items of an array, the values of the members of an object -/
def Val.kids : Val → List Val
  | .arr _ l => l
  | .obj _ l => l.map (·.2)
  | _ => []

/-- arrays and objects -/
def Val.Compound : Val → Prop
  | .arr _ _ => True
  | .obj _ _ => True
  | _ => False

/-- A value is a graph: an array or object is a block, known by its `word`; wherever the same block
occurs it has the same content. -/
def Val.Consistent (v : Val) : Prop :=
  ∀ x y : Val, x.Sub v → y.Sub v → x.Compound → y.Compound → x.word = y.word → x = y

/-- a place in the graph `v` that holds a value: the root (`none`), or place `i` in block `w` -/
inductive Val.At (v : Val) : Option (Word × Nat) → Val → Prop
  | root : At v none v
  | kid (p : Val) (i : Nat) (c : Val) : p.Sub v → p.Compound → p.kids[i]? = some c →
    At v (some (p.word, i)) c

/-- an array or object that is held in two different places of the graph -/
def Val.Shared (v c : Val) : Prop :=
  c.Compound ∧ ∃ r r', r ≠ r' ∧ v.At r c ∧ v.At r' c

/-- `v.CopyBy R w`: `w` is what is read from the text of `v` (`Val.ReadAs`), and for each array and
object at the same place of `v` and `w`, `R` relates its block in `v` to the number of its block in
`w`. -/
inductive Val.CopyBy (R : Word → Nat → Prop) : Val → Val → Prop
  | null : CopyBy R .null .null
  | bool (b) : CopyBy R (.bool b) (.bool b)
  | num (b) : CopyBy R (.num b) (.num b)
  | str (i j s) : CopyBy R (.str i s) (.str j s)
  | big (i j b) : CopyBy R (.big i b) (.big j b)
  | arr (i j l m) : R (.arr i) j → l.length = m.length → (∀ p ∈ l.zip m, CopyBy R p.1 p.2) →
    CopyBy R (.arr i l) (.arr j m)
  | obj (i j l) (ks : List Text) (vs kvs) : R (.obj i) j → l.map (·.1) = ks.map toJsString →
    l.length = vs.length → (∀ p ∈ l.zip vs, CopyBy R p.1.2 p.2) → Grammar.Keyed (ks.zip vs) kvs →
    CopyBy R (.obj i l) (.obj j (Grammar.stored kvs))

/-- `R` relates different blocks to different numbers, and each block to one number -/
def OneToOne (R : Word → Nat → Prop) : Prop :=
  (∀ a i j, R a i → R a j → i = j) ∧ ∀ a b i, R a i → R b i → a = b

/-! ## Documents -/

/-- what is written for a value: the text of a simple value, a reference to a constant, or a literal
for the block with number `id` -/
inductive Doc
  | leaf (t : List Char)
  | ref (n : Nat)
  | arr (id : Nat) (l : List Doc)
  | obj (id : Nat) (l : List (List Char × Doc))

mutual
/-- the text of a document -/
def Doc.text : Doc → List Char
  | .leaf t => t
  | .ref n => '_' :: Nat.toDigits 10 n
  | .arr _ l => '[' :: commaSep (Doc.texts l) ++ [']']
  | .obj _ l => '{' :: commaSep (Doc.memberTexts l) ++ ['}']
def Doc.texts : List Doc → List (List Char)
  | [] => []
  | d :: l => d.text :: Doc.texts l
def Doc.memberTexts : List (List Char × Doc) → List (List Char)
  | [] => []
  | (k, d) :: l => (k ++ ':' :: d.text) :: Doc.memberTexts l
end

mutual
/-- the blocks for which a literal is written, with repetitions -/
def Doc.literals : Doc → List Word
  | .leaf _ => []
  | .ref _ => []
  | .arr i l => .arr i :: Doc.literalsL l
  | .obj i l => .obj i :: Doc.literalsM l
def Doc.literalsL : List Doc → List Word
  | [] => []
  | d :: l => d.literals ++ Doc.literalsL l
def Doc.literalsM : List (List Char × Doc) → List Word
  | [] => []
  | (_, d) :: l => d.literals ++ Doc.literalsM l
end

/-- the document contains a reference to constant `n` -/
inductive Doc.RefersTo (n : Nat) : Doc → Prop
  | ref : RefersTo n (.ref n)
  | arr (i l d) : d ∈ l → RefersTo n d → RefersTo n (.arr i l)
  | obj (i l) (m : List Char × Doc) : m ∈ l → RefersTo n m.2 → RefersTo n (.obj i l)

/-- `d.Expands defs t`: `t` is the text of `d` with all references replaced, again and again, by the
definitions -/
inductive Doc.Expands (defs : List Doc) : Doc → List Char → Prop
  | leaf (t) : Expands defs (.leaf t) t
  | ref (n d t) : defs[n]? = some d → Expands defs d t → Expands defs (.ref n) t
  | arr (i l ts) : l.length = ts.length → (∀ p ∈ l.zip ts, Expands defs p.1 p.2) →
    Expands defs (.arr i l) ('[' :: commaSep ts ++ [']'])
  | obj (i l ts) : l.length = ts.length → (∀ p ∈ l.zip ts, Expands defs p.1.2 p.2) →
    Expands defs (.obj i l)
      ('{' :: commaSep (List.zipWith (fun m t => m.1 ++ ':' :: t) l ts) ++ ['}'])

/-- the block whose literal the document is -/
def Doc.head : Doc → Option Word
  | .arr i _ => some (.arr i)
  | .obj i _ => some (.obj i)
  | _ => none

/-- `const _n=…;const _n+1=…;` and so on -/
def constsText (n : Nat) : List Doc → List Char
  | [] => []
  | d :: l => "const _".toList ++ Nat.toDigits 10 n ++ '=' :: d.text ++ ';' :: constsText (n + 1) l

end Nanvm
