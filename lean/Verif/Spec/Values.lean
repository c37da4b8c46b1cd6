import Verif.Spec.Grammar
/-!
# Values: parts and equality up to the numbers of blocks (specification)
-/
namespace Nanvm

theorem Val.sizeOf_member {l : List (JsStr × Val)} {x : JsStr × Val} (h : x ∈ l) :
    sizeOf x.2 < sizeOf l := by
  have := List.sizeOf_lt_of_mem h
  have : sizeOf x = 1 + sizeOf x.1 + sizeOf x.2 := by cases x; rfl
  omega

theorem Val.ind {P : Val → Prop} (null : P .null) (bool : ∀ b, P (.bool b)) (num : ∀ b, P (.num b))
    (str : ∀ i s, P (.str i s)) (big : ∀ i b, P (.big i b))
    (arr : ∀ i l, (∀ x ∈ l, P x) → P (.arr i l))
    (obj : ∀ i l, (∀ x ∈ l, P x.2) → P (.obj i l)) : ∀ v, P v
  | .arr i l => arr i l (fun x _ => Val.ind null bool num str big arr obj x)
  | .obj i l => obj i l (fun x _ => Val.ind null bool num str big arr obj x.2)
  | .null => null
  | .bool b => bool b
  | .num b => num b
  | .str i s => str i s
  | .big i b => big i b
termination_by v => sizeOf v
decreasing_by
  · have := List.sizeOf_lt_of_mem ‹_›; simp; omega
  · have := Val.sizeOf_member ‹_›; simp; omega

/-- `Sub x v`: `x` is `v` or a part of `v` -/
inductive Val.Sub (x : Val) : Val → Prop
  | refl : Sub x x
  | arr (i l y) : y ∈ l → Sub x y → Sub x (.arr i l)
  | obj (i l) (m : JsStr × Val) : m ∈ l → Sub x m.2 → Sub x (.obj i l)

/-- the same value, apart from the numbers of the blocks -/
inductive Val.Same : Val → Val → Prop
  | null : Same .null .null
  | bool (b) : Same (.bool b) (.bool b)
  | num (b) : Same (.num b) (.num b)
  | str (i j s) : Same (.str i s) (.str j s)
  | big (i j b) : Same (.big i b) (.big j b)
  | arr (i j l m) : l.length = m.length → (∀ p ∈ l.zip m, Same p.1 p.2) → Same (.arr i l) (.arr j m)
  | obj (i j l m) : l.map (·.1) = m.map (·.1) → (∀ p ∈ l.zip m, Same p.1.2 p.2.2) →
    Same (.obj i l) (.obj j m)

/-- the members of an object are in the order in which the parser stores them: the keys are texts,
each occurs once, in ascending order -/
def KeysInOrder (l : List (JsStr × Val)) : Prop :=
  ∃ kvs : List (Text × Val), l = Grammar.stored kvs ∧ (kvs.map (·.1)).Pairwise (· < ·)

/-- What is read from the text of a value: the same value, apart from the numbers of the blocks, but
every object is stored with its keys in ascending order, and of the members with equal keys only the
last is kept. -/
inductive Val.ReadAs : Val → Val → Prop
  | null : ReadAs .null .null
  | bool (b) : ReadAs (.bool b) (.bool b)
  | num (b) : ReadAs (.num b) (.num b)
  | str (i j s) : ReadAs (.str i s) (.str j s)
  | big (i j b) : ReadAs (.big i b) (.big j b)
  | arr (i j l m) : l.length = m.length → (∀ p ∈ l.zip m, ReadAs p.1 p.2) →
    ReadAs (.arr i l) (.arr j m)
  | obj (i j l) (ks : List Text) (vs kvs) : l.map (·.1) = ks.map toJsString →
    l.length = vs.length → (∀ p ∈ l.zip vs, ReadAs p.1.2 p.2) → Grammar.Keyed (ks.zip vs) kvs →
    ReadAs (.obj i l) (.obj j (Grammar.stored kvs))

end Nanvm
