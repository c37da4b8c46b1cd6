import Verif.Spec.Values
import Verif.Spec.Graph
/-!
# Specification for C88: how deep values are nested
-/
namespace Nanvm

/-- Specification: `n` values, each an item or the value of a member of the one before; the first is
`v`. -/
inductive Val.Nested : Nat → Val → Prop
  | one (v) : Nested 1 v
  | arr {n i l x} : x ∈ l → Nested n x → Nested (n + 1) (.arr i l)
  | obj {n i l} {m : JsStr × Val} : m ∈ l → Nested n m.2 → Nested (n + 1) (.obj i l)

/-- Specification: `n` owned values, each in the block that the one before refers to; the first is
`o`. -/
inductive Own.Nested (h : Heap) : Nat → Own → Prop
  | one (o) : Nested h 1 o
  | kid {n o b nd k} : o.target = some b → h[b]? = some nd → k ∈ nd.kids → Nested h n k →
    Nested h (n + 1) o

end Nanvm
