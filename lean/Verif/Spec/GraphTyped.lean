import Verif.Model.Graph
/-!
# Specification for C76: what blocks of each type hold
-/
namespace Nanvm

/-- Specification: the owned value is an `Any`. -/
def Own.IsAny (o : Own) : Prop := o = .simple ∨ ∃ t b, o = .any t b

/-- Specification: what a block of type `t` holds.  Strings and bigints own nothing; an array is a
list of `Any`; an object is a list of properties, each a reference to a string and an `Any`. -/
def Holds (t : RefTy) (kids : List Own) : Prop :=
  match t with
  | .string => kids = []
  | .bigint => kids = []
  | .array => ∀ o ∈ kids, o.IsAny
  | .object => ∃ ps : List (Nat × Own), (∀ p ∈ ps, p.2.IsAny) ∧
      kids = ps.flatMap fun p => [.typed .string p.1, p.2]

/-- Specification: the type of an existing block -/
def HasType (m : GMem) (b : Nat) (t : RefTy) : Prop :=
  ∃ n, m.heap[b]? = some n ∧ n.phase = .live ∧ n.ty = t

/-- Specification: from the handles `rs` those at the given positions are taken one after the other
(the positions of the remaining ones are counted anew); `os` was taken, `rs'` remains. -/
inductive Takes : List Own → List Nat → List Own → List Own → Prop
  | nil {rs} : Takes rs [] [] rs
  | cons (a : List Own) (o : Own) (b : List Own) {is os rs'} : Takes (a ++ b) is os rs' →
      Takes (a ++ o :: b) (a.length :: is) (o :: os) rs'

end Nanvm
