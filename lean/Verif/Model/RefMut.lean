import Verif.Model.Err
/-!
# `common/ref_mut.rs`

Values are known by numbers; what is observed is the list of destroyed values.  A closure owns its
argument and the values it creates.  Whether it returns or unwinds, what it owns is returned or
destroyed.
-/
namespace Nanvm
namespace RefMut

/-- the end of a call of the closure `f`: the values it destroyed, and the value it returned, or
`none` if it panicked -/
structure Outcome where
  created : List Nat
  dropped : List Nat
  returned : Option Nat
deriving Repr

/-- `modify`, ref_mut.rs:6-15: `p.read()` copies the value out of the variable without marking it as
moved, `p.write(..)` overwrites the variable without destroying its value.  The result is the
value in the variable and the destroyed values. -/
def modify (self : Nat) (f : Nat → Outcome) : Nat × List Nat :=
  let old := self
  let r := f old
  match r.returned with
  | some v => (v, r.dropped)
  | none => (self, r.dropped)

/-- all values destroyed when the owner of the variable has gone out of scope (also while a panic
unwinds) -/
def scope (self : Nat) (f : Nat → Outcome) : List Nat :=
  let (v, dropped) := modify self f
  dropped ++ [v]

end RefMut
end Nanvm
