import Verif.Spec.Grammar
/-!
# Specification for C88: chains of modules
-/
namespace Nanvm
namespace Grammar
open Tok

/-- Specification: the paths of different files, the last first, where each file contains a string
that stands for the path of the next one.  `read` gives the tokens of the files, `resolve` the paths
that strings stand for. -/
inductive NamedChain (read : Text → Option (List Token)) (resolve : Text → Text) : List Text → Prop
  | one (p ts) : read p = some ts → NamedChain read resolve [p]
  | next (s p l ts ts') : read (resolve s) = some ts' → read p = some ts → .string s ∈ ts →
    resolve s ∉ p :: l → NamedChain read resolve (p :: l) → NamedChain read resolve (resolve s :: p :: l)

end Grammar
end Nanvm
