import Verif.Model.Err
/-!
# `common/bit_subset64.rs`

`u64` is `BitVec 64`; the phantom type parameter is dropped.
-/
namespace Nanvm

abbrev W := BitVec 64

/-- `BitSubset64`, bit_subset64.rs:25-37 -/
structure BitSubset where
  tag : W
  mask : W
deriving DecidableEq, Repr

namespace BitSubset

/-- `assert!(c)` -/
def assert (c : Bool) : Res Unit := if c then .ok () else .error (.panic .assert)

/-- `from_tag_and_mask`, bit_subset64.rs:70-77 -/
def fromTagAndMask (tag mask : W) : Res BitSubset := do
  assert (mask &&& tag == tag)
  return ⟨tag, mask⟩

/-- `from_tag_and_superposition`, bit_subset64.rs:79-81 -/
def fromTagAndSuperposition (tag sup : W) : Res BitSubset := fromTagAndMask tag (~~~ sup)

/-- `from_tag_and_union`, bit_subset64.rs:83-85 -/
def fromTagAndUnion (tag union : W) : Res BitSubset := fromTagAndSuperposition tag (tag ^^^ union)

/-- `from_tag`, bit_subset64.rs:87-89 -/
def fromTag (tag : W) : Res BitSubset := fromTagAndMask tag tag

/-- `has`, bit_subset64.rs:91-93 -/
def has (s : BitSubset) (value : W) : Bool := value &&& s.mask == s.tag

/-- `superposition`, bit_subset64.rs:99-101 -/
def superposition (s : BitSubset) : W := ~~~ s.mask

/-- `union`, bit_subset64.rs:95-97 -/
def union (s : BitSubset) : W := s.tag ^^^ s.superposition

/-- `or_unchecked`, bit_subset64.rs:103-105 -/
def orUnchecked (a b : BitSubset) : Res BitSubset :=
  fromTagAndUnion (a.tag &&& b.tag) (a.union ||| b.union)

/-- `or`, bit_subset64.rs:107-110 -/
def or (a b : BitSubset) : Res BitSubset := do
  assert (a.superposition == b.superposition)
  orUnchecked a b

/-- `and`, bit_subset64.rs:112-114 -/
def and (a b : BitSubset) : Res BitSubset :=
  fromTagAndUnion (a.tag ||| b.tag) (a.union &&& b.union)

/-- `split`, bit_subset64.rs:116-127 -/
def split (s : BitSubset) (sub : W) : Res (BitSubset × BitSubset) := do
  assert (sub != 0)
  assert (sub &&& s.mask == 0)
  let mask := s.mask ||| sub
  return (← fromTagAndMask s.tag mask, ← fromTagAndMask (s.tag ||| sub) mask)

/-- `subset_value_to_raw_value`, bit_subset64.rs:129-131 -/
def toRaw (s : BitSubset) (set : W) : W := s.superposition &&& set

/-- `raw_value_to_subset_value`, bit_subset64.rs:133-135 -/
def fromRaw (s : BitSubset) (value : W) : W := s.tag ||| value

end BitSubset
end Nanvm
