import Verif.Props.AnyWord
import Verif.Model.Serializer
/-!
# Property theorems C62: equality of `Any`

The hash maps of the serializer compare `Any`s.  In `Model/Serializer.lean` their keys are compared
by `Val.word`; `C62_word_partial` says that this is the comparison of the 64-bit words.
-/
namespace Nanvm

/-- The full property: two `Any`s are equal iff they hold the same value: the same double, the same
boolean, the same block. -/
def EqIsIdentity : Prop := ∀ a b : TVal, a.AddrOk → b.AddrOk →
  (anyEq (moveFrom a) (moveFrom b) = true ↔ a = b)

/-- Proved part: all values except negative quiet NaNs. -/
theorem C62_eq_partial (a b : TVal) (ha : a.AddrOk) (hb : b.AddrOk)
    (hna : ∀ bits, a = .number bits → ¬ NegQuietNaN bits)
    (hnb : ∀ bits, b = .number bits → ¬ NegQuietNaN bits) :
    anyEq (moveFrom a) (moveFrom b) = true ↔ a = b := by
  rw [anyEq, beq_iff_eq]
  constructor
  · intro h
    have h1 := C20_round_trip_partial a ha hna a.type
    have h2 := C20_round_trip_partial b hb hnb a.type
    rw [if_pos rfl] at h1
    rw [← h, h1] at h2
    split at h2
    · exact Option.some.inj h2
    · cases h2
  · rintro rfl; rfl

/-- a negative quiet NaN is equal to a boolean, another one to a reference to a block -/
theorem C62_violated : ¬ EqIsIdentity := by
  intro h
  have := (h (.number 0xFFF8_0000_0000_0000) (.bool false) trivial trivial).1 (by decide)
  cases this

/-- Equality is an equivalence and agrees with hashing, as `HashMap` demands, for all words. -/
theorem C62_hash {H : Type} (h : W → H) (a b c : W) : anyEq a a = true ∧
    (anyEq a b = anyEq b a) ∧ (anyEq a b = true → anyEq b c = true → anyEq a c = true) ∧
    (anyEq a b = true → anyHash h a = anyHash h b) := by
  simp only [anyEq, anyHash, beq_iff_eq]
  refine ⟨trivial, ?_, fun h1 h2 => h1.trans h2, fun e => by rw [e]⟩
  rw [Bool.eq_iff_iff, beq_iff_eq, beq_iff_eq]
  exact eq_comm

/-- consequences: `+0` and `-0` are different, the usual NaN is equal to itself, equal strings in
different blocks are different -/
example : anyEq (moveFrom (.number 0)) (moveFrom (.number 0x8000_0000_0000_0000)) = false ∧
    anyEq (moveFrom (.number 0x7FF8_0000_0000_0000)) (moveFrom (.number 0x7FF8_0000_0000_0000)) = true ∧
    anyEq (moveFrom (.string 0x1000)) (moveFrom (.string 0x2000)) = false ∧
    (TVal.string 0x1000).AddrOk := by
  refine ⟨by decide, by decide, by decide, by unfold TVal.AddrOk; decide⟩

/-- the block of a value -/
def Val.block : Val → Option Nat
  | .str i _ | .big i _ | .arr i _ | .obj i _ => some i
  | _ => none

/-- the `Any` of a value, when `addr` gives the addresses of the blocks -/
def Val.held (addr : Nat → W) : Val → TVal
  | .null => .null
  | .bool b => .bool b
  | .num bits => .number (BitVec.ofNat 64 bits)
  | .str i _ => .string (addr i)
  | .big i _ => .bigint (addr i)
  | .arr i _ => .array (addr i)
  | .obj i _ => .object (addr i)

/-- Two values whose blocks have 48-bit addresses, different ones if the blocks are different, are
equal as `Any`s iff they have the same `word`.  Missing: negative quiet NaNs, as in
`C62_eq_partial`. -/
theorem C62_word_partial (addr : Nat → W) (a b : Val) (ha : (a.held addr).AddrOk)
    (hb : (b.held addr).AddrOk)
    (hna : ∀ bits, a = .num bits → bits < 2 ^ 64 ∧ ¬ NegQuietNaN (BitVec.ofNat 64 bits))
    (hnb : ∀ bits, b = .num bits → bits < 2 ^ 64 ∧ ¬ NegQuietNaN (BitVec.ofNat 64 bits))
    (hd : ∀ i j, a.block = some i → b.block = some j → i ≠ j → addr i ≠ addr j) :
    anyEq (moveFrom (a.held addr)) (moveFrom (b.held addr)) = true ↔ a.word = b.word := by
  have hn : ∀ v : Val, (∀ bits, v = .num bits → bits < 2 ^ 64 ∧ ¬ NegQuietNaN (BitVec.ofNat 64 bits)) →
      ∀ bits, v.held addr = .number bits → ¬ NegQuietNaN bits := by
    intro v h bits e
    cases v with
    | num n => cases e; exact (h n rfl).2
    | _ => cases e
  rw [C62_eq_partial _ _ ha hb (hn a hna) (hn b hnb)]
  have hi : ∀ i j, a.block = some i → b.block = some j → (addr i = addr j ↔ i = j) := by
    intro i j h1 h2
    refine ⟨fun h => ?_, fun h => by rw [h]⟩
    by_contra hne
    exact hd i j h1 h2 hne h
  cases a <;> cases b <;>
    simp only [Val.held, Val.word, reduceCtorEq, TVal.bool.injEq, Word.bool.injEq, TVal.string.injEq,
      Word.str.injEq, TVal.bigint.injEq, Word.big.injEq, TVal.array.injEq, Word.arr.injEq,
      TVal.object.injEq, Word.obj.injEq, TVal.number.injEq, Word.num.injEq] <;>
    try exact hi _ _ rfl rfl
  rename_i m n
  have h1 := (hna m rfl).1
  have h2 := (hnb n rfl).1
  constructor
  · intro h
    have := congrArg BitVec.toNat h
    rwa [BitVec.toNat_ofNat, BitVec.toNat_ofNat, Nat.mod_eq_of_lt h1, Nat.mod_eq_of_lt h2] at this
  · rintro rfl; rfl

/-- two arrays in different blocks, and a string and a bigint -/
example : let addr : Nat → W := fun i => BitVec.ofNat 64 (0x1000 + 0x100 * i)
    let a : Val := .arr 1 [.null]
    let b : Val := .arr 2 [.null]
    (a.held addr).AddrOk ∧ (b.held addr).AddrOk ∧ addr 1 ≠ addr 2 ∧ a.word ≠ b.word ∧
    moveFrom (a.held addr) = 0xFFFE_0000_0000_1100 := by
  refine ⟨by unfold Val.held TVal.AddrOk; decide, by unfold Val.held TVal.AddrOk; decide, by decide,
    by decide, by decide⟩

end Nanvm
