import Verif.Model.BitSubset
/-!
# Value words: `js/bitset.rs`, `js/any.rs`, `js/any_cast.rs`, `js/number.rs`,
`js/null.rs`, `js/bool.rs`, `js/visitor.rs`

An `Any` is its 64-bit word.  Heap pointers are addresses (`W`); what they point to is
modelled in `Model/Graph.lean`.
-/
namespace Nanvm
open BitSubset

/-! The constants of bitset.rs:7-54 (values; `Props/AnyWord.lean` proves that the `const`
initialisers evaluate to them without a failed `assert!`). -/
def EXTENSION : BitSubset := ⟨0xFFF8_0000_0000_0000, 0xFFF8_0000_0000_0000⟩
def SIMPLE : BitSubset := ⟨0xFFF8_0000_0000_0000, 0xFFFC_0000_0000_0000⟩
def REF : BitSubset := ⟨0xFFFC_0000_0000_0000, 0xFFFC_0000_0000_0000⟩
def BOOL : BitSubset := ⟨0xFFF8_0000_0000_0000, 0xFFFE_0000_0000_0000⟩
def NULL : BitSubset := ⟨0xFFFA_0000_0000_0000, 0xFFFE_0000_0000_0000⟩
def REF_SPLIT0 : BitSubset := ⟨0xFFFC_0000_0000_0000, 0xFFFE_0000_0000_0000⟩
def REF_SPLIT1 : BitSubset := ⟨0xFFFE_0000_0000_0000, 0xFFFE_0000_0000_0000⟩
def STRING : BitSubset := ⟨0xFFFC_0000_0000_0000, 0xFFFF_0000_0000_0000⟩
def OBJECT : BitSubset := ⟨0xFFFD_0000_0000_0000, 0xFFFF_0000_0000_0000⟩
def ARRAY : BitSubset := ⟨0xFFFE_0000_0000_0000, 0xFFFF_0000_0000_0000⟩
def BIGINT : BitSubset := ⟨0xFFFF_0000_0000_0000, 0xFFFF_0000_0000_0000⟩

/-- `REF_SUBSET_SUPERPOSITION`, bitset.rs:32 -/
def REF_SUBSET_SUPERPOSITION : W := 0xFFFF_FFFF_FFFF

/-- `ref_type`, bitset.rs:61-63 -/
def refType (v : W) : W := (v >>> 48) &&& 0b11

/-- `Type`, type_.rs:2-10 -/
inductive JsType | number | bool | string | null | object | array | bigint
deriving DecidableEq, Repr

/-- `T::SUBSET` / `T::REF_SUBSET` (null.rs:21-23, bool.rs:5-7, js_string.rs:20-22,
js_array.rs:20-22, and likewise js_object.rs, js_bigint.rs); numbers use the complement of `EXTENSION` -/
def subsetOf : JsType → BitSubset
  | .number => EXTENSION
  | .bool => BOOL
  | .null => NULL
  | .string => STRING
  | .object => OBJECT
  | .array => ARRAY
  | .bigint => BIGINT

/-- `Any::is::<T>` / `has_same_type`, any.rs:22-24, any_cast.rs:24-26, 39-41, number.rs:7-9 -/
def isType (t : JsType) (w : W) : Bool :=
  match t with
  | .number => !EXTENSION.has w
  | t => (subsetOf t).has w

/-- typed values that can be stored in an `Any` -/
inductive TVal
  | null
  | bool (b : Bool)
  /-- a double, by its bits -/
  | number (bits : W)
  /-- the four reference types, by the address of the block -/
  | string (p : W)
  | object (p : W)
  | array (p : W)
  | bigint (p : W)
deriving DecidableEq, Repr

/-- the type of a typed value -/
def TVal.type : TVal → JsType
  | .null => .null
  | .bool _ => .bool
  | .number _ => .number
  | .string _ => .string
  | .object _ => .object
  | .array _ => .array
  | .bigint _ => .bigint

/-- `Any::move_from` / `move_to_any_internal`, any.rs:40-42, any_cast.rs:28-30, 43-45,
number.rs:11-13, null.rs:7-12, common/cast.rs:19-32 -/
def moveFrom : TVal → W
  | .null => NULL.fromRaw 0
  | .bool b => BOOL.fromRaw (if b then 1 else 0)
  | .number bits => bits
  | .string p => STRING.fromRaw p
  | .object p => OBJECT.fromRaw p
  | .array p => ARRAY.fromRaw p
  | .bigint p => BIGINT.fromRaw p

/-- `from_any_internal`, any_cast.rs:32-34, 47-49, number.rs:15-17, null.rs:14-19,
common/cast.rs:13-17, 34-39 -/
def fromAny (t : JsType) (w : W) : TVal :=
  match t with
  | .null => .null
  | .bool => .bool (BOOL.toRaw w != 0)
  | .number => .number w
  | .string => .string (STRING.toRaw w)
  | .object => .object (OBJECT.toRaw w)
  | .array => .array (ARRAY.toRaw w)
  | .bigint => .bigint (BIGINT.toRaw w)

/-- `Any::try_move`, any.rs:44-49; `none` is `Err(())` -/
def tryMove (t : JsType) (w : W) : Option TVal := if isType t w then some (fromAny t w) else none

/-- `Any::is_ref`, any_internal.rs:56-58 -/
def isRef (w : W) : Bool := REF.has w

/-- `Any::get_type`, any.rs:51-67 -/
def getType (w : W) : Res JsType :=
  if isRef w then
    if refType w = 0b00 then .ok .string
    else if refType w = 0b01 then .ok .object
    else if refType w = 0b10 then .ok .array
    else if refType w = 0b11 then .ok .bigint
    else .error (.panic .unreachable)
  else if isType .number w then .ok .number
  else if isType .null w then .ok .null
  else .ok .bool

/-- `to_visitor`, visitor.rs:18-28 -/
def toVisitor (w : W) : Res TVal := do
  let t ← getType w
  if t = .null then return .null
  else match tryMove t w with
    | some v => return v
    | none => .error (.panic .unwrap)

/-- `try_get_block_header`, any_internal.rs:60-66: the address of the block, if any -/
def blockAddr (w : W) : Option W := if isRef w then some (w &&& REF_SUBSET_SUPERPOSITION) else none

/-- `delete` dispatch, any_internal.rs:68-76: the type as which the block is deleted -/
def deleteType (w : W) : Res JsType :=
  if refType w = 0b00 then .ok .string
  else if refType w = 0b01 then .ok .object
  else if refType w = 0b10 then .ok .array
  else .error (.panic .unreachable)

/-- `PartialEq` of `Any`, optional_ref.rs:16-21, any_internal.rs:24-29: the words are compared -/
def anyEq (a b : W) : Bool := a == b

/-- `Hash` of `Any`, optional_ref.rs:25-30, any_internal.rs:31-36: the hash of the word; `h` is the
hash function of `u64` -/
def anyHash {H : Type} (h : W → H) (a : W) : H := h a

end Nanvm
