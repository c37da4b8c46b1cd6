import Verif.Model.Path
/-!
# Text to JS string, `parser/shared.rs:129-131`

`str::encode_utf16` belongs to the Rust standard library; it is modelled by its documented
behaviour.
-/
namespace Nanvm

/-- a JS string, `FlexibleArray<u16>` (js_string.rs:14): its code units -/
abbrev JsStr := List Nat

/-- `char::encode_utf16` -/
def encodeChar (c : Char) : List Nat :=
  if c.toNat < 0x10000 then [c.toNat]
  else [0xD800 ||| ((c.toNat - 0x10000) >>> 10), 0xDC00 ||| ((c.toNat - 0x10000) &&& 0x3FF)]

/-- `to_js_string`, shared.rs:129-131 -/
def toJsString (s : Text) : JsStr := s.flatMap encodeChar

end Nanvm
