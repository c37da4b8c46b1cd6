/-!
# UTF-16 (specification)

Strict decoding: a surrogate that is not part of a pair has no meaning.
-/
namespace Nanvm

def isHighSurrogate (u : Nat) : Bool := 0xD800 ≤ u && u < 0xDC00
def isLowSurrogate (u : Nat) : Bool := 0xDC00 ≤ u && u < 0xE000

/-- the text denoted by the code units; `none`: lone surrogates or no 16-bit units -/
def decodeUtf16 : List Nat → Option (List Char)
  | [] => some []
  | u :: us =>
    if isHighSurrogate u then
      match us with
      | v :: vs =>
        if isLowSurrogate v then
          (decodeUtf16 vs).map (Char.ofNat (0x10000 + (u - 0xD800) * 0x400 + (v - 0xDC00)) :: ·)
        else none
      | [] => none
    else if isLowSurrogate u || 0x10000 ≤ u then none
    else (decodeUtf16 us).map (Char.ofNat u :: ·)

end Nanvm
