import Verif.Coding.Model

/-!
# JavaScript strings

A JavaScript string is a sequence of 16-bit code units.  This file has the conversions between
such strings and the well-formed strings of Rust (Lean's `String`), and models the two platform
functions `js/moq/src/wire/stream.ts` uses on them, `TextEncoder.encode` and `TextDecoder.decode`,
by their documented contract (WHATWG Encoding Standard).
-/

set_option autoImplicit false

namespace Verif.Js

open Verif Verif.Coding

/-- A JavaScript string: its UTF-16 code units. -/
abbrev JsString := List UInt16

/-- The code units of a character (UTF-16). -/
def charUnits (c : Char) : JsString :=
  if c.toNat < 0x10000 then [UInt16.ofNat c.toNat]
  else [UInt16.ofNat (0xD800 + (c.toNat - 0x10000) / 1024),
        UInt16.ofNat (0xDC00 + (c.toNat - 0x10000) % 1024)]

/-- The JavaScript string with the given characters. -/
def units (cs : List Char) : JsString := cs.flatMap charUnits

/-- The JavaScript string equal to a Rust string. -/
def ofRust (s : String) : JsString := units s.toList

/-- A high surrogate: the first half of a pair. -/
def isHigh (u : UInt16) : Bool := 0xD800 ≤ u.toNat && u.toNat < 0xDC00

/-- A low surrogate: the second half of a pair. -/
def isLow (u : UInt16) : Bool := 0xDC00 ≤ u.toNat && u.toNat < 0xE000

/-- The replacement character. -/
def replacement : Char := '�'

/-- Conversion of a JavaScript string to scalar values (`USVString` of the Web IDL, done by
`TextEncoder.encode`): a surrogate that is not part of a pair becomes U+FFFD. -/
def scalars : JsString → List Char
  | [] => []
  | u :: us =>
    if isHigh u then
      match us with
      | [] => [replacement]
      | v :: vs =>
        if isLow v then
          Char.ofNat (0x10000 + (u.toNat - 0xD800) * 1024 + (v.toNat - 0xDC00)) :: scalars vs
        else replacement :: scalars (v :: vs)
    else if isLow u then replacement :: scalars us
    else Char.ofNat u.toNat :: scalars us

/-- The Rust string a JavaScript string is converted to. -/
def toRust (s : JsString) : String := String.ofList (scalars s)

/-- `new TextEncoder().encode(str)`. -/
def textEncode (s : JsString) : Bytes := strBytes (toRust s)

/-- The bytes of a byte order mark. -/
def bom : Bytes := [0xEF, 0xBB, 0xBF]

/-- How `TextDecoder` decodes bytes that are not valid UTF-8 (it puts U+FFFD in place of the
malformed parts).  Left open: a parameter of the model. -/
abbrev Lossy := Bytes → JsString

/-- `new TextDecoder().decode(buffer)`: a byte order mark at the start is dropped, the rest is
decoded as UTF-8. -/
def textDecode (L : Lossy) (b : Bytes) : JsString :=
  let b := if bom.isPrefixOf b then b.drop 3 else b
  match strFromUtf8 b with
  | some s => ofRust s
  | none => L b

end Verif.Js
