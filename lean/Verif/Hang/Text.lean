import Verif.Base

/-!
# Text helpers used by the codec strings

Strings are lists of characters.  The functions below model the parts of Rust's standard library
that `rs/hang/src/catalog` uses on strings: `str::split`, integer parsing (`from_str_radix`) and
integer formatting.
-/

set_option autoImplicit false

namespace Verif.Hang

open Verif

/-- A Rust string as its characters. -/
abbrev Text := List Char

deriving instance DecidableEq for Except

/-- The errors of the codec parsers, rs/hang/src/error.rs:28-29 and 37-38. -/
inductive CodecError where
  | invalidCodec
  | expectedInt
  deriving DecidableEq, Repr

/-- `str::split` at a character. -/
def split (c : Char) : Text → List Text
  | [] => [[]]
  | x :: xs =>
    if x = c then [] :: split c xs
    else match split c xs with
      | p :: ps => (x :: p) :: ps
      | [] => [[x]]

/-- The value of a character as a digit; `radix` for other characters. -/
def rawDigit (radix n : Nat) : Nat :=
  if 48 ≤ n ∧ n ≤ 57 then n - 48
  else if 97 ≤ n ∧ n ≤ 122 then n - 87
  else if 65 ≤ n ∧ n ≤ 90 then n - 55
  else radix

/-- `char::to_digit`. -/
def toDigit (radix : Nat) (c : Char) : Option Nat :=
  if rawDigit radix c.toNat < radix then some (rawDigit radix c.toNat) else none

/-- The loop of `from_str_radix` over the digits with overflow checks. -/
def digits (radix bound : Nat) (acc : Nat) : Text → Option Nat
  | [] => some acc
  | c :: cs =>
    match toDigit radix c with
    | none => none
    | some d => if acc * radix + d < bound then digits radix bound (acc * radix + d) cs else none

/-- Skip a leading plus sign. -/
def unsign : Text → Text
  | '+' :: rest => rest
  | s => s

/-- The digits of a number, at least one. -/
def parseDigits (radix bound : Nat) (ds : Text) : Except CodecError Nat :=
  if ds = [] then .error .expectedInt
  else match digits radix bound 0 ds with
    | none => .error .expectedInt
    | some n => .ok n

/-- `from_str_radix` of an unsigned integer type with values below `bound`: empty text and a lone
sign are errors, a leading `+` is skipped. -/
def parseInt (radix bound : Nat) (s : Text) : Except CodecError Nat :=
  parseDigits radix bound (unsign s)

/-- `u8::from_str`. -/
def parseU8 (s : Text) : Except CodecError UInt8 := (parseInt 10 256 s).map UInt8.ofNat

/-- `u8::from_str_radix(_, 16)`. -/
def parseHex8 (s : Text) : Except CodecError UInt8 := (parseInt 16 256 s).map UInt8.ofNat

/-- The digit `n`, lower case. -/
def digit (n : Nat) : Char := if n < 10 then Char.ofNat (48 + n) else Char.ofNat (87 + n)

/-- The digit `n`, upper case. -/
def digitUpper (n : Nat) : Char := if n < 10 then Char.ofNat (48 + n) else Char.ofNat (55 + n)

/-- `{}` of a `u8`. -/
def dec (b : UInt8) : Text :=
  let n := b.toNat
  if n < 10 then [digit n]
  else if n < 100 then [digit (n / 10), digit (n % 10)]
  else [digit (n / 100), digit (n / 10 % 10), digit (n % 10)]

/-- `{:02}` of a `u8`. -/
def dec2 (b : UInt8) : Text := if b.toNat < 10 then ['0', digit b.toNat] else dec b

/-- `{:02x}` of a `u8`. -/
def hex2 (b : UInt8) : Text := [digit (b.toNat / 16), digit (b.toNat % 16)]

/-- `{:X}` of a `u8`, without padding. -/
def hexUpper (b : UInt8) : Text :=
  if b.toNat < 16 then [digitUpper b.toNat] else [digitUpper (b.toNat / 16), digitUpper (b.toNat % 16)]

/-- `{}` of a `bool as u8`. -/
def decBool (b : Bool) : Text := if b then ['1'] else ['0']

/-- The length of a string in bytes. -/
def byteLen (s : Text) : Nat := (s.map fun c => c.utf8Size).sum

/-- The part of a string from byte `n` on, if `n` falls between two characters. -/
def dropBytes : Text → Nat → Option Text
  | [], n => if n = 0 then some [] else none
  | c :: cs, n =>
    if n = 0 then some (c :: cs)
    else if c.utf8Size ≤ n then dropBytes cs (n - c.utf8Size) else none

/-- The part of a string before byte `n`, if `n` falls between two characters. -/
def takeBytes : Text → Nat → Option Text
  | [], n => if n = 0 then some [] else none
  | c :: cs, n =>
    if n = 0 then some []
    else if c.utf8Size ≤ n then (takeBytes cs (n - c.utf8Size)).map (c :: ·) else none

/-- `&s[a..b]`; `none` is the panic at an index that is not between two characters. -/
def slice (s : Text) (a b : Nat) : Option Text :=
  match dropBytes s a with
  | none => none
  | some t => takeBytes t (b - a)

end Verif.Hang
