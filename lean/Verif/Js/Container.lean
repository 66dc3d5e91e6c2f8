import Verif.Coding.Model

/-!
# Model of `js/hang/src/container/vint.ts` and the functions of `frame.ts`

Media frames as the browser writes and reads them: a timestamp in microseconds and the payload.

Numbers of JavaScript that occur here are integers (the timestamps of WebCodecs are): those given to
`encodeFrame` may be negative.  An array is its bytes; it may be a part of a larger buffer, which the
views here do not leave without an exception.
-/

set_option autoImplicit false

namespace Verif.Js.Container

open Verif Verif.Coding

/-- What is thrown. -/
inductive Err where
  /-- `RangeError`: a view beyond the end of the array -/
  | range
  /-- "overflow, value larger than 53-bits", js/hang/src/container/vint.ts:55 -/
  | overflow
  deriving DecidableEq, Repr

/-- `MAX_U6`, js/hang/src/container/vint.ts:1. -/
def MAX_U6 : Nat := 2 ^ 6 - 1

/-- `MAX_U14`, js/hang/src/container/vint.ts:2. -/
def MAX_U14 : Nat := 2 ^ 14 - 1

/-- `MAX_U30`, js/hang/src/container/vint.ts:3. -/
def MAX_U30 : Nat := 2 ^ 30 - 1

/-- `MAX_U53` (`Number.MAX_SAFE_INTEGER`), js/hang/src/container/vint.ts:4. -/
def MAX_U53 : Nat := 2 ^ 53 - 1

/-- `Number(n)` for a bigint below 2^64: 53 significant bits are kept, the rest is rounded, and a tie
goes to the even neighbour (ECMA-262, Number::fromBigInt; part of the trusted base). -/
def toNumber (n : Nat) : Nat :=
  let unit := 2 ^ (Nat.log2 n - 52)
  let q := n / unit
  let r := n % unit
  if 2 * r < unit then q * unit
  else if unit < 2 * r then (q + 1) * unit
  else if q % 2 = 0 then q * unit
  else (q + 1) * unit

/-- `getVint53`, js/hang/src/container/vint.ts:8-29.  `buf[0]` of an empty array counts as 0.  If the
array is too short, either the view or the rest has an invalid length.  `getInt16` is signed, but its
sign is above the mask. -/
def getVint53 (buf : Bytes) : Except Err (Nat × Bytes) :=
  let size := 1 <<< (((buf.headD 0).toNat &&& 0xc0) >>> 6)
  if buf.length < size then .error .range
  else
    let view := buf.take size
    let remain := buf.drop size
    if size = 1 then .ok (fromBE view &&& 0x3f, remain)
    else if size = 2 then .ok (fromBE view &&& 0x3fff, remain)
    else if size = 4 then .ok (fromBE view &&& 0x3fffffff, remain)
    else .ok (toNumber (fromBE view &&& 0x3fffffffffffffff), remain)

/-- Replace the bytes of an array from a position on; the new bytes must fit. -/
def overwrite (dst : Bytes) (pos : Nat) (src : Bytes) : Except Err Bytes :=
  if dst.length < pos + src.length then .error .range
  else .ok (dst.take pos ++ src ++ dst.drop (pos + src.length))

/-- `setVint53`, js/hang/src/container/vint.ts:31-56: the array changed, and the number of bytes
written.  Storing a number into a byte takes it modulo 256.  `|` on numbers gives a signed 32-bit
integer, of which `setUint16` and `setUint32` take the low bits. -/
def setVint53 (dst : Bytes) (v : Int) : Except Err (Bytes × Nat) :=
  if v ≤ MAX_U6 then (overwrite dst 0 [UInt8.ofNat (v % 256).toNat]).map (·, 1)
  else if v ≤ MAX_U14 then (overwrite dst 0 (toBE 2 (v.toNat ||| 0x4000))).map (·, 2)
  else if v ≤ MAX_U30 then (overwrite dst 0 (toBE 4 (v.toNat ||| 0x80000000))).map (·, 4)
  else if v ≤ MAX_U53 then (overwrite dst 0 (toBE 8 (v.toNat ||| 0xc000000000000000))).map (·, 8)
  else .error .overflow

/-- `encodeFrame`, js/hang/src/container/frame.ts:9-18.  A source that is not an array copies as many
bytes as its length says. -/
def encodeFrame (source : Bytes) (timestamp : Int) : Except Err Bytes :=
  match setVint53 (List.replicate (8 + source.length) 0) timestamp with
  | .error e => .error e
  | .ok (data, size) =>
    match overwrite data size source with
    | .error e => .error e
    | .ok data => .ok (data.take (source.length + size))

/-- `decodeFrame`, js/hang/src/container/frame.ts:21-24. -/
def decodeFrame (buffer : Bytes) : Except Err (Nat × Bytes) := getVint53 buffer

/-! ## Vocabulary -/

/-- A number with at most 53 significant bits. -/
def Double (d : Nat) : Prop := ∃ m e, m < 2 ^ 53 ∧ d = m * 2 ^ e

/-- The distance of two numbers. -/
def dist (a b : Nat) : Nat := (a - b) + (b - a)

end Verif.Js.Container
