import Verif.Base

/-!
# Model of `rs/moq/src/coding`

Integers are `Nat` (a Rust `u64`/`usize` is a `Nat` below 2^64; `usize` is taken
to be 64 bits wide).  An encoder returns the bytes written or a panic; a decoder
takes the readable bytes of a `bytes::Buf` and returns the value together with
the bytes left, or a `DecodeError`.
-/

namespace Verif.Coding

open Verif

/-- `DecodeError`, rs/moq/src/coding/decode.rs:8-47 (payloads of the variants that
carry one are dropped, except none is needed by any modelled decoder). -/
inductive DecodeError where
  | short
  | invalidString
  | invalidMessage
  | invalidRole
  | invalidSubscribeLocation
  | invalidValue
  | boundsExceeded
  | expectedEnd
  | expectedData
  | duplicateParameter
  | missingParameter
  | invalidParameter
  deriving DecidableEq, Repr

/-- `Decode::decode`, rs/moq/src/coding/decode.rs:4-6: consumes from the front of
the readable bytes.  On an error the remaining bytes are irrelevant: the only
caller (`Reader::decode`) discards its cursor. -/
def Dec (α : Type) : Type := Bytes → Except DecodeError (α × Bytes)

namespace Dec

@[inline] def pure {α} (a : α) : Dec α := fun r => .ok (a, r)

@[inline] def bind {α β} (d : Dec α) (f : α → Dec β) : Dec β := fun r =>
  match d r with
  | .ok (a, r') => f a r'
  | .error e => .error e

/-- `return Err(e)` -/
@[inline] def fail {α} (e : DecodeError) : Dec α := fun _ => .error e

instance : Monad Dec where
  pure := Dec.pure
  bind := Dec.bind

end Dec

/-! ## Big-endian integers (contract of `bytes::BufMut::put_uN` and `uN::from_be_bytes`) -/

/-- `put_u8`/`put_u16`/`put_u32`/`put_u64` write the `k` low bytes, most significant first. -/
def toBE : Nat → Nat → Bytes
  | 0, _ => []
  | k + 1, v => UInt8.ofNat (v >>> (8 * k)) :: toBE k v

/-- `from_be_bytes`. -/
def fromBE (bs : Bytes) : Nat := bs.foldl (fun acc b => acc * 256 + b.toNat) 0

/-! ## Writers

`Encode::encode` is generic over the writer, so an encoder is modelled by the calls it
makes on the writer.  There are two writers: growable buffers (`Vec<u8>`, `BytesMut`),
which append the bytes, and `Sizer`, which counts them. -/

/-- The calls on `BufMut` made by the modelled encoders. -/
inductive Put where
  /-- `put_u8` -/
  | u8 (v : Nat)
  /-- `put_u16` -/
  | u16 (v : Nat)
  /-- `put_u32` -/
  | u32 (v : Nat)
  /-- `put_u64` -/
  | u64 (v : Nat)
  /-- `put_slice`, `put` -/
  | slice (b : Bytes)

/-- What a growable buffer appends for a call. -/
def Put.bytes : Put → Bytes
  | .u8 v => toBE 1 v
  | .u16 v => toBE 2 v
  | .u32 v => toBE 4 v
  | .u64 v => toBE 8 v
  | .slice b => b

/-- What `Sizer` adds to its size: rs/moq/src/coding/size.rs:27-30 (`put`), 124-126
(`put_slice`), 140-142 (`put_u16`), 152-154 (`put_u32`), 164-166 (`put_u64`), 176-178
(`put_u8`). -/
def Put.size : Put → Nat
  | .u8 _ => 1
  | .u16 _ => 2
  | .u32 _ => 4
  | .u64 _ => 8
  | .slice b => b.length

/-- An encoder: the calls made on the writer, or a panic. -/
abbrev Enc := Except Panic (List Put)

/-- Two consecutive `encode` calls on one writer. -/
def Enc.seq (a b : Enc) : Enc :=
  match a with
  | .error p => .error p
  | .ok x =>
    match b with
    | .error p => .error p
    | .ok y => .ok (x ++ y)

infixr:65 " ⨾ " => Enc.seq

/-- Encoding to a growable buffer. -/
def wire (e : Enc) : Except Panic Bytes :=
  match e with
  | .ok ps => .ok (ps.flatMap Put.bytes)
  | .error p => .error p

/-- `Encode::encode_size` as provided by the trait, rs/moq/src/coding/encode.rs:12-16:
encoding to a `Sizer` and returning its size. -/
def sizer (e : Enc) : Except Panic Nat :=
  match e with
  | .ok ps => .ok (ps.map Put.size).sum
  | .error p => .error p

/-! ## VarInt -/

/-- `VarInt::MAX`, rs/moq/src/coding/varint.rs:26. -/
def VarInt.MAX : Nat := (1 <<< 62) - 1

/-- `BoundsExceeded`, rs/moq/src/coding/varint.rs:12-14. -/
inductive BoundsExceeded where
  | mk
  deriving DecidableEq, Repr

/-- `TryFrom<u64> for VarInt`, rs/moq/src/coding/varint.rs:79-91 (also `u128`, 93-104,
and `usize`, 106-113, which have the same test). -/
def VarInt.tryFrom (x : Nat) : Except BoundsExceeded Nat :=
  if x ≤ VarInt.MAX then .ok x else .error .mk

/-- `TryFrom<VarInt> for u32`, rs/moq/src/coding/varint.rs:115-126. -/
def VarInt.toU32 (x : Nat) : Except BoundsExceeded Nat :=
  if x ≤ 2 ^ 32 - 1 then .ok (x % 2 ^ 32) else .error .mk

/-- `TryFrom<VarInt> for u16`, rs/moq/src/coding/varint.rs:128-139. -/
def VarInt.toU16 (x : Nat) : Except BoundsExceeded Nat :=
  if x ≤ 2 ^ 16 - 1 then .ok (x % 2 ^ 16) else .error .mk

/-- `TryFrom<VarInt> for u8`, rs/moq/src/coding/varint.rs:141-152. -/
def VarInt.toU8 (x : Nat) : Except BoundsExceeded Nat :=
  if x ≤ 2 ^ 8 - 1 then .ok (x % 2 ^ 8) else .error .mk

/-- `VarInt::decode`, rs/moq/src/coding/varint.rs:160-201.  The tag is the two top
bits, so the last arm is `0b11`; the `unreachable!` arm does not exist for a
two-bit tag. -/
def decodeVarInt : Dec Nat := fun r =>
  match r with
  | [] => .error .short
  | b :: r =>
    let tag := (b >>> 6).toNat
    let b0 := b &&& 0b00111111
    match tag with
    | 0 => .ok (b0.toNat, r)
    | 1 =>
      if r.length < 1 then .error .short
      else .ok (fromBE (b0 :: r.take 1), r.drop 1)
    | 2 =>
      if r.length < 3 then .error .short
      else .ok (fromBE (b0 :: r.take 3), r.drop 3)
    | _ =>
      if r.length < 7 then .error .short
      else .ok (fromBE (b0 :: r.take 7), r.drop 7)

/-- `VarInt::encode_size`, rs/moq/src/coding/varint.rs:215-225. -/
def VarInt.encodeSize (v : Nat) : Nat :=
  if v < 2 ^ 6 then 1
  else if v < 2 ^ 14 then 2
  else if v < 2 ^ 30 then 4
  else 8

/-- `VarInt::encode`, rs/moq/src/coding/varint.rs:203-213.  `self.0 as uN` is reduction
modulo 2^N.  The last arm is `8`; `encode_size` returns nothing else. -/
def VarInt.encode (v : Nat) : Enc :=
  match VarInt.encodeSize v with
  | 1 => .ok [.u8 (v % 2 ^ 8)]
  | 2 => .ok [.u16 ((0b01 <<< 14) ||| (v % 2 ^ 16))]
  | 4 => .ok [.u32 ((0b10 <<< 30) ||| (v % 2 ^ 32))]
  | _ => .ok [.u64 ((0b11 <<< 62) ||| v)]

/-- `Encode for u64`, rs/moq/src/coding/varint.rs:228-235, and `Encode for usize`, 243-250. -/
def encodeU64 (v : Nat) : Enc :=
  match VarInt.tryFrom v with
  | .ok v => VarInt.encode v
  | .error _ => .error .tooLarge

/-- `Decode for u64`, rs/moq/src/coding/varint.rs:237-241, and `Decode for usize`, 252-256. -/
def decodeU64 : Dec Nat := decodeVarInt

/-- `Encode for u32`, rs/moq/src/coding/varint.rs:258-262. -/
def encodeU32 (v : Nat) : Enc := VarInt.encode v

/-- `Decode for u32`, rs/moq/src/coding/varint.rs:264-270. -/
def decodeU32 : Dec Nat := do
  let v ← decodeVarInt
  match VarInt.toU32 v with
  | .ok v => pure v
  | .error _ => Dec.fail .boundsExceeded

/-! ## Primitives -/

/-- `Encode for u8`, rs/moq/src/coding/encode.rs:19-27. -/
def encodeU8 (v : UInt8) : Enc := .ok [.u8 v.toNat]

/-- `Decode for u8`, rs/moq/src/coding/decode.rs:49-56. -/
def decodeU8 : Dec UInt8 := fun r =>
  match r with
  | b :: r => .ok (b, r)
  | [] => .error .short

/-- `Encode for i8`, rs/moq/src/coding/encode.rs:49-60: `((x as i16) + 128) as u8`.
An `i8` is an `Int` (in range -128..127); the cast to `u8` is modulo 256. -/
def encodeI8 (v : Int) : Enc := .ok [.u8 ((v + 128) % 256).toNat]

/-- `Decode for i8`, rs/moq/src/coding/decode.rs:90-101: `((b as i16) - 128) as i8`;
the value is in the range of `i8`, so the cast is the identity. -/
def decodeI8 : Dec Int := fun r =>
  match r with
  | [] => .error .short
  | b :: r => .ok ((b.toNat : Int) - 128, r)

/-- `Encode for Vec<T>` and `&[T]`, rs/moq/src/coding/encode.rs:62-78: the items after
the length. -/
def encodeItems {α} (enc : α → Enc) : List α → Enc
  | [] => .ok []
  | x :: xs => enc x ⨾ encodeItems enc xs

/-- `Encode for Vec<T>`, rs/moq/src/coding/encode.rs:71-78. -/
def encodeVec {α} (enc : α → Enc) (v : List α) : Enc :=
  encodeU64 v.length ⨾ encodeItems enc v

/-- The loop `for _ in 0..size { v.push(T::decode(buf)?) }`,
rs/moq/src/coding/decode.rs:75-77 (the capacity hint in line 73 is not modelled). -/
def decodeN {α} (d : Dec α) : Nat → Dec (List α)
  | 0 => Dec.pure []
  | n + 1 => Dec.bind d fun x => Dec.bind (decodeN d n) fun xs => Dec.pure (x :: xs)

/-- `Decode for Vec<T>`, rs/moq/src/coding/decode.rs:68-81. -/
def decodeVec {α} (d : Dec α) : Dec (List α) := do
  let size ← decodeU64
  decodeN d size

/-- The UTF-8 bytes of a string, `str::as_bytes`. -/
def strBytes (s : String) : Bytes := s.toByteArray.data.toList

/-- `String::from_utf8` (Lean strings, like Rust strings, are valid UTF-8 byte
sequences; both standard libraries accept exactly the valid ones). -/
def strFromUtf8 (bs : Bytes) : Option String := String.fromUTF8? ⟨bs.toArray⟩

/-- `Encode for &str` and `String`, rs/moq/src/coding/encode.rs:29-40. -/
def encodeString (s : String) : Enc :=
  encodeU64 (strBytes s).length ⨾ .ok [.slice (strBytes s)]

/-- `Decode for String`, rs/moq/src/coding/decode.rs:58-66. -/
def decodeString : Dec String := do
  let v ← decodeVec decodeU8
  match strFromUtf8 v with
  | some s => pure s
  | none => Dec.fail .invalidString

/-- `Encode for Bytes`, rs/moq/src/coding/encode.rs:80-89. -/
def encodeBytes (b : Bytes) : Enc := encodeU64 b.length ⨾ .ok [.slice b]

/-- The body of `Decode for Bytes` after the length, rs/moq/src/coding/decode.rs:106-110:
`remaining() < len` is short, otherwise `copy_to_bytes(len)`. -/
def takeBytes (len : Nat) : Dec Bytes := fun r =>
  if r.length < len then .error .short else .ok (r.take len, r.drop len)

/-- `Decode for Bytes`, rs/moq/src/coding/decode.rs:103-112. -/
def decodeBytes : Dec Bytes := do
  let len ← decodeU64
  takeBytes len

/-- `Encode for Duration`, rs/moq/src/coding/encode.rs:42-47.  A `std::time::Duration` is a
number of nanoseconds; `as_micros` truncates. -/
def encodeDuration (d : Nat) : Enc :=
  if d / 1000 < 2 ^ 64 then encodeU64 (d / 1000) else .error .tooLarge

/-- `Decode for Duration`, rs/moq/src/coding/decode.rs:83-88 (`Duration::from_micros`). -/
def decodeDuration : Dec Nat := do
  let us ← decodeU64
  pure (1000 * us)

/-! ## Overridden sizes

`encode_size` is overridden for `VarInt` (above), `u8`, `i8`, `Bytes` and `Arc<T>` (which
delegates); every other type uses `sizer`. -/

/-- `encode_size` of `u8`, rs/moq/src/coding/encode.rs:24-26. -/
def encodeSizeU8 (_ : UInt8) : Nat := 1

/-- `encode_size` of `i8`, rs/moq/src/coding/encode.rs:57-59. -/
def encodeSizeI8 (_ : Int) : Nat := 1

/-- `encode_size` of `Bytes`, rs/moq/src/coding/encode.rs:86-88: the size of the length
(`usize` does not override `encode_size`) plus the length. -/
def encodeSizeBytes (b : Bytes) : Except Panic Nat :=
  match sizer (encodeU64 b.length) with
  | .ok n => .ok (n + b.length)
  | .error p => .error p

end Verif.Coding
