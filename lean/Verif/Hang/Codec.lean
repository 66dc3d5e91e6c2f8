import Verif.Hang.Text

/-!
# Model of the codec strings of `rs/hang/src/catalog`

`u8` fields are `UInt8`, strings are lists of characters.  The regular expression of AV1 has a
fixed width in each of its two forms, so matching it is a comparison with a list of character
classes.  Its classes `\d` and `\w` are Unicode classes of the `regex` crate; what they contain
beyond ASCII is a parameter.
-/

set_option autoImplicit false

namespace Verif.Hang

open Verif

/-! ## VP9, rs/hang/src/catalog/video/vp9.rs -/

/-- `VP9`, vp9.rs:6-15 -/
structure VP9 where
  profile : UInt8
  level : UInt8
  bitDepth : UInt8
  chromaSubsampling : UInt8 := 1
  colorPrimaries : UInt8 := 1
  transferCharacteristics : UInt8 := 1
  matrixCoefficients : UInt8 := 1
  fullRange : Bool := false
  deriving DecidableEq, Repr

/-- "vp09." -/
def vp9Prefix : Text := ['v', 'p', '0', '9', '.']

/-- `Display for VP9`, vp9.rs:19-44; the defaults of lines 84-97 are those of the structure. -/
def VP9.format (c : VP9) : Text :=
  let head := vp9Prefix ++ dec2 c.profile ++ '.' :: dec2 c.level ++ '.' :: dec2 c.bitDepth
  let short : VP9 := { profile := c.profile, level := c.level, bitDepth := c.bitDepth }
  if c = short then head
  else
    head ++ '.' :: dec2 c.chromaSubsampling ++ '.' :: dec2 c.colorPrimaries
      ++ '.' :: dec2 c.transferCharacteristics ++ '.' :: dec2 c.matrixCoefficients
      ++ '.' :: '0' :: decBool c.fullRange

/-- `.map(u8::from_str).collect::<Result<Vec<_>, _>>()`: the first error counts. -/
def parseAll : List Text → Except CodecError (List UInt8)
  | [] => .ok []
  | p :: ps =>
    match parseU8 p with
    | .error e => .error e
    | .ok b => match parseAll ps with
      | .error e => .error e
      | .ok bs => .ok (b :: bs)

/-- `str::strip_prefix`. -/
def stripPrefix (pre s : Text) : Option Text :=
  if pre.isPrefixOf s then some (s.drop pre.length) else none

/-- `FromStr for VP9`, vp9.rs:46-82 -/
def VP9.parse (s : Text) : Except CodecError VP9 :=
  match stripPrefix vp9Prefix s with
  | none => .error .invalidCodec
  | some rest =>
    match parseAll (split '.' rest) with
    | .error e => .error e
    | .ok parts =>
      match parts with
      | [p, l, b] => .ok { profile := p, level := l, bitDepth := b }
      | [p, l, b, cs, cp, tc, mc, fr] =>
        .ok { profile := p, level := l, bitDepth := b, chromaSubsampling := cs, colorPrimaries := cp,
              transferCharacteristics := tc, matrixCoefficients := mc, fullRange := fr == 1 }
      | _ => .error .invalidCodec

/-! ## AV1, rs/hang/src/catalog/video/av1.rs -/

/-- `AV1`, av1.rs:7-20 with the defaults of lines 112-130 for the fields that may be omitted -/
structure AV1 where
  profile : UInt8
  level : UInt8
  tier : Char
  bitdepth : UInt8
  monoChrome : Bool := false
  chromaSubsamplingX : Bool := true
  chromaSubsamplingY : Bool := true
  chromaSamplePosition : UInt8 := 0
  colorPrimaries : UInt8 := 1
  transferCharacteristics : UInt8 := 1
  matrixCoefficients : UInt8 := 1
  fullRange : Bool := false
  deriving DecidableEq, Repr

/-- "av01." -/
def av1Prefix : Text := ['a', 'v', '0', '1', '.']

/-- `Display for AV1`, av1.rs:28-61 -/
def AV1.format (c : AV1) : Text :=
  let head := av1Prefix ++ dec c.profile ++ '.' :: dec2 c.level ++ c.tier :: '.' :: dec2 c.bitdepth
  let short : AV1 :=
    { profile := c.profile, level := c.level, tier := c.tier, bitdepth := c.bitdepth }
  if c = short then head
  else
    head ++ '.' :: decBool c.monoChrome ++ '.' :: decBool c.chromaSubsamplingX
      ++ decBool c.chromaSubsamplingY ++ dec c.chromaSamplePosition ++ '.' :: dec2 c.colorPrimaries
      ++ '.' :: dec2 c.transferCharacteristics ++ '.' :: dec2 c.matrixCoefficients
      ++ '.' :: decBool c.fullRange

/-- The character classes of the `regex` crate. -/
structure Classes where
  /-- `\d` -/
  digit : Char → Bool
  /-- `\w` -/
  word : Char → Bool

/-- A literal character of a regular expression. -/
def lit (c : Char) : Char → Bool := fun x => x == c

/-- The class `[01]`. -/
def bit : Char → Bool := fun x => x == '0' || x == '1'

/-- The class `[0-3]`. -/
def quad : Char → Bool := fun x => x == '0' || x == '1' || x == '2' || x == '3'

/-- The first part of `AV1_REGEX`, av1.rs:65-68. -/
def av1Short (k : Classes) : List (Char → Bool) :=
  [lit 'a', lit 'v', lit '0', lit '1', lit '.', bit, lit '.', k.digit, k.digit, k.word, lit '.',
    k.digit, k.digit]

/-- The optional part of `AV1_REGEX`, av1.rs:69-76. -/
def av1Extra (k : Classes) : List (Char → Bool) :=
  [lit '.', k.digit, lit '.', bit, bit, quad, lit '.', k.digit, k.digit, lit '.', k.digit, k.digit,
    lit '.', k.digit, k.digit, lit '.', bit]

/-- A text consists of one character of each class. -/
def fits : List (Char → Bool) → Text → Bool
  | [], [] => true
  | p :: ps, c :: cs => p c && fits ps cs
  | _, _ => false

/-- `FromStr for AV1`, av1.rs:81-110.  The named captures are at fixed positions. -/
def AV1.parse (k : Classes) (s : Text) : Except CodecError AV1 :=
  let cap (i n : Nat) : Text := (s.drop i).take n
  let one (i : Nat) : Bool := cap i 1 == ['1']
  let long := fits (av1Short k ++ av1Extra k) s
  if fits (av1Short k) s || long then
    match parseU8 (cap 5 1), parseU8 (cap 7 2), parseU8 (cap 11 2) with
    | .ok profile, .ok level, .ok bitdepth =>
      let tier := (cap 9 1).headD 'M'
      if !long then
        .ok { profile := profile, level := level, tier := tier, bitdepth := bitdepth }
      else
        match parseU8 (cap 18 1), parseU8 (cap 20 2), parseU8 (cap 23 2), parseU8 (cap 26 2) with
        | .ok csp, .ok cp, .ok tc, .ok mc =>
          .ok { profile := profile, level := level, tier := tier, bitdepth := bitdepth,
                monoChrome := one 14, chromaSubsamplingX := one 16, chromaSubsamplingY := one 17,
                chromaSamplePosition := csp, colorPrimaries := cp, transferCharacteristics := tc,
                matrixCoefficients := mc, fullRange := one 29 }
        | _, _, _, _ => .error .expectedInt
    | _, _, _ => .error .expectedInt
  else .error .invalidCodec

/-! ## H.264, rs/hang/src/catalog/video/h264.rs -/

/-- `H264`, h264.rs:9-13 -/
structure H264 where
  profile : UInt8
  constraints : UInt8
  level : UInt8
  deriving DecidableEq, Repr

/-- "avc1" -/
def avc1 : Text := ['a', 'v', 'c', '1']

/-- `Display for H264`, h264.rs:15-19 -/
def H264.format (c : H264) : Text :=
  avc1 ++ '.' :: hex2 c.profile ++ hex2 c.constraints ++ hex2 c.level

/-- A result that may also be a panic. -/
inductive Parsed (α : Type) where
  | ok (a : α)
  | error (e : CodecError)
  /-- a byte index that is not between two characters -/
  | panic
  deriving DecidableEq, Repr

/-- `u8::from_str_radix(&part[a..b], 16)?`, h264.rs:36-38 -/
def hexSlice {α : Type} (part : Text) (a b : Nat) (f : UInt8 → Parsed α) : Parsed α :=
  match slice part a b with
  | none => .panic
  | some t => match parseHex8 t with
    | .error e => .error e
    | .ok v => f v

/-- `FromStr for H264`, h264.rs:21-41 -/
def H264.parse (s : Text) : Parsed H264 :=
  match split '.' s with
  | name :: part :: _ =>
    if name ≠ avc1 then .error .invalidCodec
    else if byteLen part ≠ 6 then .error .invalidCodec
    else hexSlice part 0 2 fun p => hexSlice part 2 4 fun c => hexSlice part 4 6 fun l =>
      .ok { profile := p, constraints := c, level := l }
  | _ => .error .invalidCodec

/-! ## H.265, rs/hang/src/catalog/video/h265.rs -/

/-- `H265`, h265.rs:8-26 -/
structure H265 where
  inBand : Bool
  profileSpace : UInt8
  profileIdc : UInt8
  compatibility : Vector UInt8 4
  tierFlag : Bool
  levelIdc : UInt8
  constraints : Vector UInt8 6
  deriving DecidableEq

/-- `join`. -/
def join (sep : Text) : List Text → Text
  | [] => []
  | [p] => p
  | p :: ps => p ++ sep ++ join sep ps

/-- "hev1" or "hvc1" -/
def h265Name (inBand : Bool) : Text := if inBand then ['h', 'e', 'v', '1'] else ['h', 'v', 'c', '1']

/-- The letter of a profile space, h265.rs:56-59, with saturating arithmetic in a `u8`. -/
def spaceText (n : UInt8) : Text :=
  if n = 0 then [] else [Char.ofNat (min (65 + n.toNat) 255 - 1)]

/-- `Display for H265`, h265.rs:28-70 -/
def H265.format (c : H265) : Text :=
  let compat := join [] ((c.compatibility.toList.reverse.dropWhile (· == 0)).map hexUpper)
  let skip := (c.constraints.toList.reverse.dropWhile (· == 0)).length
  let constr := join ['.'] ((c.constraints.toList.take skip).map hexUpper)
  h265Name c.inBand ++ '.' :: spaceText c.profileSpace ++ dec c.profileIdc ++ '.' :: compat
    ++ '.' :: (if c.tierFlag then ['H'] else ['L']) ++ dec c.levelIdc ++ '.' :: constr

/-- The profile space of the text of a profile, h265.rs:85-89: its first byte, which is the first
character if it is a letter. -/
def spaceOf (c : Char) : UInt8 :=
  if 65 ≤ c.toNat ∧ c.toNat ≤ 90 then UInt8.ofNat (1 + c.toNat - 65) else 0

/-- `u32::to_le_bytes` -/
def toLeBytes (n : Nat) : Vector UInt8 4 :=
  #v[UInt8.ofNat n, UInt8.ofNat (n / 256), UInt8.ofNat (n / 65536), UInt8.ofNat (n / 16777216)]

/-- The loop over the constraint flags, h265.rs:104-113. -/
def constraintsFrom (i : Nat) (acc : Vector UInt8 6) :
    List Text → Except CodecError (Vector UInt8 6)
  | [] => .ok acc
  | p :: ps =>
    if h : i < 6 then
      match parseHex8 p with
      | .error e => .error e
      | .ok b => constraintsFrom (i + 1) (acc.set i b h) ps
    else .error .invalidCodec

/-- The letter of the tier with the rest of the text, h265.rs:96-102. -/
def tierOf : Text → Option (Bool × Text)
  | 'H' :: rest => some (true, rest)
  | 'L' :: rest => some (false, rest)
  | _ => none

/-- The name, h265.rs:78-82. -/
def inBandOf (s : Text) : Option Bool :=
  if s = ['h', 'e', 'v', '1'] then some true
  else if s = ['h', 'v', 'c', '1'] then some false
  else none

/-- The profile, h265.rs:84-89. -/
def profileOf : Text → Except CodecError (UInt8 × UInt8)
  | [] => .error .invalidCodec
  | first :: more =>
    (parseU8 (if spaceOf first = 0 then first :: more else more)).map fun idc =>
      (spaceOf first, idc)

/-- `FromStr for H265`, h265.rs:72-125.  The slices `[1..]` follow a check that the first byte is
a letter, so they do not panic. -/
def H265.parse (s : Text) : Except CodecError H265 :=
  match split '.' s with
  | [] => .error .invalidCodec
  | name :: parts =>
    match inBandOf name, parts with
    | none, _ => .error .invalidCodec
    | some _, [] => .error .invalidCodec
    | some inBand, profile :: parts =>
      match profileOf profile with
      | .error e => .error e
      | .ok (space, idc) =>
        match parts with
        | [] => .error .invalidCodec
        | compat :: parts =>
          match parseInt 16 4294967296 compat with
          | .error e => .error e
          | .ok flags =>
            match parts with
            | [] => .error .invalidCodec
            | level :: parts =>
              match tierOf level with
              | none => .error .invalidCodec
              | some (tier, rest) =>
                match parseU8 rest with
                | .error e => .error e
                | .ok level =>
                  match constraintsFrom 0 (Vector.replicate 6 0) parts with
                  | .error e => .error e
                  | .ok constraints =>
                    .ok { inBand := inBand, profileSpace := space, profileIdc := idc,
                          compatibility := toLeBytes flags, tierFlag := tier, levelIdc := level,
                          constraints := constraints }

/-! ## AAC and the dispatch, rs/hang/src/catalog/audio and video/codec.rs -/

/-- `AAC`, aac.rs:6-10 -/
structure AAC where
  profile : UInt8
  deriving DecidableEq, Repr

/-- "mp4a.40." -/
def aacPrefix : Text := ['m', 'p', '4', 'a', '.', '4', '0', '.']

/-- `Display for AAC`, aac.rs:12-16 -/
def AAC.format (c : AAC) : Text := aacPrefix ++ dec c.profile

/-- `FromStr for AAC`, aac.rs:18-27 -/
def AAC.parse (s : Text) : Except CodecError AAC :=
  match stripPrefix aacPrefix s with
  | none => .error .invalidCodec
  | some rest => (parseU8 rest).map fun p => { profile := p }

/-- `AudioCodec`, rs/hang/src/catalog/audio/codec.rs:7-16 -/
inductive AudioCodec where
  | aac (c : AAC)
  | opus
  | unknown (s : Text)
  deriving DecidableEq, Repr

/-- "opus" -/
def opusName : Text := ['o', 'p', 'u', 's']

/-- `Display for AudioCodec`, derived, audio/codec.rs:7-16 -/
def AudioCodec.format : AudioCodec → Text
  | .aac c => c.format
  | .opus => opusName
  | .unknown s => s

/-- `FromStr for AudioCodec`, audio/codec.rs:18-30 -/
def AudioCodec.parse (s : Text) : Except CodecError AudioCodec :=
  if aacPrefix.isPrefixOf s then (AAC.parse s).map .aac
  else if s = opusName then .ok .opus
  else .ok (.unknown s)

/-- `VideoCodec`, rs/hang/src/catalog/video/codec.rs:10-22 -/
inductive VideoCodec where
  | h264 (c : H264)
  | h265 (c : H265)
  | vp9 (c : VP9)
  | av1 (c : AV1)
  | vp8
  | unknown (s : Text)
  deriving DecidableEq

/-- "vp8" -/
def vp8Name : Text := ['v', 'p', '8']

/-- `Display for VideoCodec`, derived, video/codec.rs:10-22 -/
def VideoCodec.format : VideoCodec → Text
  | .h264 c => c.format
  | .h265 c => c.format
  | .vp9 c => c.format
  | .av1 c => c.format
  | .vp8 => vp8Name
  | .unknown s => s

/-- A result without a panic. -/
def Parsed.of {α β : Type} (f : α → β) : Except CodecError α → Parsed β
  | .ok a => .ok (f a)
  | .error e => .error e

/-- `map(Into::into)` -/
def Parsed.map {α β : Type} (f : α → β) : Parsed α → Parsed β
  | .ok a => .ok (f a)
  | .error e => .error e
  | .panic => .panic

/-- `FromStr for VideoCodec`, video/codec.rs:24-42 -/
def VideoCodec.parse (k : Classes) (s : Text) : Parsed VideoCodec :=
  if (avc1 ++ ['.']).isPrefixOf s then (H264.parse s).map .h264
  else if (h265Name false ++ ['.']).isPrefixOf s || (h265Name true ++ ['.']).isPrefixOf s then
    Parsed.of .h265 (H265.parse s)
  else if s = vp8Name then .ok .vp8
  else if vp9Prefix.isPrefixOf s then Parsed.of .vp9 (VP9.parse s)
  else if av1Prefix.isPrefixOf s then Parsed.of .av1 (AV1.parse k s)
  else .ok (.unknown s)

end Verif.Hang
