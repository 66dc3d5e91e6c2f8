import Verif.Json
import Verif.Hang.Codec

/-!
# Model of the serialisation of `rs/hang/src/catalog`: catalogs as JSON

The derived implementations of serde: a struct is an object with its fields by name, in any order, unknown keys are
ignored, a missing key is `None` for an option and an error otherwise, unless there is a default.  (Objects written as
arrays, which serde accepts too, are not modelled.)  `none` as result of reading is an error, or a panic in the parser
of a codec (C64).

`Location` has its `skip_serializing_none` after `derive`.  Attributes are expanded in order, so that the derived
serialisation does not see it, and `None` is written as `null`.
-/

set_option autoImplicit false

namespace Verif.Hang.CatalogJson

open Verif Verif.Json

/-! ## The catalog -/

/-- rs/moq/src/model/track.rs:23-28. -/
structure Track where
  name : String
  priority : UInt8
  deriving DecidableEq

/-- rs/hang/src/catalog/video/mod.rs:36-86. -/
structure VideoConfig where
  codec : VideoCodec
  description : Option Bytes
  codedWidth : Option UInt32
  codedHeight : Option UInt32
  displayRatioWidth : Option UInt32
  displayRatioHeight : Option UInt32
  bitrate : Option UInt64
  framerate : Option Num
  optimizeForLatency : Option Bool
  rotation : Option Num
  flip : Option Bool
  deriving DecidableEq

/-- rs/hang/src/catalog/video/mod.rs:22-28. -/
structure Video where
  track : Track
  config : VideoConfig
  deriving DecidableEq

/-- rs/hang/src/catalog/audio/mod.rs:29-51. -/
structure AudioConfig where
  codec : AudioCodec
  sampleRate : UInt32
  channelCount : UInt32
  bitrate : Option UInt64
  description : Option Bytes
  deriving DecidableEq

/-- rs/hang/src/catalog/audio/mod.rs:15-21. -/
structure Audio where
  track : Track
  config : AudioConfig
  deriving DecidableEq

/-- rs/hang/src/model/location.rs:11-19. -/
structure Position where
  x : Num
  y : Num
  zoom : Num
  deriving DecidableEq

/-- rs/hang/src/catalog/location.rs:11-26; a map is a list in the order of its iteration. -/
structure Location where
  initial : Option Position
  updates : Option Track
  peers : List (UInt32 × Track)
  handle : Option UInt32
  deriving DecidableEq

/-- rs/hang/src/catalog/root.rs:16-27. -/
structure Catalog where
  video : List Video
  audio : List Audio
  location : Option Location
  deriving DecidableEq

/-! ## Writing -/

/-- `serde_with::hex::Hex`, lower case. -/
def hex (b : Bytes) : String := String.ofList (b.flatMap hex2)

/-- `serde_json` writes a float with a fraction or an exponent, and `null` if it is not finite. -/
def f64 : Num → Json
  | .fin x => .dec x
  | _ => .null

def f32 (K : Floats) : Num → Json
  | .fin x => .dec (K.short x)
  | _ => .null

def track (t : Track) : Json := .obj [("name", .str t.name), ("priority", .int t.priority.toNat)]

/-- rs/hang/src/catalog/video/mod.rs:30-86. -/
def videoConfig (c : VideoConfig) : Json := .obj (fields [
  ("codec", some (.str (String.ofList c.codec.format))),
  ("description", c.description.map fun b => .str (hex b)),
  ("codedWidth", c.codedWidth.map fun n => .int n.toNat),
  ("codedHeight", c.codedHeight.map fun n => .int n.toNat),
  ("displayRatioWidth", c.displayRatioWidth.map fun n => .int n.toNat),
  ("displayRatioHeight", c.displayRatioHeight.map fun n => .int n.toNat),
  ("bitrate", c.bitrate.map fun n => .int n.toNat),
  ("framerate", c.framerate.map f64),
  ("optimizeForLatency", c.optimizeForLatency.map .bool),
  ("rotation", c.rotation.map f64),
  ("flip", c.flip.map .bool)])

def video (v : Video) : Json := .obj [("track", track v.track), ("config", videoConfig v.config)]

/-- rs/hang/src/catalog/audio/mod.rs:23-51. -/
def audioConfig (c : AudioConfig) : Json := .obj (fields [
  ("codec", some (.str (String.ofList c.codec.format))),
  ("sampleRate", some (.int c.sampleRate.toNat)),
  ("numberOfChannels", some (.int c.channelCount.toNat)),
  ("bitrate", c.bitrate.map fun n => .int n.toNat),
  ("description", c.description.map fun b => .str (hex b))])

def audio (v : Audio) : Json := .obj [("track", track v.track), ("config", audioConfig v.config)]

/-- rs/hang/src/model/location.rs:9-19. -/
def position (K : Floats) (p : Position) : Json :=
  .obj [("x", f32 K p.x), ("y", f32 K p.y), ("zoom", f32 K p.zoom)]

/-- A key of a map. -/
def key (n : UInt32) : String := Nat.repr n.toNat

/-- An option that is not skipped. -/
def orNull {α : Type} (f : α → Json) : Option α → Json
  | some a => f a
  | none => .null

/-- rs/hang/src/catalog/location.rs:7-26. -/
def location (K : Floats) (l : Location) : Json := .obj (fields [
  ("initial", some (orNull (position K) l.initial)),
  ("updates", some (orNull track l.updates)),
  ("peers", if l.peers = [] then none else some (.obj (l.peers.map fun e => (key e.1, track e.2)))),
  ("handle", some (orNull (fun n => .int n.toNat) l.handle))])

/-- `Catalog::to_string`, rs/hang/src/catalog/root.rs:13-27 and 45-47. -/
def write (K : Floats) (c : Catalog) : Json := .obj (fields [
  ("video", if c.video = [] then none else some (.arr (c.video.map video))),
  ("audio", if c.audio = [] then none else some (.arr (c.audio.map audio))),
  ("location", c.location.map (location K))])

/-! ## Reading -/

/-- A field of type `Option`. -/
def opt {α : Type} (p : Json → Option α) : Option Json → Option (Option α)
  | none => some none
  | some .null => some none
  | some j => (p j).map some

/-- A field with a default. -/
def dflt {α : Type} (a : α) (p : Json → Option α) : Option Json → Option α
  | none => some a
  | some j => p j

def readVec {α : Type} (p : Json → Option α) : Json → Option (List α)
  | .arr xs => all p xs
  | _ => none

def readStr : Json → Option String
  | .str s => some s
  | _ => none

def readBool : Json → Option Bool
  | .bool b => some b
  | _ => none

/-- An unsigned integer below the bound. -/
def readUint (bound : Nat) : Json → Option Nat
  | .int n => if 0 ≤ n ∧ n < bound then some n.toNat else none
  | _ => none

def readU8 (j : Json) : Option UInt8 := (readUint (2 ^ 8) j).map UInt8.ofNat

def readU32 (j : Json) : Option UInt32 := (readUint (2 ^ 32) j).map UInt32.ofNat

def readU64 (j : Json) : Option UInt64 := (readUint (2 ^ 64) j).map UInt64.ofNat

def readF64 (K : Floats) : Json → Option Num
  | .int n => some (.fin (double n))
  | .dec x => some (.fin (K.f64 x))
  | _ => none

def readF32 (K : Floats) : Json → Option Num
  | .int n => some (K.f32 n)
  | .dec x => some (K.f32 x)
  | _ => none

/-- `hex::decode`. -/
def unhex : Text → Option Bytes
  | [] => some []
  | [_] => none
  | a :: b :: r => (toDigit 16 a).bind fun x => (toDigit 16 b).bind fun y =>
      (unhex r).map (UInt8.ofNat (16 * x + y) :: ·)

def readHex : Json → Option Bytes
  | .str s => unhex s.toList
  | _ => none

/-- `DisplayFromStr`. -/
def readVideoCodec (k : Classes) : Json → Option VideoCodec
  | .str s => match VideoCodec.parse k s.toList with
    | .ok c => some c
    | _ => none
  | _ => none

def readAudioCodec : Json → Option AudioCodec
  | .str s => match AudioCodec.parse s.toList with
    | .ok c => some c
    | .error _ => none
  | _ => none

def readTrack : Json → Option Track
  | .obj o =>
    (need readStr (lookup "name" o)).bind fun name =>
    (need readU8 (lookup "priority" o)).map fun priority => ⟨name, priority⟩
  | _ => none

def readVideoConfig (K : Floats) (k : Classes) : Json → Option VideoConfig
  | .obj o =>
    (need (readVideoCodec k) (lookup "codec" o)).bind fun codec =>
    (opt readHex (lookup "description" o)).bind fun description =>
    (opt readU32 (lookup "codedWidth" o)).bind fun codedWidth =>
    (opt readU32 (lookup "codedHeight" o)).bind fun codedHeight =>
    (opt readU32 (lookup "displayRatioWidth" o)).bind fun displayRatioWidth =>
    (opt readU32 (lookup "displayRatioHeight" o)).bind fun displayRatioHeight =>
    (opt readU64 (lookup "bitrate" o)).bind fun bitrate =>
    (opt (readF64 K) (lookup "framerate" o)).bind fun framerate =>
    (opt readBool (lookup "optimizeForLatency" o)).bind fun optimizeForLatency =>
    (opt (readF64 K) (lookup "rotation" o)).bind fun rotation =>
    (opt readBool (lookup "flip" o)).map fun flip =>
      ⟨codec, description, codedWidth, codedHeight, displayRatioWidth, displayRatioHeight, bitrate, framerate,
        optimizeForLatency, rotation, flip⟩
  | _ => none

def readVideo (K : Floats) (k : Classes) : Json → Option Video
  | .obj o =>
    (need readTrack (lookup "track" o)).bind fun track =>
    (need (readVideoConfig K k) (lookup "config" o)).map fun config => ⟨track, config⟩
  | _ => none

def readAudioConfig : Json → Option AudioConfig
  | .obj o =>
    (need readAudioCodec (lookup "codec" o)).bind fun codec =>
    (need readU32 (lookup "sampleRate" o)).bind fun sampleRate =>
    (need readU32 (lookup "numberOfChannels" o)).bind fun channelCount =>
    (opt readU64 (lookup "bitrate" o)).bind fun bitrate =>
    (opt readHex (lookup "description" o)).map fun description =>
      ⟨codec, sampleRate, channelCount, bitrate, description⟩
  | _ => none

def readAudio : Json → Option Audio
  | .obj o =>
    (need readTrack (lookup "track" o)).bind fun track =>
    (need readAudioConfig (lookup "config" o)).map fun config => ⟨track, config⟩
  | _ => none

/-- rs/hang/src/model/location.rs:21-29. -/
def zero : Num := .fin 0

def one : Num := .fin 1

def readPosition (K : Floats) : Json → Option Position
  | .obj o =>
    (dflt zero (readF32 K) (lookup "x" o)).bind fun x =>
    (dflt zero (readF32 K) (lookup "y" o)).bind fun y =>
    (dflt one (readF32 K) (lookup "zoom" o)).map fun zoom => ⟨x, y, zoom⟩
  | _ => none

/-- A key of a map is read as a number of JSON. -/
def readKey (s : String) : Option UInt32 :=
  let n := Nat.ofDigitChars 10 s.toList 0
  if Nat.repr n = s ∧ n < 2 ^ 32 then some (UInt32.ofNat n) else none

def readPeers : Json → Option (List (UInt32 × Track))
  | .obj o => all (fun e => (readKey e.1).bind fun k => (readTrack e.2).map fun t => (k, t)) o
  | _ => none

def readLocation (K : Floats) : Json → Option Location
  | .obj o =>
    (opt (readPosition K) (lookup "initial" o)).bind fun initial =>
    (opt readTrack (lookup "updates" o)).bind fun updates =>
    (dflt [] readPeers (lookup "peers" o)).bind fun peers =>
    (opt readU32 (lookup "handle" o)).map fun handle => ⟨initial, updates, peers, handle⟩
  | _ => none

/-- `Catalog::from_slice`, rs/hang/src/catalog/root.rs:13-27 and 37-39. -/
def read (K : Floats) (k : Classes) : Json → Option Catalog
  | .obj o =>
    (dflt [] (readVec (readVideo K k)) (lookup "video" o)).bind fun video =>
    (dflt [] (readVec readAudio) (lookup "audio" o)).bind fun audio =>
    (opt (readLocation K) (lookup "location" o)).map fun location => ⟨video, audio, location⟩
  | _ => none

end Verif.Hang.CatalogJson
