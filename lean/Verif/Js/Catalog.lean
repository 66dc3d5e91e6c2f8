import Verif.Json
import Verif.Hang.Text

/-!
# Model of `js/hang/src/catalog`: catalogs as JSON in the browser

`JSON.stringify` leaves out `undefined` and writes numbers that are not finite as `null`.  Reading is `JSON.parse`
followed by the schema of zod: `z.object` drops unknown keys, `z.optional` accepts a missing key but not `null`,
`z.uint32` accepts integers in range, `z.number` accepts what is finite.  `none` as result of reading is an exception.
Strings without a place in Rust, with lone surrogates, are not modelled.  A record is a list in some order.
-/

set_option autoImplicit false

namespace Verif.Js.Catalog

open Verif Verif.Json

/-! ## The catalog -/

/-- js/hang/src/catalog/track.ts:3-6. -/
structure Track where
  name : String
  priority : Num
  deriving DecidableEq

/-- js/hang/src/catalog/video.ts:5-42. -/
structure VideoConfig where
  codec : String
  description : Option String
  codedWidth : Option Num
  codedHeight : Option Num
  displayRatioWidth : Option Num
  displayRatioHeight : Option Num
  framerate : Option Num
  bitrate : Option Num
  optimizeForLatency : Option Bool
  rotation : Option Num
  flip : Option Bool
  deriving DecidableEq

/-- js/hang/src/catalog/video.ts:46-52. -/
structure Video where
  track : Track
  config : VideoConfig
  deriving DecidableEq

/-- js/hang/src/catalog/audio.ts:7-25. -/
structure AudioConfig where
  codec : String
  description : Option String
  sampleRate : Num
  numberOfChannels : Num
  bitrate : Option Num
  deriving DecidableEq

/-- js/hang/src/catalog/audio.ts:27-33. -/
structure Audio where
  track : Track
  config : AudioConfig
  deriving DecidableEq

/-- js/hang/src/catalog/location.ts:4-19. -/
structure Position where
  x : Option Num
  y : Option Num
  z : Option Num
  scale : Option Num
  deriving DecidableEq

/-- js/hang/src/catalog/location.ts:21-39. -/
structure Location where
  initial : Option Position
  updates : Option Track
  peering : Option Bool
  peers : Option (List (String × Track))
  deriving DecidableEq

/-- js/hang/src/catalog/user.ts:3-8. -/
structure User where
  id : Option String
  name : Option String
  avatar : Option String
  color : Option String
  deriving DecidableEq

/-- js/hang/src/catalog/chat.ts:4-9. -/
structure Chat where
  track : Track
  ttl : Option Num
  deriving DecidableEq

/-- js/hang/src/catalog/capabilities.ts:3-13; the same for video and audio. -/
structure Codecs where
  hardware : Option (List String)
  software : Option (List String)
  unsupported : Option (List String)
  deriving DecidableEq

/-- js/hang/src/catalog/capabilities.ts:15-18. -/
structure Capabilities where
  video : Option Codecs
  audio : Option Codecs
  deriving DecidableEq

/-- js/hang/src/catalog/root.ts:11-18. -/
structure Root where
  video : Option (List Video)
  audio : Option (List Audio)
  location : Option Location
  user : Option User
  chat : Option Chat
  capabilities : Option Capabilities
  deriving DecidableEq

/-! ## Writing -/

/-- `JSON.stringify` of a number. -/
def num : Num → Json
  | .fin x => if x.den = 1 ∧ x.num.natAbs < 2 ^ 53 then .int x.num else .dec x
  | _ => .null

def track (t : Track) : Json := .obj [("name", .str t.name), ("priority", num t.priority)]

/-- The configuration of video; the browser's own has more keys, js/hang/src/publish/video.ts:363-368. -/
def videoConfig (more : VideoConfig → List (String × Json)) (c : VideoConfig) : Json := .obj (fields [
  ("codec", some (.str c.codec)),
  ("description", c.description.map .str),
  ("codedWidth", c.codedWidth.map num),
  ("codedHeight", c.codedHeight.map num),
  ("displayRatioWidth", c.displayRatioWidth.map num),
  ("displayRatioHeight", c.displayRatioHeight.map num),
  ("framerate", c.framerate.map num),
  ("bitrate", c.bitrate.map num),
  ("optimizeForLatency", c.optimizeForLatency.map .bool),
  ("rotation", c.rotation.map num),
  ("flip", c.flip.map .bool)] ++ more c)

def video (more : VideoConfig → List (String × Json)) (v : Video) : Json :=
  .obj [("track", track v.track), ("config", videoConfig more v.config)]

def audioConfig (c : AudioConfig) : Json := .obj (fields [
  ("codec", some (.str c.codec)),
  ("description", c.description.map .str),
  ("sampleRate", some (num c.sampleRate)),
  ("numberOfChannels", some (num c.numberOfChannels)),
  ("bitrate", c.bitrate.map num)])

def audio (v : Audio) : Json := .obj [("track", track v.track), ("config", audioConfig v.config)]

def position (p : Position) : Json := .obj (fields [
  ("x", p.x.map num), ("y", p.y.map num), ("z", p.z.map num), ("scale", p.scale.map num)])

def location (l : Location) : Json := .obj (fields [
  ("initial", l.initial.map position),
  ("updates", l.updates.map track),
  ("peering", l.peering.map .bool),
  ("peers", l.peers.map fun ps => .obj (ps.map fun e => (e.1, track e.2)))])

def user (u : User) : Json := .obj (fields [
  ("id", u.id.map .str), ("name", u.name.map .str), ("avatar", u.avatar.map .str), ("color", u.color.map .str)])

def chat (c : Chat) : Json := .obj (fields [("track", some (track c.track)), ("ttl", c.ttl.map num)])

def codecs (c : Codecs) : Json := .obj (fields [
  ("hardware", c.hardware.map fun l => .arr (l.map .str)),
  ("software", c.software.map fun l => .arr (l.map .str)),
  ("unsupported", c.unsupported.map fun l => .arr (l.map .str))])

def capabilities (c : Capabilities) : Json := .obj (fields [
  ("video", c.video.map codecs), ("audio", c.audio.map codecs)])

/-- `encode`, js/hang/src/catalog/root.ts:22-25. -/
def write (more : VideoConfig → List (String × Json)) (r : Root) : Json := .obj (fields [
  ("video", r.video.map fun l => .arr (l.map (video more))),
  ("audio", r.audio.map fun l => .arr (l.map audio)),
  ("location", r.location.map location),
  ("user", r.user.map user),
  ("chat", r.chat.map chat),
  ("capabilities", r.capabilities.map capabilities)])

/-! ## Reading -/

/-- `z.optional`. -/
def opt {α : Type} (p : Json → Option α) : Option Json → Option (Option α)
  | none => some none
  | some j => (p j).map some

/-- `z.array`. -/
def readArray {α : Type} (p : Json → Option α) : Json → Option (List α)
  | .arr xs => all p xs
  | _ => none

/-- `z.string`. -/
def readStr : Json → Option String
  | .str s => some s
  | _ => none

/-- `z.boolean`. -/
def readBool : Json → Option Bool
  | .bool b => some b
  | _ => none

/-- `z.number`. -/
def readNumber : Json → Option Num
  | .int n => some (.fin (double n))
  | .dec x => some (.fin x)
  | _ => none

/-- `z.uint32`. -/
def readUint32 (j : Json) : Option Num :=
  match readNumber j with
  | some (.fin x) => if x.den = 1 ∧ 0 ≤ x ∧ x ≤ 4294967295 then some (.fin x) else none
  | _ => none

/-- js/hang/src/catalog/track.ts:3-6. -/
def readTrack : Json → Option Track
  | .obj o =>
    (need readStr (lookup "name" o)).bind fun name =>
    (need readUint32 (lookup "priority" o)).map fun priority => ⟨name, priority⟩
  | _ => none

/-- js/hang/src/catalog/video.ts:5-42. -/
def readVideoConfig : Json → Option VideoConfig
  | .obj o =>
    (need readStr (lookup "codec" o)).bind fun codec =>
    (opt readStr (lookup "description" o)).bind fun description =>
    (opt readUint32 (lookup "codedWidth" o)).bind fun codedWidth =>
    (opt readUint32 (lookup "codedHeight" o)).bind fun codedHeight =>
    (opt readUint32 (lookup "displayRatioWidth" o)).bind fun displayRatioWidth =>
    (opt readUint32 (lookup "displayRatioHeight" o)).bind fun displayRatioHeight =>
    (opt readUint32 (lookup "framerate" o)).bind fun framerate =>
    (opt readUint32 (lookup "bitrate" o)).bind fun bitrate =>
    (opt readBool (lookup "optimizeForLatency" o)).bind fun optimizeForLatency =>
    (opt readNumber (lookup "rotation" o)).bind fun rotation =>
    (opt readBool (lookup "flip" o)).map fun flip =>
      ⟨codec, description, codedWidth, codedHeight, displayRatioWidth, displayRatioHeight, framerate, bitrate,
        optimizeForLatency, rotation, flip⟩
  | _ => none

/-- js/hang/src/catalog/video.ts:46-52. -/
def readVideo : Json → Option Video
  | .obj o =>
    (need readTrack (lookup "track" o)).bind fun track =>
    (need readVideoConfig (lookup "config" o)).map fun config => ⟨track, config⟩
  | _ => none

/-- js/hang/src/catalog/audio.ts:7-25. -/
def readAudioConfig : Json → Option AudioConfig
  | .obj o =>
    (need readStr (lookup "codec" o)).bind fun codec =>
    (opt readStr (lookup "description" o)).bind fun description =>
    (need readUint32 (lookup "sampleRate" o)).bind fun sampleRate =>
    (need readUint32 (lookup "numberOfChannels" o)).bind fun numberOfChannels =>
    (opt readUint32 (lookup "bitrate" o)).map fun bitrate =>
      ⟨codec, description, sampleRate, numberOfChannels, bitrate⟩
  | _ => none

/-- js/hang/src/catalog/audio.ts:27-33. -/
def readAudio : Json → Option Audio
  | .obj o =>
    (need readTrack (lookup "track" o)).bind fun track =>
    (need readAudioConfig (lookup "config" o)).map fun config => ⟨track, config⟩
  | _ => none

/-- js/hang/src/catalog/location.ts:4-19. -/
def readPosition : Json → Option Position
  | .obj o =>
    (opt readNumber (lookup "x" o)).bind fun x =>
    (opt readNumber (lookup "y" o)).bind fun y =>
    (opt readNumber (lookup "z" o)).bind fun z =>
    (opt readNumber (lookup "scale" o)).map fun scale => ⟨x, y, z, scale⟩
  | _ => none

/-- `z.record(z.string(), TrackSchema)`. -/
def readPeers : Json → Option (List (String × Track))
  | .obj o => all (fun e => (readTrack e.2).map fun t => (e.1, t)) o
  | _ => none

/-- js/hang/src/catalog/location.ts:21-39. -/
def readLocation : Json → Option Location
  | .obj o =>
    (opt readPosition (lookup "initial" o)).bind fun initial =>
    (opt readTrack (lookup "updates" o)).bind fun updates =>
    (opt readBool (lookup "peering" o)).bind fun peering =>
    (opt readPeers (lookup "peers" o)).map fun peers => ⟨initial, updates, peering, peers⟩
  | _ => none

/-- js/hang/src/catalog/user.ts:3-8. -/
def readUser : Json → Option User
  | .obj o =>
    (opt readStr (lookup "id" o)).bind fun id =>
    (opt readStr (lookup "name" o)).bind fun name =>
    (opt readStr (lookup "avatar" o)).bind fun avatar =>
    (opt readStr (lookup "color" o)).map fun color => ⟨id, name, avatar, color⟩
  | _ => none

/-- js/hang/src/catalog/chat.ts:4-9. -/
def readChat : Json → Option Chat
  | .obj o =>
    (need readTrack (lookup "track" o)).bind fun track =>
    (opt readNumber (lookup "ttl" o)).map fun ttl => ⟨track, ttl⟩
  | _ => none

/-- js/hang/src/catalog/capabilities.ts:3-13. -/
def readCodecs : Json → Option Codecs
  | .obj o =>
    (opt (readArray readStr) (lookup "hardware" o)).bind fun hardware =>
    (opt (readArray readStr) (lookup "software" o)).bind fun software =>
    (opt (readArray readStr) (lookup "unsupported" o)).map fun unsupported => ⟨hardware, software, unsupported⟩
  | _ => none

/-- js/hang/src/catalog/capabilities.ts:15-18. -/
def readCapabilities : Json → Option Capabilities
  | .obj o =>
    (opt readCodecs (lookup "video" o)).bind fun video =>
    (opt readCodecs (lookup "audio" o)).map fun audio => ⟨video, audio⟩
  | _ => none

/-- `decode`, js/hang/src/catalog/root.ts:11-18 and 27-37. -/
def read : Json → Option Root
  | .obj o =>
    (opt (readArray readVideo) (lookup "video" o)).bind fun video =>
    (opt (readArray readAudio) (lookup "audio" o)).bind fun audio =>
    (opt readLocation (lookup "location" o)).bind fun location =>
    (opt readUser (lookup "user" o)).bind fun user =>
    (opt readChat (lookup "chat" o)).bind fun chat =>
    (opt readCapabilities (lookup "capabilities" o)).map fun capabilities =>
      ⟨video, audio, location, user, chat, capabilities⟩
  | _ => none

/-! ## Descriptions -/

/-- `Buffer.from(description).toString("hex")`, js/hang/src/publish/video.ts:354-356. -/
def hex (b : Bytes) : String := String.ofList (b.flatMap Hang.hex2)

/-- `Buffer.from(text, "hex")` stops at what is not a pair of digits. -/
def unhex : List Char → Bytes
  | a :: b :: r => match Hang.toDigit 16 a, Hang.toDigit 16 b with
    | some x, some y => UInt8.ofNat (16 * x + y) :: unhex r
    | _, _ => []
  | _ => []

/-- What the decoder is configured with, js/hang/src/watch/video.ts:218 and watch/audio.ts:196; an empty text counts as
none. -/
def description : Option String → Option Bytes
  | none => none
  | some s => if s = "" then none else some (unhex s.toList)

end Verif.Js.Catalog
