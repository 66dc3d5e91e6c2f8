import Verif.Hang.CatalogJson

/-!
# Model of `Import::init`, rs/hang/src/cmaf/import.rs: the tracks and the catalog that are made of a `moov` box

Each `trak` box of the header becomes a track of the broadcast and an entry of its catalog.  One step treats one `trak` box.  The
tasks that `BroadcastProducer::add_video`, `add_audio` and `insert` spawn for a track wait until it is closed, which is when its
producer is dropped: the importer is the only one to hold it.

What the model takes from elsewhere (part of the trusted base):
* `mp4_atom` decodes the boxes.  A box is what of its contents is used; the decoder configuration of H.264 and H.265 comes with the
  result of `encode_body`, of which nothing is assumed.
* A track is closed when its only producer is dropped (`watch` of tokio).

Simplifications: adding an entry and publishing the catalog is one step, and so is removing one and publishing (`Verif.Hang.Catalog`
has them apart).  The entries for video and audio are in one list, in the order of their addition; a published catalog has them apart.
-/

set_option autoImplicit false

namespace Verif.Hang.Init

open Verif Verif.Hang Verif.Hang.CatalogJson

/-! ## The boxes -/

/-- `mp4_atom::Visual`. -/
structure Visual where
  width : UInt16
  height : UInt16
  deriving DecidableEq

/-- `mp4_atom::Avcc`, with the result of `encode_body`. -/
structure Avcc where
  profile : UInt8
  compatibility : UInt8
  level : UInt8
  body : Option Bytes
  deriving DecidableEq

/-- `mp4_atom::Hvcc`, with the result of `encode_body`. -/
structure Hvcc where
  profileSpace : UInt8
  profileIdc : UInt8
  compatibility : Vector UInt8 4
  tierFlag : Bool
  levelIdc : UInt8
  constraints : Vector UInt8 6
  body : Option Bytes
  deriving DecidableEq

/-- `mp4_atom::VpcC`. -/
structure Vpcc where
  profile : UInt8
  level : UInt8
  bitDepth : UInt8
  chromaSubsampling : UInt8
  colorPrimaries : UInt8
  transferCharacteristics : UInt8
  matrixCoefficients : UInt8
  fullRange : Bool
  deriving DecidableEq

/-- `mp4_atom::Av1c`. -/
structure Av1c where
  profile : UInt8
  level : UInt8
  /-- `seq_tier_0` -/
  tier : Bool
  highBitdepth : Bool
  twelveBit : Bool
  monochrome : Bool
  chromaSubsamplingX : Bool
  chromaSubsamplingY : Bool
  chromaSamplePosition : UInt8
  deriving DecidableEq

/-- `mp4_atom::Audio`, with the integral part of the rate. -/
structure Sound where
  sampleRate : UInt16
  channelCount : UInt16
  deriving DecidableEq

/-- `mp4_atom::esds::DecoderConfig`. -/
structure Esds where
  objectType : UInt8
  maxBitrate : UInt32
  avgBitrate : UInt32
  profile : UInt8
  deriving DecidableEq

/-- `mp4_atom::Codec`; the last is any codec that is known to `mp4_atom` but not matched. -/
inductive Codec where
  | avc1 (v : Visual) (c : Avcc)
  | hev1 (v : Visual) (c : Hvcc)
  | hvc1 (v : Visual) (c : Hvcc)
  | vp08 (v : Visual)
  | vp09 (v : Visual) (c : Vpcc)
  | av01 (v : Visual) (c : Av1c)
  | mp4a (a : Sound) (c : Esds)
  | opus (a : Sound)
  | unknown (name : String)
  | other
  deriving DecidableEq

inductive Handler where
  | vide
  | soun
  | sbtl
  | other
  deriving DecidableEq

/-- What is used of a `trak` box; the id is a `u32`. -/
structure Trak where
  id : Nat
  handler : Handler
  codecs : List Codec
  deriving DecidableEq

/-- The errors, rs/hang/src/cmaf/error.rs. -/
inductive Error where
  | mp4
  | missingCodec
  | multipleCodecs
  | unsupportedCodec (name : String)
  | unsupportedTrack (name : String)
  deriving DecidableEq

/-! ## The entries -/

/-- A `VideoConfig` with the fields that are not populated, rs/hang/src/cmaf/import.rs:136-143. -/
def videoConfig (codec : VideoCodec) (description : Option Bytes) (v : Visual) : VideoConfig :=
  { codec := codec, description := description, codedWidth := some v.width.toUInt32, codedHeight := some v.height.toUInt32,
    displayRatioWidth := none, displayRatioHeight := none, bitrate := none, framerate := none, optimizeForLatency := none,
    rotation := none, flip := none }

/-- `init_h265`, rs/hang/src/cmaf/import.rs:243-273. -/
def initH265 (t : Track) (inBand : Bool) (c : Hvcc) (v : Visual) : Except Error Video :=
  match c.body with
  | none => .error .mp4
  | some b =>
    .ok ⟨t, videoConfig (.h265 ⟨inBand, c.profileSpace, c.profileIdc, c.compatibility, c.tierFlag, c.levelIdc, c.constraints⟩)
      (some b) v⟩

/-- The bit depth, rs/hang/src/cmaf/import.rs:207-212. -/
def av1Depth (tier high : Bool) : UInt8 :=
  match tier, high with
  | true, true => 12
  | true, false => 10
  | false, true => 10
  | false, false => 8

/-- The only codec, rs/hang/src/cmaf/import.rs:111-115 and 281-285. -/
def single (l : List Codec) : Except Error Codec :=
  match l with
  | [] => .error .missingCodec
  | [c] => .ok c
  | _ => .error .multipleCodecs

/-- `init_video`, rs/hang/src/cmaf/import.rs:105-240, after the codec was chosen. -/
def videoOf (t : Track) (c : Codec) : Except Error Video :=
  match c with
  | .avc1 v c =>
    match c.body with
    | none => .error .mp4
    | some b => .ok ⟨t, videoConfig (.h264 { profile := c.profile, constraints := c.compatibility, level := c.level }) (some b) v⟩
  | .hev1 v c => initH265 t true c v
  | .hvc1 v c => initH265 t false c v
  | .vp08 v => .ok ⟨t, videoConfig .vp8 none v⟩
  | .vp09 v c =>
    let codec : VP9 :=
      { profile := c.profile, level := c.level, bitDepth := c.bitDepth, colorPrimaries := c.colorPrimaries,
        chromaSubsampling := c.chromaSubsampling, transferCharacteristics := c.transferCharacteristics,
        matrixCoefficients := c.matrixCoefficients, fullRange := c.fullRange }
    .ok ⟨t, videoConfig (.vp9 codec) none v⟩
  | .av01 v c =>
    let codec : AV1 :=
      { profile := c.profile, level := c.level, tier := 'M', bitdepth := av1Depth c.tier c.highBitdepth,
        monoChrome := c.monochrome, chromaSubsamplingX := c.chromaSubsamplingX, chromaSubsamplingY := c.chromaSubsamplingY,
        chromaSamplePosition := c.chromaSamplePosition }
    .ok ⟨t, videoConfig (.av1 codec) none v⟩
  | .unknown n => .error (.unsupportedCodec n)
  | _ => .error (.unsupportedCodec "unknown")

/-- `init_audio`, rs/hang/src/cmaf/import.rs:275-329, after the codec was chosen. -/
def audioOf (t : Track) (c : Codec) : Except Error Audio :=
  match c with
  | .mp4a a c =>
    if c.objectType ≠ 0x40 then .error (.unsupportedCodec "MPEG2")
    else
      .ok ⟨t, { codec := .aac ⟨c.profile⟩, sampleRate := a.sampleRate.toUInt32, channelCount := a.channelCount.toUInt32,
                bitrate := some (max c.avgBitrate c.maxBitrate).toUInt64, description := none }⟩
  | .opus a =>
    .ok ⟨t, { codec := .opus, sampleRate := a.sampleRate.toUInt32, channelCount := a.channelCount.toUInt32, bitrate := none,
              description := none }⟩
  | .unknown n => .error (.unsupportedCodec n)
  | _ => .error (.unsupportedCodec "unknown")

/-- An entry of the catalog. -/
inductive Info where
  | video (v : Video)
  | audio (a : Audio)
  deriving DecidableEq

def Info.track : Info → Track
  | .video v => v.track
  | .audio a => a.track

/-- The body of the loop of `init`, rs/hang/src/cmaf/import.rs:80-95. -/
def infoOf (k : Trak) : Except Error Info :=
  match k.handler with
  | .vide => (single k.codecs).bind fun c => (videoOf ⟨"video" ++ toString k.id, 2⟩ c).map .video
  | .soun => (single k.codecs).bind fun c => (audioOf ⟨"audio" ++ toString k.id, 2⟩ c).map .audio
  | .sbtl => .error (.unsupportedTrack "subtitle")
  | .other => .error (.unsupportedTrack "unknown")

/-! ## The importer -/

/-- A track that was made, with the tasks that wait for its end. -/
structure Made where
  /-- the id of the `trak` -/
  id : Nat
  info : Info
  /-- the task of `add_video` or `add_audio` is over, rs/hang/src/model/broadcast.rs:41-46 -/
  removed : Bool
  /-- the task of `insert` is over, rs/moq/src/model/broadcast.rs:71-84 -/
  cleaned : Bool
  deriving DecidableEq

structure State where
  made : List Made
  /-- `tracks`: the number of the track for an id -/
  tracks : Nat → Option Nat
  /-- the catalog: each entry with the number of its track -/
  catalog : List (Nat × Info)
  /-- `published` of the broadcast -/
  lookup : String → Option Nat
  /-- the header that is being treated: what remains, and all of it -/
  job : Option (List Trak × List Trak)
  /-- `moov` -/
  moov : Option (List Trak)
  /-- the importer was dropped -/
  gone : Bool

inductive Op where
  /-- there is a `moov` box -/
  | moov (l : List Trak)
  /-- `init` treats the next `trak` box, or ends -/
  | next
  /-- the task of `add_video` or `add_audio` sees that the track is closed -/
  | remove (n : Nat)
  /-- the task of `insert` sees that the track is closed -/
  | clean (n : Nat)
  /-- the importer is dropped -/
  | drop
  /-- someone subscribes to the track of that name -/
  | subscribe (name : String)
  /-- there is media for the track with that id -/
  | write (id : Nat)
  deriving DecidableEq

inductive Out where
  | ok
  /-- a track was made, with its entry and the catalog that is published -/
  | created (n : Nat) (i : Info) (video : List Video) (audio : List Audio)
  | published (video : List Video) (audio : List Audio)
  | error (e : Error)
  /-- the track that is subscribed to or written to -/
  | found (n : Option Nat)
  | invalid
  deriving DecidableEq

def init : State := ⟨[], fun _ => none, [], fun _ => none, none, none, false⟩

def videos (l : List (Nat × Info)) : List Video :=
  l.filterMap fun x => match x.2 with | .video v => some v | .audio _ => none

def audios (l : List (Nat × Info)) : List Audio :=
  l.filterMap fun x => match x.2 with | .audio a => some a | .video _ => none

/-- The importer has the producer of a track. -/
def held (s : State) (n : Nat) : Bool :=
  match s.made[n]? with
  | some x => s.tracks x.id == some n
  | none => false

/-- `create_video` and `create_audio`, rs/hang/src/model/broadcast.rs:64-74, and the insertion into `tracks`,
rs/hang/src/cmaf/import.rs:97. -/
def create (s : State) (k : Trak) (i : Info) (rest all : List Trak) : Out × State :=
  let n := s.made.length
  let catalog := s.catalog ++ [(n, i)]
  (.created n i (videos catalog) (audios catalog),
    { s with
      made := s.made ++ [⟨k.id, i, false, false⟩]
      tracks := fun id => if id = k.id then some n else s.tracks id
      catalog := catalog
      lookup := fun a => if a = i.track.name then some n else s.lookup a
      job := some (rest, all) })

/-- One round of the loop of `init`, or its end, rs/hang/src/cmaf/import.rs:78-103. -/
def next (s : State) : Out × State :=
  match s.job with
  | none => (.invalid, s)
  | some ([], all) => (.ok, { s with job := none, moov := some all })
  | some (k :: rest, all) =>
    match infoOf k with
    | .error e => (.error e, { s with job := none })
    | .ok i => create s k i rest all

/-- `remove_video` or `remove_audio` with `publish`, rs/hang/src/catalog/root.rs:101-109, which retains the entries that are not equal
to that of the track.  No float is populated, so that the derived comparison is equality. -/
def remove (s : State) (n : Nat) : Out × State :=
  match s.made[n]? with
  | none => (.invalid, s)
  | some x =>
    if held s n || x.removed then (.invalid, s)
    else
      let catalog := s.catalog.filter fun e => e.2 != x.info
      (.published (videos catalog) (audios catalog),
        { s with made := s.made.set n { x with removed := true }, catalog := catalog })

/-- `cleanup`, rs/moq/src/model/broadcast.rs:71-84. -/
def clean (s : State) (n : Nat) : Out × State :=
  match s.made[n]? with
  | none => (.invalid, s)
  | some x =>
    if held s n || x.cleaned then (.invalid, s)
    else
      (.ok, { s with
        made := s.made.set n { x with cleaned := true }
        lookup := fun a => if a = x.info.track.name ∧ s.lookup a = some n then none else s.lookup a })

/-- The track that `extract` writes to, rs/hang/src/cmaf/import.rs:389 and 398-407; none is an error. -/
def write (s : State) (id : Nat) : Out × State :=
  if s.gone || s.job.isSome then (.invalid, s)
  else
    match s.moov with
    | none => (.found none, s)
    | some l => (.found (if l.any (·.id == id) then s.tracks id else none), s)

/-- The importer and the tasks.  A header is treated before anything else is done with the importer. -/
def step (s : State) (op : Op) : Out × State :=
  match op with
  | .moov l => if s.gone || s.job.isSome then (.invalid, s) else (.ok, { s with job := some (l, l) })
  | .next => next s
  | .remove n => remove s n
  | .clean n => clean s n
  | .drop => if s.gone || s.job.isSome then (.invalid, s) else (.ok, { s with tracks := fun _ => none, gone := true })
  /- `BroadcastConsumer::subscribe` finds it in `published`, rs/moq/src/model/broadcast.rs:197-199 -/
  | .subscribe a => (.found (s.lookup a), s)
  | .write id => write s id

abbrev machine : Machine := { State := State, Op := Op, Out := Out, init := init, step := step }

abbrev Trace := List (Op × Out)

end Verif.Hang.Init
