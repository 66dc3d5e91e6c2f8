import Verif.Hang.CatalogJson

/-!
# Model of the source element of GStreamer, rs/hang-gst/src/source/imp.rs

`HangSrc` connects when the state of the element goes from ready to paused, makes a pad for each track of the first catalog, and
starts a task for each that pushes the frames to the pad.

What the model takes from elsewhere (part of the trusted base):
* Connecting and the first catalog: `start` is told the catalog, or that there is none.  The same for the frames: they come at any
  time, as do the end of a track and errors.
* GStreamer: a panic in `change_state` is caught, and every later change of state fails; a pad with a name that another pad of the
  element has is not added; an element that goes to paused or back to ready (de)activates its pads; a buffer that is pushed to an
  inactive pad is dropped.  What is linked to the pads is not modelled.
* A panic of a task ends that task only.
-/

set_option autoImplicit false

namespace Verif.Gst.Source

open Verif Verif.Hang Verif.Hang.CatalogJson

/-- Which template a pad is of, rs/hang-gst/src/source/imp.rs:199 and 292. -/
inductive Kind where
  | video
  | audio
  deriving DecidableEq

/-- A value of a field of `gst::Caps`. -/
inductive Value where
  | str (s : String)
  | num (n : Nat)
  | data (b : Bytes)
  deriving DecidableEq

/-- `gst::Caps` with one structure. -/
structure Caps where
  media : String
  fields : List (String × Value)
  deriving DecidableEq

/-- The fields for the description, rs/hang-gst/src/source/imp.rs:185-192, 264-271 and 278-285. -/
def described (with_ without : String) (d : Option Bytes) : List (String × Value) :=
  match d with
  | some b => [("codec_data", .data b), ("stream-format", .str with_)]
  | none => [("stream-format", .str without)]

/-- rs/hang-gst/src/source/imp.rs:178-195; none is `unimplemented!`. -/
def videoCaps (c : VideoConfig) : Option Caps :=
  match c.codec with
  | .h264 _ => some ⟨"video/x-h264", ("alignment", .str "au") :: described "avc" "annexb" c.description⟩
  | _ => none

/-- rs/hang-gst/src/source/imp.rs:257-288. -/
def audioCaps (c : AudioConfig) : Option Caps :=
  match c.codec with
  | .aac _ =>
    some ⟨"audio/mpeg", ("mpegversion", .num 4) :: ("channels", .num c.channelCount.toNat) :: ("rate", .num c.sampleRate.toNat) ::
      described "aac" "adts" c.description⟩
  | .opus =>
    some ⟨"audio/x-opus", ("rate", .num c.sampleRate.toNat) :: ("channels", .num c.channelCount.toNat) ::
      described "ogg" "opus" c.description⟩
  | _ => none

/-- What is to become of an entry of the catalog: the template, the name, and the caps if the codec is supported. -/
structure Plan where
  kind : Kind
  name : String
  caps : Option Caps

/-- The two loops, rs/hang-gst/src/source/imp.rs:175 and 254. -/
def plans (c : Catalog) : List Plan :=
  (c.video.map fun v => ⟨.video, v.track.name, videoCaps v.config⟩) ++
    c.audio.map fun a => ⟨.audio, a.track.name, audioCaps a.config⟩

/-- A pad with its task. -/
structure Pad where
  kind : Kind
  name : String
  caps : Caps
  active : Bool
  /-- `reference`, in microseconds -/
  reference : Option Nat
  /-- the task is running -/
  reading : Bool
  deriving DecidableEq

structure State where
  /-- `settings.url` is there -/
  url : Bool
  /-- the mutex of `settings` is poisoned -/
  poisoned : Bool
  /-- a panic was caught in `change_state` -/
  dead : Bool
  paused : Bool
  pads : List Pad
  deriving DecidableEq

/-- `hang::Frame`; the timestamp, in microseconds, is what the container has. -/
structure Frame where
  timestamp : Nat
  keyframe : Bool
  payload : Bytes
  deriving DecidableEq

/-- `gst::Buffer`: the time in nanoseconds, the flag `DELTA_UNIT`, and the data. -/
structure Buffer where
  pts : Nat
  delta : Bool
  data : Bytes
  deriving DecidableEq

/-- A pad as the application sees it when it is added. -/
structure Added where
  kind : Kind
  name : String
  caps : Caps
  deriving DecidableEq

inductive Op where
  /-- the property `url` is set to a text or to null -/
  | setUrl (b : Bool)
  /-- from ready to paused; none if there is no catalog -/
  | start (c : Option Catalog)
  /-- from paused to ready -/
  | stop
  /-- the task of a pad reads a frame -/
  | frame (n : Nat) (f : Frame)
  /-- the track of a pad is over -/
  | over (n : Nat)
  /-- reading the track of a pad fails -/
  | broken (n : Nat)
  deriving DecidableEq

inductive Out where
  | ok
  /-- the element is paused, with new pads -/
  | started (l : List Added)
  /-- a panic in the element, after new pads were added -/
  | panicked (l : List Added)
  /-- the change of state failed -/
  | failed
  /-- a buffer was pushed, and the pad was active -/
  | pushed (b : Buffer) (active : Bool)
  /-- a panic in a task -/
  | crashed
  | invalid
  deriving DecidableEq

def init : State := ⟨false, false, false, false, []⟩

/-- One round of the loops, rs/hang-gst/src/source/imp.rs:176-251 and 255-340; none is a panic. -/
def addPad (l : List Pad) (p : Plan) : Option Pad :=
  match p.caps with
  | none => none
  | some c => if l.any (·.name == p.name) then none else some ⟨p.kind, p.name, c, true, none, true⟩

/-- The loops: the pads that were added, and whether there was no panic. -/
def addPads (l : List Pad) : List Plan → List Pad × Bool
  | [] => ([], true)
  | p :: ps =>
    match addPad l p with
    | none => ([], false)
    | some x =>
      let r := addPads (l ++ [x]) ps
      (x :: r.1, r.2)

def added (l : List Pad) : List Added := l.map fun x => ⟨x.kind, x.name, x.caps⟩

/-- `change_state` with `setup`, rs/hang-gst/src/source/imp.rs:126-132 and 148-347.  A missing URL is a panic while `settings` is
locked. -/
def start (s : State) (c : Option Catalog) : Out × State :=
  if s.dead then (.failed, s)
  else if s.paused then (.invalid, s)
  else if !s.url then (.panicked [], { s with dead := true, poisoned := true })
  else
    match c with
    | none => (.failed, s)
    | some c =>
      let r := addPads s.pads (plans c)
      if r.2 then
        (.started (added r.1), { s with paused := true, pads := (s.pads ++ r.1).map fun x => { x with active := true } })
      else (.panicked (added r.1), { s with dead := true, pads := s.pads ++ r.1 })

/-- The timestamp, rs/hang-gst/src/source/imp.rs:227-232 and 320-325; none is a panic. -/
def relative (reference : Option Nat) (t : Nat) : Option Nat :=
  match reference with
  | some r => if r ≤ t then some (t - r) else none
  | none => some t

/-- The flag, rs/hang-gst/src/source/imp.rs:237-241 and 330-331. -/
def delta (k : Kind) (f : Frame) : Bool :=
  match k with
  | .video => !f.keyframe
  | .audio => false

/-- The body of the loop of a task, rs/hang-gst/src/source/imp.rs:223-249 and 316-338.  The nanoseconds are cut to 64 bits. -/
def frame (s : State) (n : Nat) (f : Frame) : Out × State :=
  match s.pads[n]? with
  | none => (.invalid, s)
  | some x =>
    if !x.reading then (.invalid, s)
    else
      match relative x.reference f.timestamp with
      | none => (.crashed, { s with pads := s.pads.set n { x with reading := false } })
      | some t =>
        (.pushed ⟨t * 1000 % 2 ^ 64, delta x.kind f, f.payload⟩ x.active,
          { s with pads := s.pads.set n { x with reference := some (x.reference.getD f.timestamp) } })

/-- The end of a task, rs/hang-gst/src/source/imp.rs:222 and 315. -/
def finish (s : State) (n : Nat) (o : Out) : Out × State :=
  match s.pads[n]? with
  | none => (.invalid, s)
  | some x =>
    if !x.reading then (.invalid, s)
    else (o, { s with pads := s.pads.set n { x with reading := false } })

/-- `set_property`, rs/hang-gst/src/source/imp.rs:66-74; `change_state` and `cleanup`, rs/hang-gst/src/source/imp.rs:125-144 and
349-351. -/
def step (s : State) (op : Op) : Out × State :=
  match op with
  | .setUrl b => if s.poisoned then (.panicked [], s) else (.ok, { s with url := b })
  | .start c => start s c
  | .stop =>
    if s.paused then (.ok, { s with paused := false, pads := s.pads.map fun x => { x with active := false } })
    else (.invalid, s)
  | .frame n f => frame s n f
  | .over n => finish s n .ok
  | .broken n => finish s n .crashed

abbrev machine : Machine := { State := State, Op := Op, Out := Out, init := init, step := step }

abbrev Trace := List (Op × Out)

end Verif.Gst.Source
