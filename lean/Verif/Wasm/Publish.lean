import Verif.Base

/-!
# Model of `Publish`, rs/hang-wasm/src/publish/mod.rs, with `PublishVideo` and `PublishAudio`

`Publish` connects, publishes a broadcast in the room that has the path of the URL, and adds to it the tracks of the encoders.

What the model takes from elsewhere (part of the trusted base):
* Connecting, rs/hang-wasm/src/connect.rs, ends at any time after it was started, if ever; it fails for URLs other than `http` and `https`.
* An encoder makes frames at any time, and tells its configuration at any time; `init` says whether the browser supports the encoder.
* A task waiting for a track to close runs at any time after the track was dropped.

An encoder that fails stops `run`, which is called again by rs/hang-wasm/src/bridge.rs:67 without a change of state; this is left out.
-/

set_option autoImplicit false

namespace Verif.Wasm.Publish

open Verif

inductive Kind where
  | video
  | audio
  deriving DecidableEq, Repr

/-- What matters of a URL: whether the scheme is `http` or `https`, and the path. -/
structure Url where
  http : Bool
  path : List Char
  deriving DecidableEq, Repr

/-- `PublishVideo`, rs/hang-wasm/src/publish/video.rs:5-18, and `PublishAudio`, rs/hang-wasm/src/publish/audio.rs:5-18. -/
structure Enc where
  /-- the number in the name of the track -/
  id : Nat
  /-- `encoded.config()` is known -/
  config : Bool
  /-- `broadcast`: to be published to when the configuration is known -/
  pending : Option Nat
  deriving DecidableEq, Repr

/-- The catalog of a `BroadcastProducer`, rs/hang/src/model/broadcast.rs:6-11: the numbers of the tracks. -/
structure Cast where
  video : List Nat
  audio : List Nat
  deriving DecidableEq, Repr

/-- `Publish`, rs/hang-wasm/src/publish/mod.rs:13-23, with the broadcasts made so far. -/
structure State where
  connect : Option Url
  broadcast : Option Nat
  video : Option Enc
  videoId : Nat
  audio : Option Enc
  audioId : Nat
  casts : List Cast
  /-- the tasks that wait for a track to close, rs/hang/src/model/broadcast.rs:41-46 and 55-60: the broadcast and the track -/
  tasks : List (Nat × Kind × Nat)
  dead : Bool
  deriving DecidableEq, Repr

inductive Op where
  | connect (u : Option Url)
  /-- connecting is over: whether there is a session -/
  | established (ok : Bool)
  /-- `VideoInit` or `AudioInit`: whether the encoder is supported -/
  | init (k : Kind) (ok : Bool)
  /-- `VideoFrame` or `AudioFrame` -/
  | input (k : Kind)
  /-- `VideoClose` or `AudioClose` -/
  | close (k : Kind)
  /-- the configuration of the encoder is known -/
  | configured (k : Kind)
  /-- the encoder made a frame -/
  | encoded (k : Kind)
  /-- a task finds its track closed: the broadcast and the track -/
  | reap (b : Nat) (k : Kind) (id : Nat)
  deriving DecidableEq, Repr

inductive Event where
  /-- the broadcast is published on the session -/
  | publish (b : Nat) (name : List Char)
  /-- a catalog is written -/
  | catalog (b : Nat) (video audio : List Nat)
  /-- a frame is given to the encoder -/
  | encode (k : Kind) (id : Nat)
  /-- a frame is closed unused -/
  | unused (k : Kind)
  /-- a frame is written to the track -/
  | write (k : Kind) (id : Nat)
  /-- the last producer of the broadcast is dropped -/
  | over (b : Nat)
  deriving DecidableEq, Repr

inductive Out where
  | did (l : List Event)
  /-- an error is returned, which is only logged -/
  | err
  | panic
  | invalid
  deriving DecidableEq, Repr

/-- `Publish::default`. -/
def init : State := ⟨none, none, none, 0, none, 0, [], [], false⟩

def enc (k : Kind) (s : State) : Option Enc :=
  match k with
  | .video => s.video
  | .audio => s.audio

def setEnc (k : Kind) (s : State) (x : Option Enc) : State :=
  match k with
  | .video => { s with video := x }
  | .audio => { s with audio := x }

def nextId (k : Kind) (s : State) : Nat :=
  match k with
  | .video => s.videoId
  | .audio => s.audioId

def bumpId (k : Kind) (s : State) : State :=
  match k with
  | .video => { s with videoId := s.videoId + 1 }
  | .audio => { s with audioId := s.audioId + 1 }

/-- `add_video` and `add_audio` of the catalog, rs/hang/src/catalog/root.rs:87-95. -/
def Cast.add (c : Cast) (k : Kind) (id : Nat) : Cast :=
  match k with
  | .video => { c with video := c.video ++ [id] }
  | .audio => { c with audio := c.audio ++ [id] }

/-- `remove_video` and `remove_audio`, rs/hang/src/catalog/root.rs:102-110. -/
def Cast.remove (c : Cast) (k : Kind) (id : Nat) : Cast :=
  match k with
  | .video => { c with video := c.video.filter (· ≠ id) }
  | .audio => { c with audio := c.audio.filter (· ≠ id) }

/-- The broadcast has a producer: an encoder that is to publish to it, or a task. -/
def held (s : State) (b : Nat) : Bool :=
  (match s.video with | some e => e.pending == some b | none => false) ||
    (match s.audio with | some e => e.pending == some b | none => false) || s.tasks.any fun t => t.1 == b

/-- A new catalog of a broadcast. -/
def setCast (s : State) (b : Nat) (f : Cast → Cast) : List Event × State :=
  match s.casts[b]? with
  | some c => ([.catalog b (f c).video (f c).audio], { s with casts := s.casts.set b (f c) })
  | none => ([], s)

/-- `publish_to`, rs/hang-wasm/src/publish/video.rs:125-149, rs/hang-wasm/src/publish/audio.rs:78-96, with `add_video` and `add_audio`,
rs/hang/src/model/broadcast.rs:36-61. -/
def publishTo (k : Kind) (s : State) (b : Nat) : List Event × State :=
  match enc k s with
  | none => ([], s)
  | some e =>
    if e.config then
      let r := setCast s b fun c => c.add k e.id
      (r.1, { r.2 with tasks := r.2.tasks ++ [(b, k, e.id)] })
    else ([], setEnc k s (some { e with pending := some b }))

/-- The rest of `VideoInit` and `AudioInit`, rs/hang-wasm/src/publish/mod.rs:35-42 and 53-63. -/
def openEnc (k : Kind) (s : State) : List Event × State :=
  let s' := bumpId k (setEnc k s (some ⟨nextId k s, false, none⟩))
  match s'.broadcast with
  | some b => publishTo k s' b
  | none => ([], s')

/-- `connected`, rs/hang-wasm/src/publish/mod.rs:93-109; the name is made by `Room::publish`, rs/hang/src/model/room.rs:26-30. -/
def connected (s : State) (path : List Char) : Option (List Event × State) :=
  match path with
  | '/' :: p =>
    let b := s.casts.length
    let v := publishTo .video { s with casts := s.casts ++ [⟨[], []⟩] } b
    let a := publishTo .audio v.2 b
    some (.publish b (p ++ p) :: (v.1 ++ a.1), a.2)
  | _ => none

/-- A frame of the encoder, `run` of rs/hang-wasm/src/publish/video.rs:109-123 and rs/hang-wasm/src/publish/audio.rs:47-61. -/
def encoded (k : Kind) (s : State) (e : Enc) : List Event × State :=
  let s' := setEnc k s (some { e with pending := none })
  let r := match e.pending with
    | some b => publishTo k s' b
    | none => ([], s')
  (r.1 ++ [.write k e.id], r.2)

/-- A task whose track was dropped, rs/hang/src/model/broadcast.rs:42-46 and 56-60. -/
def reap (b : Nat) (k : Kind) (id : Nat) (s : State) : Option (List Event × State) :=
  if (b, k, id) ∈ s.tasks then
    if (enc k s).map (·.id) = some id then none
    else some (setCast { s with tasks := s.tasks.erase (b, k, id) } b fun c => c.remove k id)
  else none

/-- The broadcasts that lost the last producer, rs/moq/src/model/broadcast.rs:124-128. -/
def overs (s s' : State) : List Event :=
  ((List.range s'.casts.length).filter fun b => (held s b || decide (s.casts.length ≤ b)) && !held s' b).map .over

def did (s : State) (r : List Event × State) : Out × State := (.did (r.1 ++ overs s r.2), r.2)

/-- `recv`, rs/hang-wasm/src/publish/mod.rs:26-76, and `run`, rs/hang-wasm/src/publish/mod.rs:78-91. -/
def step (s : State) (op : Op) : Out × State :=
  if s.dead then (.panic, s)
  else
    match op with
    | .connect u => (.did [], { s with connect := u })
    | .established ok =>
      match s.connect with
      | none => (.invalid, s)
      | some u =>
        let s' := { s with connect := none }
        if ok then
          if u.http then
            match connected s' u.path with
            | some r => did s r
            | none => (.panic, { s with dead := true })
          else (.invalid, s)
        else (.err, s')
    | .init k ok => if ok then did s (openEnc k s) else (.err, s)
    | .input k =>
      match enc k s with
      | some e => (.did [.encode k e.id], s)
      | none => (.did [.unused k], s)
    | .close k => did s ([], setEnc k s none)
    | .configured k =>
      match enc k s with
      | some e => (.did [], setEnc k s (some { e with config := true }))
      | none => (.invalid, s)
    | .encoded k =>
      match enc k s with
      | some e => did s (encoded k s e)
      | none => (.invalid, s)
    | .reap b k id =>
      match reap b k id s with
      | some r => did s r
      | none => (.invalid, s)

/-- The machine of a publisher. -/
abbrev machine : Machine := { State := State, Op := Op, Out := Out, init := init, step := step }

abbrev Trace := List (Op × Out)

end Verif.Wasm.Publish
