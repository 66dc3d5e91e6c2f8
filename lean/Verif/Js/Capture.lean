import Verif.Js.Frames
import Verif.Js.Receive

/-!
# Model of `js/hang/src/publish/video.ts`

Publishing video from the browser: pictures are captured, given to a `VideoEncoder`, and what it puts out
is written to the groups of a track.

A *run* is what the effects `#runTrack` and `#runEncoder` start together, js/hang/src/publish/video.ts:81-140:
a track, a reader of the media, an encoder and a call of `#runFrames`.  Run `r` has track `r`.

What the model takes from the platform (part of the trusted base):
* The encoder puts out one chunk for each picture, in order, with the timestamp of the picture; the
  first chunk is a key frame, and so is every chunk for which a key frame was requested.  Others may be.
* After `close()` or an error the encoder puts out nothing.  `encode()` and `close()` throw if it is
  closed already.
* When a reader is cancelled, a call of `read()` that waits returns at once, before anything else arrives:
  promise callbacks run before the next event.  So `#runFrames` ends in the same step, unless it waits for
  the configuration.
* Effects run again as soon as one of their signals changes, after their cleanup.

`insertTrack` and `removeTrack` of the broadcast are left out.  Timestamps are integers below 2^53
microseconds (285 years), so that they can be written (C99).
-/

set_option autoImplicit false

namespace Verif.Js.Capture

open Verif

open Verif.Js.Frames (Input)

/-- `GOP_DURATION_US`, js/hang/src/publish/video.ts:8. -/
def GOP : Int := 2000000

/-- A picture that the encoder has not put out yet: its timestamp, and the option `keyFrame`. -/
structure Request where
  timestamp : Int
  key : Bool
  deriving DecidableEq, Repr

/-- A `VideoEncoder`. -/
inductive Encoder where
  | unconfigured
  /-- the pictures to be put out, and whether there was a chunk already -/
  | working (queue : List Request) (started : Bool)
  | closed
  deriving DecidableEq, Repr

/-- Where `#runFrames`, js/hang/src/publish/video.ts:142-178, is. -/
inductive Phase where
  /-- at the first `read()`, 148 -/
  | first
  /-- at `#bestEncoderConfig`, 153, with the first picture -/
  | config (pic : Nat) (timestamp : Int)
  /-- at `read()`, 169 -/
  | loop
  | over
  deriving DecidableEq, Repr

structure Run where
  phase : Phase
  encoder : Encoder
  /-- the reader has no more pictures -/
  done : Bool
  deriving DecidableEq, Repr

/-- A `Video`, js/hang/src/publish/video.ts:42-68, with all its runs and tracks. -/
structure State where
  /-- `#latest`: pictures are numbered in the order in which they are captured -/
  latest : Option Nat
  /-- how many pictures were captured -/
  captured : Nat
  /-- the pictures that were closed -/
  shut : List Nat
  /-- `#groupTimestamp` -/
  timestamp : Int
  /-- `#group`: a track and a group of it -/
  group : Option (Nat × Nat)
  /-- `#active` -/
  active : Bool
  /-- `#encoderConfig` and `#decoderConfig`: whose -/
  encoderConfig : Option Nat
  decoderConfig : Option Nat
  runs : List Run
  tracks : List Track.State
  /-- the run whose effects have not been cleaned up; its track is `#track` -/
  current : Option Nat
  /-- `close()` was called -/
  closed : Bool
  /-- all calls of methods of the tracks, and of the groups -/
  calls : List (Nat × Track.Op × Track.Out)
  deriving DecidableEq, Repr

inductive Op where
  /-- video is enabled, or there is other media -/
  | start
  /-- video is disabled, or there is no media any more -/
  | stop
  /-- `Video.close` -/
  | close
  /-- a picture is captured -/
  | picture (r : Nat) (timestamp : Int)
  /-- the media ends -/
  | ended (r : Nat)
  /-- `#bestEncoderConfig` returns, or throws -/
  | config (r : Nat) (ok : Bool)
  /-- the encoder puts out a chunk -/
  | output (r : Nat) (c : Input)
  /-- the encoder fails -/
  | error (r : Nat)
  /-- a reader of a track does something -/
  | track (r : Nat) (op : Track.Op)
  deriving DecidableEq, Repr

inductive Out where
  | ok
  | run (r : Nat)
  /-- the first picture of a run -/
  | captured (pic : Nat)
  /-- a picture was given to the encoder -/
  | encoded (pic : Nat) (key : Bool)
  /-- `#bestEncoderConfig` threw, or `encode` -/
  | failed (pic : Nat)
  /-- the chunk is in this group -/
  | wrote (g : Nat)
  /-- "no keyframe" -/
  | noKeyframe
  /-- `encodeFrame` threw -/
  | refused
  /-- the track or the group threw -/
  | threw
  | track (o : Track.Out)
  | invalid
  deriving DecidableEq, Repr

def init : State := ⟨none, 0, [], 0, none, false, none, none, [], [], none, false, []⟩

/-- A method of a track, or of one of its groups. -/
def act (s : State) (r : Nat) (op : Track.Op) : State :=
  match s.tracks[r]? with
  | some t => { s with
      tracks := s.tracks.set r (Track.step t op).2
      calls := s.calls ++ [(r, op, (Track.step t op).1)] }
  | none => s

def put (s : State) (r : Nat) (run : Run) : State := { s with runs := s.runs.set r run }

/-- `this.#group?.close()`, js/hang/src/publish/video.ts:119 and 175. -/
def closeGroup (s : State) : State :=
  match s.group with
  | some (k, g) => act s k (.closeGroup g)
  | none => s

/-- The `finally` of `#runFrames`, js/hang/src/publish/video.ts:171-177.  If the encoder is closed already,
`encoder.close()` throws and nothing else happens. -/
def finish (s : State) (r : Nat) (run : Run) : State :=
  if run.encoder = .closed then put s r { run with phase := .over }
  else { put (closeGroup s) r { run with phase := .over, encoder := .closed } with
    active := false
    group := none }

/-- The body of the loop up to `read()`, js/hang/src/publish/video.ts:158-167. -/
def encode (s : State) (r : Nat) (run : Run) (pic : Nat) (ts : Int) : Out × State :=
  let key := decide (s.timestamp + GOP < ts)
  let s' := { s with
    timestamp := if key then ts else s.timestamp
    latest := some pic
    shut := s.shut ++ s.latest.toList }
  match run.encoder with
  | .working q st => (.encoded pic key,
      put s' r { run with phase := .loop, encoder := .working (q ++ [⟨ts, key⟩]) st })
  | _ => (.failed pic, finish s' r run)

/-- The next `read()`, js/hang/src/publish/video.ts:169, returns at once if there are no more pictures. -/
def next (s : State) (r : Nat) : State :=
  match s.runs[r]? with
  | some run => if run.done then finish s r run else s
  | none => s

/-- `#bestEncoderConfig` returns or throws, js/hang/src/publish/video.ts:153-169. -/
def config (s : State) (r : Nat) (run : Run) (ok : Bool) : Out × State :=
  match run.phase with
  | .config pic ts =>
    if ok then
      let e := encode { s with encoderConfig := some r } r { run with encoder := .working [] false } pic ts
      (e.1, next e.2 r)
    else (.failed pic, finish s r run)
  | _ => (.invalid, s)

/-- `reader.read()` returns a picture, js/hang/src/publish/video.ts:148-153 and 169. -/
def picture (s : State) (r : Nat) (run : Run) (ts : Int) : Out × State :=
  if run.done ∨ Container.MAX_U53 < ts then (.invalid, s)
  else
    match run.phase with
    | .first => (.captured s.captured,
        { put s r { run with phase := .config s.captured ts } with
          active := true
          captured := s.captured + 1 })
    | .loop => encode { s with captured := s.captured + 1 } r run s.captured ts
    | _ => (.invalid, s)

/-- The reader has no more pictures.  A call of `read()` that waits returns at once. -/
def exhaust (s : State) (r : Nat) (run : Run) : State :=
  match run.phase with
  | .first => finish s r { run with done := true }
  | .loop => finish s r { run with done := true }
  | _ => put s r { run with done := true }

/-- The cleanup of `#runTrack` and `#runEncoder`, js/hang/src/publish/video.ts:88, 94 and 109. -/
def cleanup (s : State) : State :=
  match s.current with
  | some r =>
    match s.runs[r]? with
    | some run => { exhaust (act s r .close) r run with current := none }
    | none => s
  | none => s

/-- `this.#group.writeFrame(buffer)`, js/hang/src/publish/video.ts:125-126. -/
def write (s : State) (k g : Nat) (c : Input) : Out × State :=
  match Container.encodeFrame c.data c.timestamp with
  | .error _ => (.refused, s)
  | .ok b =>
    match s.tracks[k]? with
    | some t => (if (Track.step t (.write g b)).1 = .ok then .wrote g else .threw, act s k (.write g b))
    | none => (.invalid, s)

/-- The callback `output`, js/hang/src/publish/video.ts:112-127. -/
def emit (s : State) (r : Nat) (c : Input) : Out × State :=
  if c.keyframe then
    let s' := closeGroup { s with timestamp := c.timestamp }
    match s'.tracks[r]? with
    | some t =>
      match (Track.step t .append).1 with
      | .group g => write { act s' r .append with group := some (r, g) } r g c
      | _ => (.threw, act s' r .append)
    | none => (.invalid, s)
  else
    match s.group with
    | some (k, g) => write s k g c
    | none => (.noKeyframe, s)

/-- The encoder puts out a chunk.  The first comes with a `decoderConfig`. -/
def output (s : State) (r : Nat) (run : Run) (c : Input) : Out × State :=
  match run.encoder with
  | .working (q :: qs) st =>
    if c.timestamp = q.timestamp ∧ ((q.key = true ∨ st = false) → c.keyframe = true) then
      emit { put s r { run with encoder := .working qs true } with
        decoderConfig := if st then s.decoderConfig else some r } r c
    else (.invalid, s)
  | _ => (.invalid, s)

/-- `this.#group?.abort(err)`, js/hang/src/publish/video.ts:129. -/
def abortGroup (s : State) : State :=
  match s.group with
  | some (k, g) => act s k (.abortGroup g)
  | none => s

/-- The callback `error`, js/hang/src/publish/video.ts:128-133. -/
def error (s : State) (r : Nat) (run : Run) : Out × State :=
  match run.encoder with
  | .working _ _ =>
    (.ok, act { abortGroup (put s r { run with encoder := .closed }) with group := none } r .abort)
  | _ => (.invalid, s)

def onRun (s : State) (r : Nat) (f : Run → Out × State) : Out × State :=
  match s.runs[r]? with
  | some run => f run
  | none => (.invalid, s)

def step (s : State) : Op → Out × State
  | .start =>
    if s.closed then (.invalid, s)
    else
      let s' := cleanup s
      (.run s'.runs.length, { s' with
        encoderConfig := none
        decoderConfig := none
        runs := s'.runs ++ [⟨.first, .unconfigured, false⟩]
        tracks := s'.tracks ++ [Track.init]
        current := some s'.runs.length })
  | .stop => if s.closed then (.invalid, s) else (.ok, cleanup s)
  /- js/hang/src/publish/video.ts:382-385 -/
  | .close =>
    if s.closed then (.invalid, s)
    else (.ok, { cleanup { s with shut := s.shut ++ s.latest.toList } with closed := true })
  | .picture r ts => onRun s r fun run => picture s r run ts
  | .ended r => onRun s r fun run => if run.done then (.invalid, s) else (.ok, exhaust s r run)
  | .config r ok => onRun s r fun run => config s r run ok
  | .output r c => onRun s r fun run => output s r run c
  | .error r => onRun s r fun run => error s r run
  | .track r op =>
    match s.tracks[r]? with
    | some t => if Receive.reads op then (.track (Track.step t op).1, act s r op) else (.invalid, s)
    | none => (.invalid, s)

/-- The machine of publishing video from the browser. -/
abbrev machine : Machine := { State := State, Op := Op, Out := Out, init := init, step := step }

/-- `frame()`, js/hang/src/publish/video.ts:375-380. -/
def shown (s : State) : Option Nat := s.latest

/-- `#runCatalog`, js/hang/src/publish/video.ts:344-373: the track, and whose configurations it has. -/
def catalog (s : State) : Option (Nat × Nat × Nat) :=
  match s.encoderConfig, s.decoderConfig, s.current with
  | some e, some d, some r => some (r, e, d)
  | _, _, _ => none

/-! ## Vocabulary of histories -/

abbrev Trace := List (Op × Out)

/-- The history of track `r`. -/
def trackTrace (s : State) (r : Nat) : Track.Trace :=
  s.calls.filterMap fun e => if e.1 = r then some e.2 else none

/-- The chunks that the encoder of run `r` put out. -/
def chunks (tr : Trace) (r : Nat) : List Input :=
  tr.filterMap fun e =>
    match e with
    | (.output r' c, o) => if r' = r ∧ o ≠ .invalid then some c else none
    | _ => none

/-- The timestamps of the pictures of run `r`. -/
def pictures (tr : Trace) (r : Nat) : List Int :=
  tr.filterMap fun e =>
    match e with
    | (.picture r' ts, o) => if r' = r ∧ o ≠ .invalid then some ts else none
    | _ => none

/-- The timestamps of all pictures. -/
def timestamps (tr : Trace) : List Int :=
  tr.filterMap fun e =>
    match e with
    | (.picture _ ts, o) => if o ≠ .invalid then some ts else none
    | _ => none

/-- Run `r` was started. -/
def Started (tr : Trace) (r : Nat) : Prop := (.start, .run r) ∈ tr

/-- A run got its configuration, or an exception instead, after a newer run was started. -/
def Late (tr : Trace) : Prop :=
  ∃ pre post r ok o r', tr = pre ++ (.config r ok, o) :: post ∧ o ≠ .invalid ∧ Started pre r' ∧ r < r'

/-- Run `r` was replaced by another, or stopped, or `Video.close` was called. -/
def Stopped (tr : Trace) (r : Nat) : Prop :=
  ∃ pre post, tr = pre ++ (.start, .run r) :: post ∧
    ((.stop, .ok) ∈ post ∨ (.close, .ok) ∈ post ∨ ∃ r', (.start, .run r') ∈ post)

/-- For each picture that was given to the encoder of run `r`, whether a key frame was requested. -/
def requests (tr : Trace) (r : Nat) : List Bool :=
  tr.filterMap fun e =>
    match e with
    | (.picture r' _, .encoded _ k) => if r' = r then some k else none
    | (.config r' _, .encoded _ k) => if r' = r then some k else none
    | _ => none

/-- `Video.close` was called. -/
def Closed (tr : Trace) : Prop := (.close, .ok) ∈ tr

/-- The encoder of run `r` failed. -/
def Errored (tr : Trace) (r : Nat) : Prop := (.error r, .ok) ∈ tr

/-- The media of run `r` ended. -/
def Ended (tr : Trace) (r : Nat) : Prop := (.ended r, .ok) ∈ tr

/-- Run `r` got its configuration, or an exception instead. -/
def Settled (tr : Trace) (r : Nat) : Prop := ∃ ok o, (.config r ok, o) ∈ tr ∧ o ≠ .invalid

/-- Run `r` got an exception instead of a configuration, when it had picture `p`. -/
def Refused (tr : Trace) (r p : Nat) : Prop := (.config r false, .failed p) ∈ tr

/-- Picture `p` was captured. -/
def Captured (tr : Trace) (p : Nat) : Prop :=
  ∃ r ts o, (.picture r ts, o) ∈ tr ∧ (o = .captured p ∨ (∃ k, o = .encoded p k) ∨ o = .failed p)

end Verif.Js.Capture
