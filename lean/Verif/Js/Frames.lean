import Verif.Js.Container
import Verif.Js.Track

/-!
# Model of `FrameProducer` and `FrameConsumer`, `js/hang/src/container/frame.ts`

A media track in the browser, on top of `Verif.Js.Track`.  There is one producer, which alone appends
and writes groups.
-/

set_option autoImplicit false

namespace Verif.Js.Frames

open Verif Verif.Js Verif.Js.Container
open Verif.Js.Track (Pick)

/-- `FrameProducer`, js/hang/src/container/frame.ts:26-32, with its track. -/
structure State where
  track : Track.State
  /-- `#group` -/
  group : Option Nat
  deriving DecidableEq, Repr

/-- The arguments of `FrameProducer.encode`. -/
structure Input where
  data : Bytes
  timestamp : Int
  keyframe : Bool
  deriving DecidableEq, Repr

/-- The result of `FrameConsumer.decode`. -/
structure Frame where
  data : Bytes
  timestamp : Nat
  keyframe : Bool
  deriving DecidableEq, Repr

inductive Op where
  | encode (f : Input)
  | close
  /-- `FrameProducer.consume` -/
  | consume
  /-- the fetch of the next group of a consumer continues -/
  | run (c : Nat)
  /-- `FrameConsumer.decode` -/
  | decode (c : Nat) (pick : Pick)
  /-- the `TrackConsumer` is closed -/
  | closeSub (c : Nat)
  deriving DecidableEq, Repr

inductive Out where
  | ok
  /-- "must start with a keyframe" -/
  | noKeyframe
  /-- `encodeFrame` threw -/
  | refused
  /-- the track or the group is closed -/
  | closed
  | sub (c : Nat)
  | frame (f : Frame)
  /-- `decodeFrame` threw -/
  | malformed
  /-- `decode` goes on with the next group; it returns nothing yet -/
  | moved
  | undefined
  | rejected
  | pending
  | invalid
  deriving DecidableEq, Repr

def init : State := ⟨Track.init, none⟩

/-- `this.#group?.writeFrame(encodeFrame(data, timestamp))`, js/hang/src/container/frame.ts:42. -/
def write (s : State) (g : Nat) (f : Input) : Out × State :=
  match Container.encodeFrame f.data f.timestamp with
  | .error _ => (.refused, s)
  | .ok b =>
    match Track.step s.track (.write g b) with
    | (.ok, t) => (.ok, { s with track := t })
    | (_, t) => (.closed, { s with track := t })

/-- `this.#group?.close()`, js/hang/src/container/frame.ts:36 and 51. -/
def closeGroup (s : State) : Track.State :=
  match s.group with
  | some g => (Track.step s.track (.closeGroup g)).2
  | none => s.track

/-- `FrameProducer.encode`, js/hang/src/container/frame.ts:34-43. -/
def encode (s : State) (f : Input) : Out × State :=
  if f.keyframe then
    match Track.step (closeGroup s) .append with
    | (.group g, t) => write ⟨t, some g⟩ g f
    | (_, t) => (.closed, { s with track := t })
  else
    match s.group with
    | none => (.noKeyframe, s)
    | some g => write s g f

/-- What `FrameConsumer.decode`, js/hang/src/container/frame.ts:62-68, makes of a frame of the track. -/
def decoded (index : Nat) (b : Bytes) : Option Frame :=
  match Container.decodeFrame b with
  | .ok (timestamp, data) => some ⟨data, timestamp, index == 0⟩
  | .error _ => none

/-- The result of `nextFrame` is passed on. -/
def answer : Track.Out → Out
  | .frame _ k b =>
    match decoded k b with
    | some f => .frame f
    | none => .malformed
  | .moved _ => .moved
  | .undefined => .undefined
  | .rejected => .rejected
  | .pending => .pending
  | _ => .invalid

def step (s : State) : Op → Out × State
  | .encode f => encode s f
  /- js/hang/src/container/frame.ts:49-52 -/
  | .close => (.ok, { s with track := closeGroup { s with track := (Track.step s.track .close).2 } })
  /- js/hang/src/container/frame.ts:45-47 -/
  | .consume =>
    match Track.step s.track .consume with
    | (.sub c, t) => (.sub c, { s with track := t })
    | (_, t) => (.invalid, { s with track := t })
  | .run c =>
    match Track.step s.track (.run c) with
    | (.ok, t) => (.ok, { s with track := t })
    | (_, t) => (.invalid, { s with track := t })
  | .decode c p => (answer (Track.step s.track (.nextFrame c p)).1,
      { s with track := (Track.step s.track (.nextFrame c p)).2 })
  | .closeSub c =>
    match Track.step s.track (.closeSub c) with
    | (.ok, t) => (.ok, { s with track := t })
    | (_, t) => (.invalid, { s with track := t })

/-- The machine of a media track in the browser. -/
abbrev machine : Machine := { State := State, Op := Op, Out := Out, init := init, step := step }

/-! ## Vocabulary of histories -/

abbrev Trace := List (Op × Out)

/-- The frames that were encoded. -/
def encoded (tr : Trace) : List Input :=
  tr.filterMap fun e =>
    match e with
    | (.encode f, .ok) => some f
    | _ => none

/-- What a call of `decode` gave a consumer: a frame, or an exception. -/
def result (c : Nat) : Op × Out → Option (Option Frame)
  | (.decode c' _, .frame f) => if c' = c then some (some f) else none
  | (.decode c' _, .malformed) => if c' = c then some none else none
  | _ => none

/-- All that the calls of `decode` gave a consumer. -/
def results (tr : Trace) (c : Nat) : List (Option Frame) := tr.filterMap (result c)

/-- The producer was closed. -/
def Closed (tr : Trace) : Prop := (.close, .ok) ∈ tr

/-- A keyframe was refused for its timestamp. -/
def Refused (tr : Trace) : Prop := ∃ f : Input, f.keyframe = true ∧ (.encode f, .refused) ∈ tr

/-- A grouping of frames. -/
structure Groups (fs : List Input) (gs : List (List Input)) : Prop where
  all : gs.flatten = fs
  /-- a keyframe is the first of its group -/
  tail : ∀ g ∈ gs, ∀ f ∈ g.tail, f.keyframe = false

/-- The bytes of a frame that was encoded. -/
def encodedBytes (f : Input) : Bytes :=
  match Container.encodeFrame f.data f.timestamp with
  | .ok b => b
  | .error _ => []

/-- What is read back. -/
def back (f : Input) : Frame := ⟨f.data, f.timestamp.toNat, f.keyframe⟩

end Verif.Js.Frames
