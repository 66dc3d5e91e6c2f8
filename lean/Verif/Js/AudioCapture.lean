import Verif.Js.Frames
import Verif.Js.Receive

/-!
# Model of `js/hang/src/publish/audio.ts`

Publishing audio from the browser.  There are two machines:

* `Worklet` is the class with its signals and effects, js/hang/src/publish/audio.ts:40-211, up to what the
  encoder puts out: who creates an `AudioContext`, when `#root` is set, and when there is a track.
* the machine of this namespace is the effect `#runEncoder`, js/hang/src/publish/audio.ts:104-206, for any
  `root` that it may be given: what the encoder puts out is written to the groups of a track.

A *run* is what `#runEncoder` starts: a track and an encoder.  Run `r` has track `r`.

What the model takes from the platform (part of the trusted base):
* After `close()` or an error the encoder puts out nothing.  `close()` throws if it is closed already.
* Effects run again as soon as one of their signals changes, after their cleanup.  Cleanups run in reverse
  order, and if one throws the rest do not run.

`insertTrack` and `removeTrack` of the broadcast are left out.  Timestamps are integers, maybe negative, below
2^53 microseconds, so that `encodeFrame` does not throw (C99).
-/

set_option autoImplicit false

namespace Verif.Js.AudioCapture

open Verif

open Verif.Js.Frames (Input)

/-- `1000 * 1000 * GOP_DURATION`, js/hang/src/publish/audio.ts:7 and 157. -/
def GOP : Int := 500000

/-- An `Audio`, js/hang/src/publish/audio.ts:40-68, with all its runs and tracks. -/
structure State where
  /-- `#group`: a track and a group of it -/
  group : Option (Nat × Nat)
  /-- `#groupTimestamp` -/
  timestamp : Int
  tracks : List Track.State
  /-- the run whose effect has not been cleaned up -/
  current : Option Nat
  /-- its encoder has not failed -/
  working : Bool
  /-- `close()` was called -/
  closed : Bool
  /-- all calls of methods of the tracks, and of the groups -/
  calls : List (Nat × Track.Op × Track.Out)
  deriving DecidableEq, Repr

inductive Op where
  /-- the effect runs with a context and media -/
  | start
  /-- the effect runs without -/
  | stop
  /-- `Audio.close` -/
  | close
  /-- the encoder puts out a chunk -/
  | output (r : Nat) (c : Input)
  /-- the encoder fails -/
  | error (r : Nat)
  /-- a reader of a track does something -/
  | track (r : Nat) (op : Track.Op)
  deriving DecidableEq, Repr

inductive Out where
  | ok
  | run (r : Nat)
  /-- the chunk is in this group of this track -/
  | wrote (k g : Nat)
  /-- "only key frames are supported" -/
  | notKey
  /-- `encodeFrame` threw -/
  | refused
  /-- the track or the group threw -/
  | threw
  | track (o : Track.Out)
  | invalid
  deriving DecidableEq, Repr

def init : State := ⟨none, 0, [], none, false, false, []⟩

/-- A method of a track, or of one of its groups. -/
def act (s : State) (r : Nat) (op : Track.Op) : State :=
  match s.tracks[r]? with
  | some t => { s with
      tracks := s.tracks.set r (Track.step t op).2
      calls := s.calls ++ [(r, op, (Track.step t op).1)] }
  | none => s

/-- `this.#group?.close()`, js/hang/src/publish/audio.ts:158. -/
def closeGroup (s : State) : State :=
  match s.group with
  | some (k, g) => act s k (.closeGroup g)
  | none => s

/-- `this.#group?.abort(err)`, js/hang/src/publish/audio.ts:167. -/
def abortGroup (s : State) : State :=
  match s.group with
  | some (k, g) => act s k (.abortGroup g)
  | none => s

/-- The cleanup of `#runEncoder`, js/hang/src/publish/audio.ts:118, 119, 149 and 173, in reverse order: if the
encoder has failed, `encoder.close()` throws and `track.close()` is not called. -/
def cleanup (s : State) : State :=
  match s.current with
  | some r => { (if s.working then act s r .close else s) with current := none, working := false }
  | none => s

/-- js/hang/src/publish/audio.ts:163-164. -/
def write (s : State) (k g : Nat) (c : Input) : Out × State :=
  match Container.encodeFrame c.data c.timestamp with
  | .error _ => (.refused, s)
  | .ok b =>
    match s.tracks[k]? with
    | some t => (if (Track.step t (.write g b)).1 = .ok then .wrote k g else .threw, act s k (.write g b))
    | none => (.invalid, s)

/-- js/hang/src/publish/audio.ts:158-164. -/
def rotate (s : State) (r : Nat) (c : Input) : Out × State :=
  let s' := closeGroup s
  match s'.tracks[r]? with
  | some t =>
    match (Track.step t .append).1 with
    | .group g => write { act s' r .append with group := some (r, g), timestamp := c.timestamp } r g c
    | _ => (.threw, act s' r .append)
  | none => (.invalid, s)

/-- The callback `output`, js/hang/src/publish/audio.ts:152-165. -/
def emit (s : State) (r : Nat) (c : Input) : Out × State :=
  if c.keyframe then
    match s.group with
    | none => rotate s r c
    | some (k, g) => if GOP ≤ c.timestamp - s.timestamp then rotate s r c else write s k g c
  else (.notKey, s)

def step (s : State) : Op → Out × State
  /- js/hang/src/publish/audio.ts:104-182 -/
  | .start =>
    if s.closed then (.invalid, s)
    else
      let s' := cleanup s
      (.run s'.tracks.length, { s' with
        tracks := s'.tracks ++ [Track.init]
        current := some s'.tracks.length
        working := true })
  | .stop => if s.closed then (.invalid, s) else (.ok, cleanup s)
  /- js/hang/src/publish/audio.ts:208-210 -/
  | .close => if s.closed then (.invalid, s) else (.ok, { cleanup s with closed := true })
  | .output r c =>
    if s.current = some r ∧ s.working ∧ c.timestamp ≤ Container.MAX_U53 then emit s r c else (.invalid, s)
  /- The callback `error`, js/hang/src/publish/audio.ts:166-171. -/
  | .error r =>
    if s.current = some r ∧ s.working then
      (.ok, act { abortGroup s with group := none, working := false } r .abort)
    else (.invalid, s)
  | .track r op =>
    match s.tracks[r]? with
    | some t => if Receive.reads op then (.track (Track.step t op).1, act s r op) else (.invalid, s)
    | none => (.invalid, s)

/-- The machine of publishing audio from the browser. -/
abbrev machine : Machine := { State := State, Op := Op, Out := Out, init := init, step := step }

/-- `(currentTime * 1e6) | 0`, js/hang/src/publish/audio.ts:198: `ToInt32` of a number of microseconds. -/
def stamp (us : Nat) : Int := if us % 2 ^ 32 < 2 ^ 31 then us % 2 ^ 32 else us % 2 ^ 32 - 2 ^ 32

/-! ## Vocabulary of histories -/

abbrev Trace := List (Op × Out)

/-- The history of track `r`. -/
def trackTrace (s : State) (r : Nat) : Track.Trace :=
  s.calls.filterMap fun e => if e.1 = r then some e.2 else none

/-- The chunks that encoders put out and that are key frames, with the run. -/
def written (tr : Trace) : List (Nat × Input) :=
  tr.filterMap fun e =>
    match e with
    | (.output r c, o) => if o ≠ .invalid ∧ c.keyframe then some (r, c) else none
    | _ => none

/-- Run `r` was started. -/
def Started (tr : Trace) (r : Nat) : Prop := (.start, .run r) ∈ tr

/-- The encoder of run `r` failed. -/
def Errored (tr : Trace) (r : Nat) : Prop := (.error r, .ok) ∈ tr

/-- `close()` was called. -/
def Closed (tr : Trace) : Prop := (.close, .ok) ∈ tr

/-- An event that ends the run which is current: it is stopped, another is started, or `close()` is called. -/
def Ends (e : Op × Out) : Prop := e = (.stop, .ok) ∨ e = (.close, .ok) ∨ ∃ r, e = (.start, .run r)

/-- Run `r` was ended. -/
def Stopped (tr : Trace) (r : Nat) : Prop :=
  ∃ pre e post, tr = pre ++ (.start, .run r) :: post ∧ e ∈ post ∧ Ends e

/-! ## The effects -/

namespace Worklet

/-- An `Audio`, js/hang/src/publish/audio.ts:40-68, and what its effects have started. -/
structure State where
  enabled : Bool
  /-- the media, by a number -/
  media : Option Nat
  /-- `#root`: the number of a context -/
  root : Option Nat
  /-- how many contexts were created -/
  contexts : Nat
  /-- the context of `#runWorklet` that was not cleaned up -/
  mounted : Option Nat
  /-- `addModule` was called and has not returned -/
  pending : List Nat
  /-- how many tracks `#runEncoder` created -/
  tracks : Nat
  /-- the track in the catalog -/
  catalog : Option Nat
  closed : Bool
  deriving DecidableEq, Repr

inductive Op where
  /-- `enabled.set` -/
  | enable (b : Bool)
  /-- `media.set` -/
  | media (m : Option Nat)
  /-- `addModule` for a context returns -/
  | loaded (i : Nat)
  /-- `Audio.close` -/
  | close
  deriving DecidableEq, Repr

inductive Out where
  | ok
  | invalid
  deriving DecidableEq, Repr

/-- `new Audio(broadcast, props)` without media, js/hang/src/publish/audio.ts:60-68. -/
def init : State := ⟨false, none, none, 0, none, [], 0, none, false⟩

/-- The cleanup of `#runEncoder`, and its body up to the encoder, js/hang/src/publish/audio.ts:104-149. -/
def runEncoder (s : State) : State :=
  if s.enabled = true ∧ s.root.isSome = true ∧ s.media.isSome = true then
    { s with tracks := s.tracks + 1, catalog := some s.tracks }
  else { s with catalog := none }

/-- The cleanup of `#runWorklet`, js/hang/src/publish/audio.ts:87 and 96-101, and its body, 70-94.  When it sets
`#root` to nothing, the other effect runs again. -/
def runWorklet (s : State) : State :=
  let s' := match s.mounted with
    | some _ => { s with mounted := none, root := none }
    | none => s
  if s'.enabled = true ∧ s'.media.isSome = true ∧ s'.root.isSome = true then
    { s' with
      contexts := s'.contexts + 1
      mounted := some s'.contexts
      pending := s'.pending ++ [s'.contexts] }
  else s'

/-- Both effects run again: each uses `enabled`, `media` and `#root`. -/
def rerun (s : State) : State := runEncoder (runWorklet s)

def step (s : State) : Op → Out × State
  | .enable b =>
    if s.closed then (.ok, { s with enabled := b }) else (.ok, rerun { s with enabled := b })
  | .media m =>
    if s.closed then (.ok, { s with media := m }) else (.ok, rerun { s with media := m })
  /- js/hang/src/publish/audio.ts:91-94 -/
  | .loaded i =>
    if i ∈ s.pending then
      let s' := { s with pending := s.pending.erase i, root := some i }
      (.ok, if s.closed then s' else rerun s')
    else (.invalid, s)
  | .close =>
    if s.closed then (.invalid, s)
    else (.ok, { s with
      root := if s.mounted.isSome then none else s.root
      mounted := none
      catalog := none
      closed := true })

/-- The machine of the effects. -/
abbrev machine : Machine := { State := State, Op := Op, Out := Out, init := init, step := step }

end Worklet

end Verif.Js.AudioCapture
