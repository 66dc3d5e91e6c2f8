import Verif.Base

/-!
# Model of the requests for media in `js/hang/src/publish/broadcast.ts`

The class `Broadcast` asks for the camera, the microphone or the screen, js/hang/src/publish/broadcast.ts:82-191,
when the signals `device`, `audio.enabled`, `video.enabled` and the constraints say so, and puts what it gets into
the signals `audio.media` and `video.media`, from where it is published (C107, C108).

What the model takes from the platform (part of the trusted base):
* A request is granted or denied once, at any later time, if ever.  A request for the camera is granted with a track,
  one for the screen with a picture and perhaps with sound.  Further tracks are left out.
* A media track captures until `stop()` is called.
* Signals may be set together (`batch`).  An effect runs again if a signal that it read in its last run has another
  value, after its cleanup, and effects run in the order in which they were created.

The application does not set `audio.media` and `video.media` itself.
-/

set_option autoImplicit false

namespace Verif.Js.Media

open Verif

/-- `Device`, js/hang/src/publish/broadcast.ts:10. -/
inductive Device where
  | screen
  | camera
  deriving DecidableEq, Repr

/-- The signals; constraints are told apart by numbers. -/
structure Config where
  device : Option Device
  /-- `audio.enabled` -/
  audio : Bool
  /-- `video.enabled` -/
  video : Bool
  /-- `audio.constraints` -/
  audioConstraints : Nat
  /-- `video.constraints` -/
  videoConstraints : Nat
  deriving DecidableEq, Repr

/-- The effects `#runCameraAudio`, `#runCameraVideo` and `#runScreen`. -/
inductive Kind where
  | cameraAudio
  | cameraVideo
  | screen
  deriving DecidableEq, Repr

/-- A media track. -/
structure Source where
  video : Bool
  /-- the request that it comes from -/
  request : Nat
  stopped : Bool
  deriving DecidableEq, Repr

structure State where
  config : Config
  /-- `audio.media` and `video.media` -/
  audio : Option Nat
  video : Option Nat
  /-- all requests, and those that were neither granted nor denied -/
  requests : List Kind
  pending : List Nat
  /-- the request of each effect in its last run -/
  current : Kind → Option Nat
  sources : List Source
  closed : Bool

inductive Op where
  /-- signals are set -/
  | set (c : Config)
  /-- a request is granted; is there sound, is there a picture -/
  | granted (i : Nat) (audio video : Bool)
  | denied (i : Nat)
  /-- `Broadcast.close` -/
  | close
  deriving DecidableEq, Repr

inductive Out where
  /-- the requests that were made, and those whose effects were cleaned up -/
  | ran (made : List (Kind × Nat)) (dropped : List (Kind × Nat))
  | ok
  | invalid
  deriving DecidableEq, Repr

/-- Without a device, js/hang/src/publish/broadcast.ts:47-58. -/
def init : State := ⟨⟨none, false, false, 0, 0⟩, none, none, [], [], fun _ => none, [], false⟩

/-- `prev?.stop()`. -/
def stop (s : State) (m : Option Nat) : List Source :=
  match m with
  | some id => s.sources.modify id fun x => { x with stopped := true }
  | none => s.sources

/-- `this.audio.media.set((prev) => { prev?.stop(); return undefined; })`, js/hang/src/publish/broadcast.ts:109-112. -/
def clearAudio (s : State) : State := { s with sources := stop s s.audio, audio := none }

/-- js/hang/src/publish/broadcast.ts:134-137. -/
def clearVideo (s : State) : State := { s with sources := stop s s.video, video := none }

/-- Does the effect ask for media, js/hang/src/publish/broadcast.ts:92-95, 117-120 and 142-145? -/
def asks (k : Kind) (c : Config) : Bool :=
  match k with
  | .cameraAudio => c.device == some .camera && c.audio
  | .cameraVideo => c.device == some .camera && c.video
  | .screen => c.device == some .screen && (c.audio || c.video)

/-- Has a signal that the effect read with `c` another value in `c'`?  It reads `device` first, and the others only
if it gets there; `&&` in 145 does not read `video.enabled` if `audio.enabled`. -/
def reads (k : Kind) (c c' : Config) : Bool :=
  c'.device != c.device ||
  match k with
  | .cameraAudio => c.device == some .camera &&
      (c'.audio != c.audio || (c.audio && c'.audioConstraints != c.audioConstraints))
  | .cameraVideo => c.device == some .camera &&
      (c'.video != c.video || (c.video && c'.videoConstraints != c.videoConstraints))
  | .screen => c.device == some .screen &&
      (c'.audio != c.audio || (!c.audio && c'.video != c.video) ||
        ((c.audio || c.video) &&
          (c'.videoConstraints != c.videoConstraints || c'.audioConstraints != c.audioConstraints)))

/-- The cleanup of an effect that asked for media, js/hang/src/publish/broadcast.ts:108-113, 133-138 and 180-190. -/
def cleanup (s : State) (k : Kind) : List (Kind × Nat) × State :=
  match s.current k with
  | none => ([], s)
  | some i =>
    let s' := match k with
      | .cameraAudio => clearAudio s
      | .cameraVideo => clearVideo s
      | .screen => clearAudio (clearVideo s)
    ([(k, i)], { s' with current := fun x => if x = k then none else s'.current x })

/-- The body of an effect: `getUserMedia` or `getDisplayMedia`, js/hang/src/publish/broadcast.ts:97, 122 and 157-167. -/
def run (s : State) (k : Kind) : List (Kind × Nat) × State :=
  if asks k s.config then
    ([(k, s.requests.length)], { s with
      requests := s.requests ++ [k]
      pending := s.pending ++ [s.requests.length]
      current := fun x => if x = k then some s.requests.length else s.current x })
  else ([], s)

/-- An effect runs again, if it has to: what it asks for, and what it drops. -/
def rerun (c : Config) (k : Kind) (x : List (Kind × Nat) × List (Kind × Nat) × State) :
    List (Kind × Nat) × List (Kind × Nat) × State :=
  if reads k c x.2.2.config then
    let a := cleanup x.2.2 k
    let b := run a.2 k
    (x.1 ++ b.1, x.2.1 ++ a.1, b.2)
  else x

/-- A request is granted, js/hang/src/publish/broadcast.ts:100-103, 125-128 and 170-175. -/
def grant (s : State) (i : Nat) (k : Kind) (audio video : Bool) : State :=
  let s' := { s with pending := s.pending.erase i }
  let n := s.sources.length
  match k with
  | .cameraAudio => { s' with sources := s.sources ++ [⟨false, i, false⟩], audio := some n }
  | .cameraVideo => { s' with sources := s.sources ++ [⟨true, i, false⟩], video := some n }
  | .screen => { s' with
      sources := s.sources ++ (if video then [⟨true, i, false⟩] else []) ++ (if audio then [⟨false, i, false⟩] else [])
      video := if video then some n else none
      audio := if audio then some (if video then n + 1 else n) else none }

def step (s : State) : Op → Out × State
  | .set c =>
    if s.closed then (.ok, { s with config := c })
    else
      let x := rerun s.config .screen (rerun s.config .cameraVideo (rerun s.config .cameraAudio ([], [], { s with config := c })))
      (.ran x.1 x.2.1, x.2.2)
  | .granted i audio video =>
    match s.requests[i]? with
    | some k => if i ∈ s.pending then (.ok, grant s i k audio video) else (.invalid, s)
    | none => (.invalid, s)
  | .denied i => if i ∈ s.pending then (.ok, { s with pending := s.pending.erase i }) else (.invalid, s)
  /- js/hang/src/publish/broadcast.ts:218-219: effects are disposed in reverse order -/
  | .close =>
    if s.closed then (.invalid, s)
    else
      let a := cleanup s .screen
      let b := cleanup a.2 .cameraVideo
      let c := cleanup b.2 .cameraAudio
      (.ran [] (a.1 ++ b.1 ++ c.1), { c.2 with closed := true })

/-- The machine of asking for media. -/
abbrev machine : Machine := { State := State, Op := Op, Out := Out, init := init, step := step }

/-! ## Vocabulary of histories -/

abbrev Trace := List (Op × Out)

/-- The signals, as they were set last. -/
def config (tr : Trace) : Config :=
  tr.foldl (fun c e => match e.1 with | .set c' => c' | _ => c) init.config

/-- Request `i` was made by effect `k`. -/
def Made (tr : Trace) (k : Kind) (i : Nat) : Prop := ∃ op ms ds, (op, .ran ms ds) ∈ tr ∧ (k, i) ∈ ms

/-- The effect that made request `i` was cleaned up. -/
def Dropped (tr : Trace) (i : Nat) : Prop := ∃ op ms ds k, (op, .ran ms ds) ∈ tr ∧ (k, i) ∈ ds

/-- A request was granted after its effect was cleaned up. -/
def Late (tr : Trace) : Prop :=
  ∃ pre post i a v, tr = pre ++ (.granted i a v, .ok) :: post ∧ Dropped pre i

/-- `close()` was called. -/
def Closed (tr : Trace) : Prop := ∃ ms ds, (.close, .ran ms ds) ∈ tr

end Verif.Js.Media
