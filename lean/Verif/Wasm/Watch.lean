import Verif.Base

/-!
# Model of `Watch`, rs/hang-wasm/src/watch/mod.rs, and the subscriptions of rs/hang-wasm/src/watch/{video,audio}.rs

`Watch` connects, waits for the catalogs of the broadcast that has the path of the URL, and hands each to `Video` and `Audio`, which
subscribe to the first track that the catalog lists.

What the model takes from elsewhere (part of the trusted base):
* Connecting, rs/hang-wasm/src/connect.rs, ends at any time after it was started, if ever, with a session or an error.
* Catalogs of the current broadcast come at any time; so does the end or an error.  The same for a track that is played.
* `sup` says whether the browser accepts the configuration of a decoder.

Dropping a `VideoTrack` or `AudioTrack` ends its subscription, so that what is not held is not subscribed.
-/

set_option autoImplicit false

namespace Verif.Wasm.Watch

open Verif

inductive Kind where
  | video
  | audio
  deriving DecidableEq, Repr

/-- An entry of the catalog; audio has no dimensions. -/
structure Entry where
  track : Nat
  width : Option Nat
  height : Option Nat
  config : Nat
  deriving DecidableEq, Repr

structure Catalog where
  video : List Entry
  audio : List Entry
  deriving DecidableEq, Repr

/-- A `VideoTrack` or `AudioTrack`. -/
structure Sub where
  id : Nat
  /-- the broadcast it was subscribed from -/
  broadcast : Nat
  /-- `info` -/
  info : Entry
  deriving DecidableEq, Repr

/-- The fields `broadcast`, `catalog` and `track` of `Video`, rs/hang-wasm/src/watch/video.rs:12-18, or `Audio`,
rs/hang-wasm/src/watch/audio.rs:9-22. -/
structure Slot where
  src : Option Nat
  cat : Option Catalog
  cur : Option Sub
  deriving DecidableEq, Repr

/-- `Watch`, rs/hang-wasm/src/watch/mod.rs:16-21. -/
structure State where
  /-- `connect`: the path of the URL -/
  connect : Option (List Char)
  /-- `broadcast` -/
  broadcast : Option Nat
  /-- the names of the broadcasts consumed so far -/
  names : List (List Char)
  canvas : Bool
  visible : Bool
  muted : Bool
  worklet : Bool
  video : Slot
  audio : Slot
  /-- number of subscriptions so far -/
  next : Nat
  /-- there was a panic -/
  dead : Bool
  deriving DecidableEq, Repr

inductive Op where
  | connect (path : Option (List Char))
  /-- connecting is over: whether there is a session -/
  | established (ok : Bool)
  /-- the current broadcast has a catalog, is over (`some none`), or failed (`none`) -/
  | catalog (c : Option (Option Catalog))
  | canvas (b : Bool)
  | visible (b : Bool)
  | worklet (b : Bool)
  | muted (b : Bool)
  /-- the track is over, failed, or could not be decoded -/
  | finish (k : Kind)
  deriving DecidableEq, Repr

/-- What is sent to the page, and the subscriptions. -/
inductive Event where
  | connecting
  | disconnected
  | connected
  | live
  | offline
  | error
  | subscribe (k : Kind) (broadcast track : Nat)
  deriving DecidableEq, Repr

inductive Out where
  | did (l : List Event)
  | panic
  | invalid
  deriving DecidableEq, Repr

/-- `Watch::default`; `visible` is true at first, rs/hang-wasm/src/watch/video.rs:233. -/
def init : State := ⟨none, none, [], false, true, false, false, ⟨none, none, none⟩, ⟨none, none, none⟩, 0, false⟩

/-- The entries for video or audio. -/
def entries (k : Kind) (c : Catalog) : List Entry :=
  match k with
  | .video => c.video
  | .audio => c.audio

/-- Whether the track may be played: rs/hang-wasm/src/watch/video.rs:52, rs/hang-wasm/src/watch/audio.rs:29. -/
def gate (k : Kind) (s : State) : Bool :=
  match k with
  | .video => s.canvas && s.visible
  | .audio => !s.muted && s.worklet

/-- Whether `VideoTrack::new`, rs/hang-wasm/src/watch/video.rs:143-168, or `AudioTrack::new`, rs/hang-wasm/src/watch/audio.rs:231-249,
succeeds. -/
def usable (sup : Nat → Bool) (k : Kind) (e : Entry) : Bool :=
  match k with
  | .video =>
    match e.width, e.height with
    | some _, some _ => sup e.config
    | none, none => sup e.config
    | _, _ => false
  | .audio => sup e.config

def slot (k : Kind) (s : State) : Slot :=
  match k with
  | .video => s.video
  | .audio => s.audio

def setSlot (k : Kind) (s : State) (x : Slot) : State :=
  match k with
  | .video => { s with video := x }
  | .audio => { s with audio := x }

/-- The entry that is to be played, if any. -/
def target (k : Kind) (s : State) : Option (Nat × Entry) :=
  match (slot k s).src, (slot k s).cat with
  | some b, some c =>
    if gate k s then
      match entries k c with
      | e :: _ => some (b, e)
      | [] => none
    else none
  | _, _ => none

/-- Subscribing, rs/hang-wasm/src/watch/video.rs:66-74, rs/hang-wasm/src/watch/audio.rs:45-53. -/
def subscribe (sup : Nat → Bool) (k : Kind) (s : State) (b : Nat) (e : Entry) : List Event × State :=
  let cur := if usable sup k e then some ⟨s.next, b, e⟩ else none
  ([.subscribe k b e.track], { setSlot k s { slot k s with cur := cur } with next := s.next + 1 })

/-- `reinit`, rs/hang-wasm/src/watch/video.rs:45-75, rs/hang-wasm/src/watch/audio.rs:26-54. -/
def reinit (sup : Nat → Bool) (k : Kind) (s : State) : List Event × State :=
  match target k s with
  | none => ([], setSlot k s { slot k s with cur := none })
  | some (b, e) =>
    match (slot k s).cur with
    | some x => if x.info.track = e.track then ([], s) else subscribe sup k s b e
    | none => subscribe sup k s b e

/-- `set_catalog` of `Video`, rs/hang-wasm/src/watch/video.rs:103-107, and `Audio`, rs/hang-wasm/src/watch/audio.rs:56-60. -/
def setCatalog (sup : Nat → Bool) (k : Kind) (s : State) (b : Nat) (c : Option Catalog) : List Event × State :=
  reinit sup k (setSlot k s { slot k s with src := some b, cat := c })

/-- The connection is there, rs/hang-wasm/src/watch/mod.rs:50-54 and 66-79. -/
def established (s : State) (ok : Bool) : Out × State :=
  match s.connect with
  | none => (.invalid, s)
  | some path =>
    match path with
    | '/' :: name =>
      if ok then
        (.did [.connected], { s with connect := none, broadcast := some s.names.length, names := s.names ++ [name] })
      else (.did [.error], { s with connect := none })
    | _ => (.panic, { s with dead := true })

/-- A catalog, rs/hang-wasm/src/watch/mod.rs:55-58 and 81-101. -/
def catalog (sup : Nat → Bool) (s : State) (c : Option (Option Catalog)) : Out × State :=
  match s.broadcast with
  | none => (.invalid, s)
  | some b =>
    match c with
    | none => (.did [.error], { s with broadcast := none })
    | some c =>
      let e := if c.isSome then Event.live else .offline
      let s := { s with broadcast := if c.isSome then some b else none }
      let a := setCatalog sup .audio s b c
      let v := setCatalog sup .video a.2 b c
      (.did (e :: (a.1 ++ v.1)), v.2)

/-- The track is taken, rs/hang-wasm/src/watch/video.rs:83, rs/hang-wasm/src/watch/audio.rs:85. -/
def finish (k : Kind) (s : State) : Out × State :=
  match (slot k s).cur with
  | none => (.invalid, s)
  | some _ => (.did [], setSlot k s { slot k s with cur := none })

def did (r : List Event × State) : Out × State := (.did r.1, r.2)

/-- `recv`, rs/hang-wasm/src/watch/mod.rs:24-45, and `run`, rs/hang-wasm/src/watch/mod.rs:47-64.  The canvas, worklet, visibility and
muting: rs/hang-wasm/src/watch/video.rs:109-121, rs/hang-wasm/src/watch/audio.rs:62-77. -/
def step (sup : Nat → Bool) (s : State) (op : Op) : Out × State :=
  if s.dead then (.panic, s)
  else
    match op with
    | .connect (some p) => (.did [.connecting], { s with connect := some p })
    | .connect none => (.did [.disconnected], { s with connect := none })
    | .established ok => established s ok
    | .catalog c => catalog sup s c
    | .canvas b => did (reinit sup .video { s with canvas := b })
    | .visible b => did (reinit sup .video { s with visible := b })
    | .worklet b => did (reinit sup .audio { s with worklet := b })
    | .muted b => did (reinit sup .audio { s with muted := b })
    | .finish k => finish k s

/-- The machine of a player. -/
abbrev machine (sup : Nat → Bool) : Machine := { State := State, Op := Op, Out := Out, init := init, step := step sup }

abbrev Trace := List (Op × Out)

end Verif.Wasm.Watch
