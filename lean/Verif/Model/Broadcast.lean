import Verif.Slots
import Verif.Session.Error

/-!
# Model of `rs/moq/src/model/broadcast.rs`

One broadcast with any number of producer and consumer handles, the tracks that pass through it,
the queue of requested tracks, and the clean-up tasks it spawns.

Of a track only what the broadcast depends on is kept: its name, how it was closed, and how many
`TrackProducer` handles exist; the groups are the subject of `Verif/Model/Track.lean`.  Track
priorities are left out (the broadcast never looks at them), and track names are taken to be
immutable although `TrackProducer::info` is a public field.

Atomic steps.  `subscribe` holds the lock on `published` throughout and touches the request
channel once, so it is one step.  Dropping the last producer handle is several steps, as the
code takes no common lock.  The atomic counter is sequentially consistent and does not overflow.
-/

set_option autoImplicit false

namespace Verif.Model.Broadcast

open Verif Verif.Session

/-- A reference to a track as held by a `TrackConsumer` or `TrackProducer`: the name
(`info.name`, rs/moq/src/model/track.rs:26) and the identity of the channel
(`is_clone`, rs/moq/src/model/track.rs:187-189). -/
structure Ref where
  name : String
  id : Nat
  deriving DecidableEq

/-- A track, rs/moq/src/model/track.rs:43-54. -/
structure Trk where
  name : String
  /-- `TrackState::closed`, rs/moq/src/model/track.rs:46 -/
  closed : Option (Except Error Unit)
  /-- the number of `TrackProducer` handles outside the broadcast -/
  held : Nat

/-- How far the drop of a producer handle has come, rs/moq/src/model/broadcast.rs:124-143. -/
inductive Phase where
  /-- not being dropped -/
  | live
  /-- before line 133 -/
  | close
  /-- in the loop of lines 136-138, possibly holding a track that was taken from the queue -/
  | drain (t : Option Nat)
  /-- before line 141 -/
  | clear
  /-- `drop` has returned; the fields are about to be dropped -/
  | fields
  deriving DecidableEq

/-- The state of a broadcast, of all its handles and of the tracks. -/
structure State where
  tracks : List Trk
  /-- `published`, rs/moq/src/model/broadcast.rs:20 -/
  published : String → Option Nat
  /-- `requested`, an unbounded channel, rs/moq/src/model/broadcast.rs:22-25 -/
  queue : List Nat
  queueOpen : Bool
  /-- `cloned`, rs/moq/src/model/broadcast.rs:26 -/
  cloned : Nat
  /-- the value of `closed`, rs/moq/src/model/broadcast.rs:21 -/
  finished : Bool
  /-- `cleanup` tasks that are running, with the track, rs/moq/src/model/broadcast.rs:71-84 -/
  tasks : Slots Nat
  producers : Slots Phase
  consumers : Slots Unit
  /-- live `unused()` futures; each holds a `watch::Sender`, rs/moq/src/model/broadcast.rs:102-105 -/
  unusedFutures : Slots Unit
  /-- live `closed()` futures; each holds a `watch::Receiver`,
  rs/moq/src/model/broadcast.rs:217-223 -/
  closedFutures : Slots Unit

/-- Operations. -/
inductive Op where
  -- tracks, rs/moq/src/model/track.rs
  | newTrack (name : String)
  | cloneTrack (t : Nat)
  | dropTrack (t : Nat)
  | finishTrack (t : Nat)
  | abortTrack (t : Nat) (e : Error)
  /-- one poll of `TrackConsumer::closed` -/
  | pollTrack (t : Nat)
  -- producers
  /-- one poll of `request` -/
  | request (p : Nat)
  | create (p : Nat) (name : String)
  | insert (p : Nat) (t : Ref)
  | consume (p : Nat)
  | finish (p : Nat)
  | cloneProducer (p : Nat)
  /-- the start of the drop of a producer handle -/
  | dropProducer (p : Nat)
  /-- one more step of the drop of the last producer handle -/
  | dropStep (p : Nat)
  | unused (p : Nat)
  | pollUnused (f : Nat)
  | dropUnused (f : Nat)
  /-- one poll of a clean-up task -/
  | cleanup (k : Nat)
  -- consumers
  | subscribe (c : Nat) (name : String)
  | cloneConsumer (c : Nat)
  | dropConsumer (c : Nat)
  | closed (c : Nat)
  | pollClosed (f : Nat)
  | dropClosed (f : Nat)
  deriving DecidableEq

/-- Outputs. -/
inductive Out where
  | ok
  | handle (id : Nat)
  | pending
  | track (t : Ref)
  /-- `None` of `request` -/
  | none
  /-- the result of `insert`: was the name unused -/
  | inserted (unique : Bool)
  /-- a clean-up task for this track ran to its end -/
  | cleaned (t : Ref)
  | err (e : Error)
  | invalid
  deriving DecidableEq

/-- `BroadcastProducer::new`, rs/moq/src/model/broadcast.rs:36-43 -/
def init : State :=
  { tracks := [], published := fun _ => none, queue := [], queueOpen := true, cloned := 0,
    finished := false, tasks := [], producers := [some .live], consumers := [],
    unusedFutures := [], closedFutures := [] }

/-- The map `f` with `k` bound to `v`. -/
def bind (f : String → Option Nat) (k : String) (v : Option Nat) : String → Option Nat :=
  fun x => if x = k then v else f x

/-- A dropping producer holds track `t`, taken from the queue. -/
def Phase.holds (t : Nat) : Option Phase → Bool
  | some (.drain (some u)) => u == t
  | _ => false

/-- Some `TrackProducer` of track `t` exists: outside, in the queue, or in the hands of a
dropping producer. -/
def State.produced (s : State) (t : Nat) : Bool :=
  (match s.tracks[t]? with
    | some k => decide (0 < k.held)
    | none => false) ||
  decide (t ∈ s.queue) || s.producers.any (Phase.holds t)

/-- What `TrackConsumer::closed` resolves to, `none` while it is pending,
rs/moq/src/model/track.rs:180-185. -/
def State.trackClosed (s : State) (t : Nat) : Option (Except Error Unit) :=
  match s.tracks[t]? with
  | some k =>
    match k.closed with
    | some r => some r
    | none => if s.produced t then none else some (.error .cancel)
  | none => some (.error .cancel)

/-- Set how track `t` was closed. -/
def State.setClosed (s : State) (t : Nat) (r : Except Error Unit) : State :=
  { s with tracks := s.tracks.modify t fun k => { k with closed := some r } }

/-- Change the number of producer handles of track `t`. -/
def State.setHeld (s : State) (t : Nat) (f : Nat → Nat) : State :=
  { s with tracks := s.tracks.modify t fun k => { k with held := f k.held } }

/-- The track `t` if there is a producer handle outside. -/
def State.outside (s : State) (t : Nat) : Bool :=
  match s.tracks[t]? with
  | some k => decide (0 < k.held)
  | none => false

/-- The name of track `t`. -/
def State.name (s : State) (t : Nat) : String :=
  match s.tracks[t]? with
  | some k => k.name
  | none => ""

/-- The body of `insert`, rs/moq/src/model/broadcast.rs:58-68. -/
def State.insertTrack (s : State) (t : Ref) : State :=
  { s with published := bind s.published t.name (some t.id), tasks := s.tasks.add t.id }

/-- One operation. -/
def step (s : State) : Op → Out × State
  /- rs/moq/src/model/track.rs:38-40 -/
  | .newTrack name =>
    (.track ⟨name, s.tracks.length⟩, { s with tracks := s.tracks ++ [⟨name, none, 1⟩] })
  /- rs/moq/src/model/track.rs:50 -/
  | .cloneTrack t => if s.outside t then (.ok, s.setHeld t (· + 1)) else (.invalid, s)
  | .dropTrack t => if s.outside t then (.ok, s.setHeld t (· - 1)) else (.invalid, s)
  /- rs/moq/src/model/track.rs:104-106 -/
  | .finishTrack t =>
    if s.outside t then (.ok, (s.setClosed t (.ok ())).setHeld t (· - 1)) else (.invalid, s)
  /- rs/moq/src/model/track.rs:108-110 -/
  | .abortTrack t e =>
    if s.outside t then (.ok, (s.setClosed t (.error e)).setHeld t (· - 1)) else (.invalid, s)
  /- rs/moq/src/model/track.rs:180-185 -/
  | .pollTrack t =>
    if t < s.tracks.length then
      match s.trackClosed t with
      | none => (.pending, s)
      | some (.ok _) => (.ok, s)
      | some (.error e) => (.err e, s)
    else (.invalid, s)
  /- rs/moq/src/model/broadcast.rs:45-49: `recv` takes the oldest track, fails if the channel is
  empty and closed, and otherwise waits. -/
  | .request p =>
    match s.producers.get p with
    | some .live =>
      match s.queue with
      | t :: q =>
        (.track ⟨s.name t, t⟩,
          { s.setHeld t (· + 1) with queue := q, tasks := s.tasks.add t })
      | [] => if s.queueOpen then (.pending, s) else (.none, s)
    | _ => (.invalid, s)
  /- rs/moq/src/model/broadcast.rs:51-55 -/
  | .create p name =>
    match s.producers.get p with
    | some .live =>
      let t : Ref := ⟨name, s.tracks.length⟩
      (.track t, State.insertTrack { s with tracks := s.tracks ++ [⟨name, none, 1⟩] } t)
    | _ => (.invalid, s)
  /- rs/moq/src/model/broadcast.rs:58-68 -/
  | .insert p t =>
    match s.producers.get p with
    | some .live =>
      if t.id < s.tracks.length ∧ s.name t.id = t.name then
        (.inserted (s.published t.name).isNone, s.insertTrack t)
      else (.invalid, s)
    | _ => (.invalid, s)
  /- rs/moq/src/model/broadcast.rs:87-93 -/
  | .consume p =>
    match s.producers.get p with
    | some .live => (.handle s.consumers.length, { s with consumers := s.consumers.add () })
    | _ => (.invalid, s)
  /- rs/moq/src/model/broadcast.rs:95-97 -/
  | .finish p =>
    match s.producers.get p with
    | some .live => (.ok, { s with finished := true })
    | _ => (.invalid, s)
  /- rs/moq/src/model/broadcast.rs:112-122 -/
  | .cloneProducer p =>
    match s.producers.get p with
    | some .live =>
      (.handle s.producers.length,
        { s with cloned := s.cloned + 1, producers := s.producers.add .live })
    | _ => (.invalid, s)
  /- rs/moq/src/model/broadcast.rs:126-128; the counter wraps below zero -/
  | .dropProducer p =>
    match s.producers.get p with
    | some .live =>
      if 0 < s.cloned then
        (.ok, { s with cloned := s.cloned - 1, producers := s.producers.put p none })
      else
        (.pending,
          { s with cloned := 2 ^ 64 - 1, producers := s.producers.put p (some .close) })
    | _ => (.invalid, s)
  | .dropStep p =>
    match s.producers.get p with
    /- rs/moq/src/model/broadcast.rs:133 -/
    | some .close =>
      (.pending, { s with queueOpen := false, producers := s.producers.put p (some (.drain none)) })
    /- rs/moq/src/model/broadcast.rs:136 -/
    | some (.drain none) =>
      match s.queue with
      | t :: q =>
        (.pending, { s with queue := q, producers := s.producers.put p (some (.drain (some t))) })
      | [] => (.pending, { s with producers := s.producers.put p (some .clear) })
    /- rs/moq/src/model/broadcast.rs:137 -/
    | some (.drain (some t)) =>
      (.pending,
        { s.setClosed t (.error .cancel) with
          producers := s.producers.put p (some (.drain none)) })
    /- rs/moq/src/model/broadcast.rs:141 -/
    | some .clear =>
      (.pending,
        { s with published := fun _ => none, producers := s.producers.put p (some .fields) })
    | some .fields => (.ok, { s with producers := s.producers.put p none })
    | _ => (.invalid, s)
  /- rs/moq/src/model/broadcast.rs:102-105 -/
  | .unused p =>
    match s.producers.get p with
    | some .live =>
      (.handle s.unusedFutures.length, { s with unusedFutures := s.unusedFutures.add () })
    | _ => (.invalid, s)
  | .pollUnused f =>
    match s.unusedFutures.get f with
    | none => (.invalid, s)
    | some _ =>
      (if s.consumers.count + s.closedFutures.count = 0 then .ok else .pending, s)
  | .dropUnused f =>
    match s.unusedFutures.get f with
    | none => (.invalid, s)
    | some _ => (.ok, { s with unusedFutures := s.unusedFutures.put f none })
  /- rs/moq/src/model/broadcast.rs:71-84: the map entry is taken out and put back unless it is
  the track of this task. -/
  | .cleanup k =>
    match s.tasks.get k with
    | none => (.invalid, s)
    | some t =>
      match s.trackClosed t with
      | none => (.pending, s)
      | some _ =>
        let s' := { s with tasks := s.tasks.put k none }
        match s.published (s.name t) with
        | some u =>
          if u = t then
            (.cleaned ⟨s.name t, t⟩, { s' with published := bind s.published (s.name t) none })
          else (.cleaned ⟨s.name t, t⟩, s')
        | none => (.cleaned ⟨s.name t, t⟩, s')
  /- rs/moq/src/model/broadcast.rs:179-215 -/
  | .subscribe c name =>
    match s.consumers.get c with
    | none => (.invalid, s)
    | some _ =>
      match s.published name with
      | some t => (.track ⟨name, t⟩, s)
      | none =>
        let t := s.tracks.length
        if s.queueOpen then
          (.track ⟨name, t⟩,
            { s with
              tracks := s.tracks ++ [⟨name, none, 0⟩]
              published := bind s.published name (some t)
              queue := s.queue ++ [t] })
        else
          (.track ⟨name, t⟩,
            { s with
              tracks := s.tracks ++ [⟨name, some (.error .cancel), 0⟩]
              published := bind s.published name (some t) })
  /- `#[derive(Clone)]`, rs/moq/src/model/broadcast.rs:171 -/
  | .cloneConsumer c =>
    match s.consumers.get c with
    | none => (.invalid, s)
    | some _ => (.handle s.consumers.length, { s with consumers := s.consumers.add () })
  | .dropConsumer c =>
    match s.consumers.get c with
    | none => (.invalid, s)
    | some _ => (.ok, { s with consumers := s.consumers.put c none })
  /- rs/moq/src/model/broadcast.rs:217-223 -/
  | .closed c =>
    match s.consumers.get c with
    | none => (.invalid, s)
    | some _ =>
      (.handle s.closedFutures.length, { s with closedFutures := s.closedFutures.add () })
  | .pollClosed f =>
    match s.closedFutures.get f with
    | none => (.invalid, s)
    | some _ =>
      (if s.finished || s.producers.count + s.unusedFutures.count = 0 then .ok else .pending, s)
  | .dropClosed f =>
    match s.closedFutures.get f with
    | none => (.invalid, s)
    | some _ => (.ok, { s with closedFutures := s.closedFutures.put f none })

/-- The broadcast as a machine. -/
abbrev machine : Machine := ⟨State, Op, Out, init, step⟩

end Verif.Model.Broadcast
