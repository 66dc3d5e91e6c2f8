import Verif.Model.TrackSpec
import Verif.Session.Transfer

/-!
# Model of the subscriptions of a session

The part of `Subscriber` that concerns subscriptions, rs/moq/src/session/subscriber.rs:20-22,
126-185 and 210-223: ids, the table of subscribed tracks, and the routing of incoming groups.
What happens inside a group is the subject of `Verif/Session/Transfer.lean`.
-/

set_option autoImplicit false

namespace Verif.Session.Subs

open Verif Verif.Session
open Verif.Model (Track.Op Track.Out Track.State Track.init Track.step Track.machine)

/-- How far the task of a subscription is, rs/moq/src/session/subscriber.rs:144-147. -/
inductive Phase where
  /-- spawned, nothing done yet -/
  | spawned
  /-- in the table, line 155; the subscribe stream is running, lines 157-169 -/
  | active
  /-- the track was closed, lines 171-184 -/
  | closed
  /-- out of the table, line 146 -/
  | gone
  deriving DecidableEq

/-- The state. -/
structure State where
  /-- `next_id`, rs/moq/src/session/subscriber.rs:22 -/
  nextId : Nat
  /-- the tasks in the order they were spawned, each with its id -/
  tasks : List (Nat × Phase)
  /-- `subscribes`, rs/moq/src/session/subscriber.rs:21: the task whose track it is, and which
  producer handle of that track -/
  table : Nat → Option (Nat × Nat)
  /-- the track of each task -/
  tracks : List Track.State

/-- Operations. -/
inductive Op where
  /-- `run_broadcast` got a new track from the request queue, and spawned the task -/
  | request
  /-- task `k` puts its track in the table -/
  | start (k : Nat)
  /-- task `k` closes its track: the subscribe stream ended like this -/
  | close (k : Nat) (r : Except Error Unit)
  /-- task `k` removes its id from the table -/
  | remove (k : Nat)
  /-- `recv_group`: a group message came in; `gid` is the number of the new group -/
  | recvGroup (subscribe sequence gid : Nat)
  /-- a consumer of the track of task `k` does something -/
  | track (k : Nat) (op : Track.Op)

/-- Outputs. -/
inductive Out where
  /-- the id of the new subscription -/
  | id (i : Nat)
  | ok
  /-- a new group in the track of task `k` -/
  | created (k : Nat)
  /-- `Err(Error::Old)`; the group was offered to the track of task `k` -/
  | old (k : Nat)
  /-- `Err(Error::Cancel)` -/
  | unknown
  /-- the assertion in `insert_group` of the track of task `k` failed -/
  | panic (k : Nat)
  | track (o : Track.Out)
  | invalid

/-- `Subscriber::new`, rs/moq/src/session/subscriber.rs:26-34 -/
def init : State := ⟨0, [], fun _ => none, []⟩

/-- Operations of consumers of a track. -/
def byConsumer : Track.Op → Bool
  | .consume _ | .unused _ | .pollUnused _ | .dropUnused _ | .cloneConsumer _ | .dropConsumer _
  | .next _ | .pollClosed _ => true
  | _ => false

/-- Closing the track with producer 0, rs/moq/src/session/subscriber.rs:171-184. -/
def closeOp : Except Error Unit → Track.Op
  | .ok _ => .finish 0
  | .error e => .abort 0 (Transfer.abortWith e)

/-- One operation.  Simplification: a track comes with one producer; the clones that the broadcast
keeps (rs/moq/src/model/broadcast.rs) are only used to make consumers. -/
def step (s : State) : Op → Out × State
  /- rs/moq/src/session/subscriber.rs:131-147; `fetch_add` wraps -/
  | .request =>
    (.id s.nextId,
      { s with
        nextId := (s.nextId + 1) % 2 ^ 64
        tasks := s.tasks ++ [(s.nextId, .spawned)]
        tracks := s.tracks ++ [Track.init] })
  /- line 155: the table gets a clone of the producer -/
  | .start k =>
    match s.tasks[k]?, s.tracks[k]? with
    | some (id, .spawned), some t =>
      match Track.step t (.cloneProducer 0) with
      | (.handle h, t') =>
        (.ok,
          { s with
            tasks := s.tasks.set k (id, .active)
            table := fun i => if i = id then some (k, h) else s.table i
            tracks := s.tracks.set k t' })
      | _ => (.invalid, s)
    | _, _ => (.invalid, s)
  /- lines 171-184 -/
  | .close k r =>
    match s.tasks[k]?, s.tracks[k]? with
    | some (id, .active), some t =>
      (.ok,
        { s with
          tasks := s.tasks.set k (id, .closed)
          tracks := s.tracks.set k (Track.step t (closeOp r)).2 })
    | _, _ => (.invalid, s)
  /- line 146: the producer in the table is dropped -/
  | .remove k =>
    match s.tasks[k]? with
    | some (id, .closed) =>
      match s.table id with
      | none => (.ok, { s with tasks := s.tasks.set k (id, .gone) })
      | some (j, h) =>
        match s.tracks[j]? with
        | none => (.invalid, s)
        | some t =>
          (.ok,
            { s with
              tasks := s.tasks.set k (id, .gone)
              table := fun i => if i = id then none else s.table i
              tracks := s.tracks.set j (Track.step t (.dropProducer h)).2 })
    | _ => (.invalid, s)
  /- lines 215-223 -/
  | .recvGroup subscribe sequence gid =>
    if 2 ^ 64 ≤ sequence then (.invalid, s)
    else
      match s.table subscribe with
      | none => (.unknown, s)
      | some (k, h) =>
        match s.tracks[k]? with
        | none => (.invalid, s)
        | some t =>
          match Track.step t (.insert h ⟨sequence, gid⟩) with
          | (.inserted true, t') => (.created k, { s with tracks := s.tracks.set k t' })
          | (.inserted false, t') => (.old k, { s with tracks := s.tracks.set k t' })
          | (.panic, t') => (.panic k, { s with tracks := s.tracks.set k t' })
          | _ => (.invalid, s)
  | .track k op =>
    match s.tracks[k]? with
    | none => (.invalid, s)
    | some t =>
      if byConsumer op then
        (.track (Track.step t op).1, { s with tracks := s.tracks.set k (Track.step t op).2 })
      else (.invalid, s)

/-- The subscriptions as a machine. -/
abbrev machine : Machine := ⟨State, Op, Out, init, step⟩

end Verif.Session.Subs
