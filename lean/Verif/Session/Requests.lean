import Verif.Model.OriginSpec
import Verif.Model.BroadcastSpec
import Verif.Message.Model

/-!
# Model of how a publisher answers a subscribe request

`Publisher::recv_subscribe` and the beginning of `run_subscribe`,
rs/moq/src/session/publisher.rs:109-147, over the origin of the publisher and the broadcasts in it.

Simplifications.  The consumer of a broadcast that is in the origin is consumer 0 of the broadcast,
and neither it nor its clone that lives during a subscription is counted or dropped (this concerns
only `unused`).  The priority of a track never changes, although `info` is a public field.
-/

set_option autoImplicit false

namespace Verif.Session.Requests

open Verif Verif.Session Verif.Message Verif.Coding
open Verif.Model (Origin.Path)

/-- A broadcast with the priorities of its tracks, `Track::priority`,
rs/moq/src/model/track.rs:26-29. -/
structure Bc where
  state : Model.Broadcast.State
  prio : List UInt8

/-- The state. -/
structure State where
  /-- `broadcasts`, rs/moq/src/session/publisher.rs:15 -/
  origin : Model.Origin.State
  bcs : List Bc

/-- Operations. -/
inductive Op where
  /-- a broadcast is made -/
  | broadcast
  /-- somebody uses the origin -/
  | origin (op : Model.Origin.Op)
  /-- somebody uses broadcast `b`; `priority` is that of the track, if the operation makes one -/
  | use (b : Nat) (op : Model.Broadcast.Op) (priority : UInt8)
  /-- a subscribe message came in -/
  | request (path : Origin.Path) (name : String) (priority : UInt8)

/-- Outputs. -/
inductive Out where
  | made (b : Nat)
  | origin (o : Model.Origin.Out)
  | used (o : Model.Broadcast.Out)
  /-- the request was matched to a track of broadcast `b`, and the bytes of the acknowledgement were
  written -/
  | ack (b : Nat) (t : Model.Broadcast.Ref) (written : Except Panic Bytes)
  /-- nothing was written and the stream was reset with this code -/
  | reset (code : Except Panic Nat)
  /-- the lock of the origin is taken -/
  | blocked
  | invalid

/-- `Publisher::new`, rs/moq/src/session/publisher.rs:19-24 -/
def init : State := ⟨Model.Origin.init, []⟩

/-- A broadcast with one consumer, rs/moq/src/model/broadcast.rs:36-43 and 87-93. -/
def newBc : Bc := ⟨(Model.Broadcast.step Model.Broadcast.init (.consume 0)).2, []⟩

/-- One operation on a broadcast; a new track gets its priority. -/
def Bc.step (b : Bc) (op : Model.Broadcast.Op) (priority : UInt8) : Model.Broadcast.Out × Bc :=
  let r := Model.Broadcast.step b.state op
  (r.1, ⟨r.2, if b.state.tracks.length < r.2.tracks.length then b.prio ++ [priority] else b.prio⟩)

/-- Somebody else may not take the consumer in the origin away. -/
def allowed : Model.Broadcast.Op → Bool
  | .dropConsumer c => c != 0
  | _ => true

/-- One operation. -/
def step (s : State) : Op → Out × State
  | .broadcast => (.made s.bcs.length, { s with bcs := s.bcs ++ [newBc] })
  | .origin op =>
    (.origin (Model.Origin.step s.origin op).1, { s with origin := (Model.Origin.step s.origin op).2 })
  | .use b op priority =>
    match s.bcs[b]? with
    | none => (.invalid, s)
    | some bc =>
      if allowed op then
        (.used (bc.step op priority).1, { s with bcs := s.bcs.set b (bc.step op priority).2 })
      else (.invalid, s)
  | .request path name priority =>
    /- rs/moq/src/session/publisher.rs:138 -/
    match (Model.Origin.step s.origin (.lookup 0 path)).1 with
    | .found b =>
      match s.bcs[b]? with
      | none => (.invalid, s)
      | some bc =>
        /- lines 139-147 and rs/moq/src/model/broadcast.rs:179-215 -/
        match bc.step (.subscribe 0 name) priority with
        | (.track t, bc') =>
          match bc'.prio[t.id]? with
          | some p => (.ack b t (wire (encodeSubscribeOk ⟨p⟩)), { s with bcs := s.bcs.set b bc' })
          | none => (.invalid, s)
        | _ => (.invalid, s)
    /- line 138; the error is logged (lines 120-122), and the stream is dropped, which resets it:
    rs/moq/src/session/writer.rs:64-69 -/
    | .notFound => (.reset Error.cancel.toCode, s)
    | .blocked => (.blocked, s)
    | _ => (.invalid, s)

/-- The machine. -/
abbrev machine : Machine := ⟨State, Op, Out, init, step⟩

end Verif.Session.Requests
