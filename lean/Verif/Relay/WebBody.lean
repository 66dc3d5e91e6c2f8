import Verif.Model.Group

/-!
# Model of the response body of `/fetch`, rs/moq-relay/src/web.rs:125-190

One group, its frames, and one HTTP response that sends it.  Everybody else may do anything to the
group except use the two consumers owned by the response.

The model includes who is woken.  `poll_frame` (web.rs:161-179) creates the future of `next`, polls
it once and drops it when it returns.  A waker is registered with a `watch` channel by the pending
future and is removed when that future is dropped (tokio `watch::Receiver::changed`).

Simplifications: the response is not dropped; `hyper` may poll it at any time, for reasons of its
own.
-/

set_option autoImplicit false

namespace Verif.Relay.WebBody

open Verif Verif.Session Verif.Model

/-- The channel a waker is registered with. -/
inductive Chan where
  | group
  | frame (f : Nat)
  deriving DecidableEq

/-- `ServeGroup`, rs/moq-relay/src/web.rs:125-128: the number of the group consumer, and the frame
with the number of its consumer. -/
structure Body where
  c : Nat
  frame : Option (Nat × Nat)
  deriving DecidableEq

/-- The group, the response, and where its waker is registered. -/
structure State where
  g : Group.State
  body : Option Body
  reg : Option Chan

/-- Operations. -/
inductive Op where
  /-- anybody else uses the group or its frames -/
  | env (op : Group.Op)
  /-- `ServeGroup::new` with a clone of the consumer `d` kept in the track, which has read nothing
  (rs/moq/src/model/track.rs:171-174), rs/moq-relay/src/web.rs:131-133 -/
  | respond (d : Nat)
  /-- a poll of the body, up to the next critical section, rs/moq-relay/src/web.rs:135-148 and
  161-179 -/
  | poll

/-- Outputs. -/
inductive Out where
  /-- the answer to somebody else, and whether the task of the response was woken -/
  | env (o : Group.Out) (woken : Bool)
  | ok
  /-- the same poll goes on -/
  | busy
  /-- `Poll::Pending` -/
  | pending
  /-- a piece of the body -/
  | data (b : Bytes)
  /-- the body is complete -/
  | ended
  /-- the body fails -/
  | err (e : Error)
  | panic
  | invalid
  deriving DecidableEq

/-- No group consumer yet, no response. -/
def init : State := ⟨Group.init, none, none⟩

/-- The operation uses the frame consumer `id`. -/
def usesReader (id : Nat) : Frame.Op → Bool
  | .read r | .readAll r | .cloneConsumer r | .dropConsumer r => r == id
  | _ => false

/-- The operation uses a consumer owned by the response. -/
def Body.owns (b : Body) : Group.Op → Bool
  | .nextFrame c | .readFrameStart c | .readFrame c | .cloneConsumer c | .dropConsumer c => c == b.c
  | .frame f op =>
    match b.frame with
    | some (g, id) => f == g && usesReader id op
    | none => false
  | _ => false

/-- The operation wakes those who wait on the channel: it changed the value or dropped a sender
(dropping wakes only with the last sender; this is more). -/
def notifies : Chan → Group.Op → Group.Out → Bool
  | .group, .appendFrame _ _, .ok => true
  | .group, .finish _, .ok => true
  | .group, .abort _ _, .ok => true
  | .group, .dropProducer _, .ok => true
  | .group, .dropUnused _, .ok => true
  | .frame f, .frame g (.write _ _), .frame .ok => f == g
  | .frame f, .frame g (.finish _), .frame .ok => f == g
  | .frame f, .frame g (.abort _ _), .frame .ok => f == g
  | .frame f, .frame g (.dropProducer _), .frame .ok => f == g
  | .frame f, .frame g (.dropUnused _), .frame .ok => f == g
  | _, _, _ => false

/-- A pending future that is dropped has no waker registered any more. -/
def dropFuture (_ : Option Chan) : Option Chan := none

/-- `next` without a frame, rs/moq-relay/src/web.rs:143-146 -/
def pollGroup (s : State) (b : Body) : Out × State :=
  let r := Group.step s.g (.nextFrame b.c)
  match r.1 with
  | .reader f id => (.busy, { s with g := r.2, body := some { b with frame := some (f, id) } })
  | .ended => (.ended, { s with g := r.2 })
  | .err e => (.err e, { s with g := r.2 })
  | .pending => (.pending, { s with g := r.2, reg := dropFuture (some .group) })
  | _ => (.invalid, s)

/-- `next` with a frame, rs/moq-relay/src/web.rs:137-141; `take` drops the consumer. -/
def pollFrame (s : State) (b : Body) (f id : Nat) : Out × State :=
  let r := Group.step s.g (.frame f (.readAll id))
  match r.1 with
  | .frame (.data x) =>
    (.data x,
      { s with
        g := (Group.step r.2 (.frame f (.dropConsumer id))).2
        body := some { b with frame := none } })
  | .frame (.err e) => (.err e, { s with g := r.2 })
  | .frame .pending => (.pending, { s with g := r.2, reg := dropFuture (some (.frame f)) })
  | .frame .panic => (.panic, { s with g := r.2 })
  | _ => (.invalid, s)

/-- One operation. -/
def step (s : State) : Op → Out × State
  | .env op =>
    if (s.body.map (·.owns op)).getD false then (.invalid, s)
    else
      let r := Group.step s.g op
      let woken := (s.reg.map (notifies · op r.1)).getD false
      (.env r.1 woken, { s with g := r.2, reg := if woken then none else s.reg })
  | .respond d =>
    match s.body, s.g.consumers.get d with
    | none, some (0, none) =>
      (.ok,
        { s with
          g := (Group.step s.g (.cloneConsumer d)).2
          body := some ⟨s.g.consumers.length, none⟩ })
    | _, _ => (.invalid, s)
  | .poll =>
    match s.body with
    | none => (.invalid, s)
    | some b =>
      match b.frame with
      | none => pollGroup s b
      | some (f, id) => pollFrame s b f id

/-- The response as a machine. -/
abbrev machine : Machine := ⟨State, Op, Out, init, step⟩

end Verif.Relay.WebBody
