import Verif.Model.Origin
import Verif.Relay.Token

/-!
# Model of `rs/moq-relay/src/connection.rs`

One connection of a relay after it was accepted: the statements of `run` and the tasks they
spawn.  Four origins take part (`Verif/Model/Origin.lean`):

* `locals` and `remotes`, shared with the rest of the relay, which may do anything with them at
  any time, except use the consumers of the tasks of this connection;
* `session`, the broadcasts that are announced and served to the peer
  (`Publisher::broadcasts`, rs/moq/src/session/publisher.rs:15); nobody but the tasks publishes there;
* `feed`, the broadcasts that the peer announces (made by `Subscriber::consume_prefix`,
  rs/moq/src/session/subscriber.rs:37-46).  The peer is arbitrary, so anything may be published there.

A task of `publish_prefix` (rs/moq/src/model/origin.rs:109-118) may start to run as soon as its
consumer exists.  Closing the session is not modelled; it only ends things.
-/

set_option autoImplicit false

namespace Verif.Relay.Connection

open Verif Verif.Relay.Token
open Verif.Model.Origin (Path)

/-- The origins. -/
inductive Where where
  | locals
  | remotes
  | session
  | feed
  deriving DecidableEq

/-- A statement of `run`. -/
inductive Stmt where
  /-- consume a prefix of an origin and publish what is found to the session under another
  prefix, rs/moq-relay/src/connection.rs:25 with 28, and 26 with 29 -/
  | show (src : Where) (full pre : Path)
  /-- consume a prefix of the session and publish what is found in `locals`,
  rs/moq-relay/src/connection.rs:35 and 38 -/
  | accept (pre full : Path)
  /-- publish one broadcast in `locals`, rs/moq-relay/src/connection.rs:43 and 45 -/
  | force (full : Path)
  deriving DecidableEq

/-- The statements for a grant, rs/moq-relay/src/connection.rs:23-46 -/
def program (p : Payload) : List Stmt :=
  (match p.subscribe with
    | some sub => [.show .locals (p.path ++ sub) sub, .show .remotes (p.path ++ sub) sub]
    | none => []) ++
  (match p.publish with
    | some pub => [.accept pub (p.path ++ pub)]
    | none => []) ++
  match p.publishForce with
    | some f => [.force (p.path ++ f)]
    | none => []

/-- A task of `publish_prefix`, rs/moq/src/model/origin.rs:109-118 -/
structure Task where
  src : Where
  /-- the consumer of `src` it reads from -/
  c : Nat
  dst : Where
  pre : Path
  /-- an announcement it is about to publish -/
  held : Option (Path × Nat)
  done : Bool

/-- The state. -/
structure State where
  origin : Where → Model.Origin.State
  todo : List Stmt
  tasks : List Task

/-- Operations. -/
inductive Op where
  /-- somebody else uses an origin -/
  | other (w : Where) (op : Model.Origin.Op)
  /-- the next statement of `run`; `p` is the producer handle that is used, `order` the order of
  the hash map, `bc` the broadcast of `session.consume` -/
  | run (p : Nat) (order : List (Path × Nat)) (bc : Nat)
  /-- task `k` asks for the next announcement -/
  | take (k : Nat)
  /-- task `k` waits for a notification -/
  | wait (k : Nat)
  /-- task `k` publishes what it holds, through producer handle `p` -/
  | put (k : Nat) (p : Nat)
  deriving DecidableEq

/-- Outputs: what was done to which origin. -/
inductive Out where
  | did (w : Where) (op : Model.Origin.Op) (o : Model.Origin.Out)
  | invalid
  deriving DecidableEq

/-- Set one origin. -/
def State.set (s : State) (w : Where) (o : Model.Origin.State) : State :=
  { s with origin := fun x => if x = w then o else s.origin x }

/-- Do something to an origin. -/
def State.act (s : State) (w : Where) (op : Model.Origin.Op) : Out × State :=
  (.did w op (Model.Origin.step (s.origin w) op).1, s.set w (Model.Origin.step (s.origin w) op).2)

/-- The consumer belongs to a task. -/
def State.owned (s : State) (w : Where) (c : Nat) : Bool :=
  s.tasks.any fun t => t.src == w && t.c == c

/-- What others may do: `session` is private, and consumers of tasks belong to them.  (They are
not cloned either.) -/
def State.permitted (s : State) (w : Where) : Model.Origin.Op → Bool
  | .publishStart _ _ _ => w != .session
  | .check c | .recv c | .cancel c | .cloneStart c | .dropConsumer c => !s.owned w c
  | _ => true

/-- One operation. -/
def step (s : State) : Op → Out × State
  | .other w op => if s.permitted w op then s.act w op else (.invalid, s)
  | .run p order bc =>
    match s.todo with
    | [] => (.invalid, s)
    | .show src full pre :: rest =>
      let r := s.act src (.consumePrefix p full order)
      match r.1 with
      | .did _ _ (.handle c) =>
        (r.1, { r.2 with todo := rest, tasks := s.tasks ++ [⟨src, c, .session, pre, none, false⟩] })
      | _ => r
    | .accept pre full :: rest =>
      let r := s.act .feed (.consumePrefix p pre order)
      match r.1 with
      | .did _ _ (.handle c) =>
        (r.1, { r.2 with todo := rest, tasks := s.tasks ++ [⟨.feed, c, .locals, full, none, false⟩] })
      | _ => r
    | .force full :: rest =>
      let r := s.act .locals (.publishStart p full bc)
      match r.1 with
      | .did _ _ .ok => (r.1, { r.2 with todo := rest })
      | _ => r
  | .take k =>
    match s.tasks[k]? with
    | none => (.invalid, s)
    | some t =>
      if t.held.isSome || t.done then (.invalid, s)
      else
        let r := s.act t.src (.check t.c)
        match r.1 with
        | .did _ _ (.item suffix bc) =>
          (r.1, { r.2 with tasks := s.tasks.set k { t with held := some (t.pre ++ suffix, bc) } })
        | _ => r
  | .wait k =>
    match s.tasks[k]? with
    | none => (.invalid, s)
    | some t =>
      if t.held.isSome || t.done then (.invalid, s)
      else
        let r := s.act t.src (.recv t.c)
        match r.1 with
        | .did _ _ .ended => (r.1, { r.2 with tasks := s.tasks.set k { t with done := true } })
        | _ => r
  | .put k p =>
    match s.tasks[k]? with
    | none => (.invalid, s)
    | some t =>
      match t.held with
      | none => (.invalid, s)
      | some (path, bc) =>
        let r := s.act t.dst (.publishStart p path bc)
        match r.1 with
        | .did _ _ .ok => (r.1, { r.2 with tasks := s.tasks.set k { t with held := none } })
        | _ => r

/-- The beginning: the relay's origins start empty (they may be used before the first statement of
`run`), and so do those of the session. -/
def init (p : Payload) : State := ⟨fun _ => Model.Origin.init, program p, []⟩

/-- A connection with a grant, as a machine. -/
abbrev machine (p : Payload) : Machine := ⟨State, Op, Out, init p, step⟩

end Verif.Relay.Connection
