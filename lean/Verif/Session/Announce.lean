import Verif.Model.Origin
import Verif.Session.Error

/-!
# Model of the announce streams

The sender is `Publisher::run_announce` (rs/moq/src/session/publisher.rs:63-107), the receiver is
`Subscriber::run_broadcasts` (rs/moq/src/session/subscriber.rs:67-106).  A suffix is a path of
`Verif/Model/Origin.lean`, a broadcast a number.  The messages are the values of
`rs/moq/src/message/announce.rs`; that their encodings can be decoded again is property C06, that
a reader recovers them from any split of the stream is C11.
-/

set_option autoImplicit false

namespace Verif.Session.Announce

open Verif Verif.Session
open Verif.Model.Origin (Path)

/-- An announce message, rs/moq/src/message/announce.rs:9-12. -/
inductive Msg where
  | active (suffix : Path)
  | ended (suffix : Path)
  deriving DecidableEq

/-! ## The sender -/

namespace Sender

/-- How far `run_announce` is. -/
inductive Stage where
  /-- in the loop -/
  | running
  /-- after the loop, with the suffixes still to be ended in the order of the hash set,
  rs/moq/src/session/publisher.rs:101-104 -/
  | draining (rest : List Path)
  /-- the stream was finished, rs/moq/src/session/publisher.rs:106 -/
  | finished
  /-- it returned before, because the peer closed the stream or a write failed -/
  | stopped
  deriving DecidableEq

/-- The local variables of `run_announce`. -/
structure State where
  /-- the hash set `active`, without duplicates -/
  active : List Path
  /-- the futures in `tasks` -/
  tasks : List (Path × Nat)
  /-- the broadcasts that are closed -/
  closed : List Nat
  stage : Stage

/-- What can happen. -/
inductive Op where
  /-- `announced.next()` yields a broadcast, lines 74-88 -/
  | announce (suffix : Path) (bc : Nat)
  /-- `announced.next()` yields `None`, line 89; `order` is the iteration order of the hash set -/
  | exhausted (order : List Path)
  /-- a broadcast is closed by its producer -/
  | close (bc : Nat)
  /-- the `i`-th future in `tasks` completes, lines 92-96 -/
  | task (i : Nat)
  /-- one step of lines 101-106 -/
  | drain
  /-- `reader.finished()` resolves (line 73) or a write fails -/
  | stop
  deriving DecidableEq

/-- Outputs. -/
inductive Out where
  | sent (m : Msg)
  | ok
  | pending
  | finished
  | invalid
  deriving DecidableEq

/-- rs/moq/src/session/publisher.rs:64-67 -/
def init : State := ⟨[], [], [], .running⟩

/-- One step.  The `biased` order of the `select!` restricts which of several ready branches is
taken; here any may be taken. -/
def step (s : State) : Op → Out × State
  | .announce suffix bc =>
    match s.stage with
    | .running =>
      (.sent (.active suffix),
        { s with
          active := if suffix ∈ s.active then s.active else s.active ++ [suffix]
          tasks := s.tasks ++ [(suffix, bc)] })
    | _ => (.invalid, s)
  | .exhausted order =>
    match s.stage with
    | .running =>
      if order.isPerm s.active then (.ok, { s with stage := .draining order }) else (.invalid, s)
    | _ => (.invalid, s)
  | .close bc => (.ok, { s with closed := bc :: s.closed })
  | .task i =>
    match s.stage with
    | .running =>
      match s.tasks[i]? with
      | none => (.invalid, s)
      | some (suffix, bc) =>
        if bc ∈ s.closed then
          (.sent (.ended suffix),
            { s with active := s.active.filter (· != suffix), tasks := s.tasks.eraseIdx i })
        else (.pending, s)
    | _ => (.invalid, s)
  | .drain =>
    match s.stage with
    | .draining (suffix :: rest) => (.sent (.ended suffix), { s with stage := .draining rest })
    | .draining [] => (.finished, { s with stage := .finished })
    | _ => (.invalid, s)
  | .stop =>
    match s.stage with
    | .running => (.ok, { s with stage := .stopped })
    | .draining _ => (.ok, { s with stage := .stopped })
    | _ => (.invalid, s)

/-- The sender as a machine. -/
abbrev machine : Machine := ⟨State, Op, Out, init, step⟩

end Sender

/-! ## The receiver -/

namespace Receiver

/-- The local variables of `run_broadcasts` and the origin it publishes into. -/
structure State where
  /-- the hash map `producers`, rs/moq/src/session/subscriber.rs:75 -/
  producers : List (Path × Nat)
  /-- the map of the origin, rs/moq/src/model/origin.rs:9 -/
  active : List (Path × Nat)
  /-- the tasks spawned by `publish`, rs/moq/src/model/origin.rs:85-88 -/
  tasks : List (Path × Nat)
  /-- the broadcasts that were finished -/
  closed : List Nat
  /-- the next broadcast to be created -/
  fresh : Nat
  /-- the result of `run_broadcasts`, once it has returned -/
  result : Option (Except Error Unit)

/-- What can happen. -/
inductive Op where
  /-- a message is received -/
  | msg (m : Msg)
  /-- the stream ends cleanly -/
  | fin
  /-- a task of the origin is polled -/
  | task (i : Nat)
  deriving DecidableEq

/-- Outputs. -/
inductive Out where
  | ok
  | err (e : Error)
  | pending
  /-- the task removed what the origin had at this path -/
  | removed (suffix : Path)
  | invalid
  deriving DecidableEq

/-- rs/moq/src/session/subscriber.rs:75, with the new origin of line 40 -/
def init : State := ⟨[], [], [], [], 0, none⟩

/-- One step.  Publishing is one step, because the origin is locked for the whole of it and
`unique` is the answer of a lookup at that moment (C37). -/
def step (s : State) : Op → Out × State
  | .msg (.active suffix) =>
    match s.result with
    | some _ => (.invalid, s)
    | none =>
      /- rs/moq/src/session/subscriber.rs:82-92 and rs/moq/src/model/origin.rs:80-91 -/
      let s' := { s with
        active := Model.Origin.insert s.active suffix s.fresh
        tasks := s.tasks ++ [(suffix, s.fresh)]
        fresh := s.fresh + 1 }
      match Model.Origin.get s.active suffix with
      | none => (.ok, { s' with producers := Model.Origin.insert s.producers suffix s.fresh })
      | some _ => (.err .duplicate, { s' with result := some (.error .duplicate) })
  | .msg (.ended suffix) =>
    match s.result with
    | some _ => (.invalid, s)
    | none =>
      /- rs/moq/src/session/subscriber.rs:98-99 -/
      match Model.Origin.get s.producers suffix with
      | none => (.err .notFound, { s with result := some (.error .notFound) })
      | some bc =>
        (.ok, { s with
          producers := Model.Origin.remove s.producers suffix
          closed := bc :: s.closed })
  | .fin =>
    match s.result with
    | some _ => (.invalid, s)
    | none => (.ok, { s with result := some (.ok ()) })
  /- rs/moq/src/model/origin.rs:86-87 -/
  | .task i =>
    match s.tasks[i]? with
    | none => (.invalid, s)
    | some (suffix, bc) =>
      if bc ∈ s.closed then
        (.removed suffix,
          { s with active := Model.Origin.remove s.active suffix, tasks := s.tasks.eraseIdx i })
      else (.pending, s)

/-- The receiver as a machine. -/
abbrev machine : Machine := ⟨State, Op, Out, init, step⟩

end Receiver

end Verif.Session.Announce
