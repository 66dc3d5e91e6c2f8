import Verif.Base

/-!
# Model of `rs/hang/src/model/room.rs`

What the session does with the broadcasts is not part of the model: the items that `watch` takes from
`self.broadcasts`, lines 45, are given by the environment, among them the echoes of the own
broadcasts.  The tasks that wait for the end of a broadcast are steps of their own.
-/

set_option autoImplicit false

namespace Verif.Hang.Room

open Verif

/-- A name of a broadcast in the room. -/
abbrev Name := List Char

/-- The state of a room (shared by its clones). -/
structure State where
  /-- `publishing`, rs/hang/src/model/room.rs:12 -/
  publishing : List Name
  /-- the spawned tasks that have not ended, rs/hang/src/model/room.rs:36-39 -/
  tasks : List (Option (Name × Nat))
  /-- the broadcasts that were closed -/
  closed : List Nat

inductive Op where
  /-- `publish`; `bc` stands for the broadcast -/
  | publish (name : Name) (bc : Nat)
  /-- the broadcast ends -/
  | close (bc : Nat)
  /-- a task is polled -/
  | cleanup (k : Nat)
  /-- in `watch`, `self.broadcasts.next()` returns -/
  | watch (item : Option (Name × Nat))
  deriving DecidableEq

inductive Out where
  /-- the full path given to the session, and the number of the task -/
  | published (path : Name) (k : Nat)
  | ok
  | pending
  /-- `watch` goes on with the next item -/
  | skipped
  /-- `watch` returns this broadcast -/
  | joined (bc : Nat)
  /-- `watch` returns `None` -/
  | ended
  | invalid
  deriving DecidableEq

def init : State := ⟨[], [], []⟩

/-- One operation, in a room at the given path. -/
def step (path : Name) (s : State) : Op → Out × State
  /- rs/hang/src/model/room.rs:26-40 -/
  | .publish name bc =>
    (.published (path ++ name) s.tasks.length,
      { s with publishing := name :: s.publishing.filter (· ≠ name), tasks := s.tasks ++ [some (name, bc)] })
  | .close bc => (.ok, { s with closed := bc :: s.closed })
  /- rs/hang/src/model/room.rs:36-39 -/
  | .cleanup k =>
    match s.tasks[k]? with
    | some (some (name, bc)) =>
      if bc ∈ s.closed then
        (.ok, { s with publishing := s.publishing.filter (· ≠ name), tasks := s.tasks.set k none })
      else (.pending, s)
    | _ => (.invalid, s)
  /- rs/hang/src/model/room.rs:43-55 -/
  | .watch none => (.ended, s)
  | .watch (some (name, bc)) =>
    if name ∈ s.publishing then (.skipped, s) else (.joined bc, s)

/-- A room, as a machine. -/
abbrev machine (path : Name) : Machine := ⟨State, Op, Out, init, step path⟩

end Verif.Hang.Room
