import Verif.Base

/-!
# Model of moq-clock, rs/moq-clock/src/clock.rs

`Publisher::run` makes a group each minute, and a task per group writes the minute and then the seconds.  `Subscriber::run` prints them.

Times are nanoseconds since the epoch.  What the model takes from elsewhere (part of the trusted base):
* `sleep` ends at any time, if ever, and `Utc::now` gives any time: that sleeping lasts long enough, and that time does not go back, are
  hypotheses where they are needed.
* `chrono`: days have 24 hours of 60 minutes of 60 seconds; there are no leap seconds.  The text of a minute is its number here.
* A task runs until it first sleeps as soon as it was spawned; it does not look at the time before that.

The sequence is a number without bound; the code panics after 2^32 minutes.
-/

set_option autoImplicit false

namespace Verif.Clock

open Verif

/-- Nanoseconds of a second. -/
abbrev perSecond : Nat := 1000000000

/-- Nanoseconds of a minute. -/
abbrev perMinute : Nat := 60000000000

/-- A group, and `now` of its task. -/
structure Seg where
  seq : Nat
  /-- the frame with the minute, `%Y-%m-%d %H:%M:` -/
  base : Nat
  /-- the frames with seconds, `%S` -/
  seconds : List Nat
  now : Nat
  /-- `finish` was called -/
  done : Bool
  deriving DecidableEq, Repr

structure State where
  /-- `next` and `sequence` of `run`, once it was started -/
  run : Option (Nat × Nat)
  segs : List Seg
  /-- there was a panic -/
  dead : Bool
  deriving DecidableEq, Repr

inductive Op where
  /-- `run` starts at this time -/
  | start (now : Nat)
  /-- the sleep of `run` ends; the time it is then is not looked at -/
  | tick (now : Nat)
  /-- the sleep of the task of a group ends at this time -/
  | wake (i : Nat) (now : Nat)
  deriving DecidableEq, Repr

inductive Out where
  /-- the sleeps that it goes on with: that of `run`, if any, then that of the task of the group -/
  | did (sleeps : List Nat)
  | panic
  | invalid
  deriving DecidableEq, Repr

def init : State := ⟨none, [], false⟩

/-- `minute()` -/
def minuteOf (t : Nat) : Nat := t / perMinute % 60

/-- `second()` -/
def secondOf (t : Nat) : Nat := t / perSecond % 60

/-- The time of the next group, rs/moq-clock/src/clock.rs:33-34. -/
def next (now : Nat) : Nat := (now + perMinute) / perMinute * perMinute

/-- How long the task of a group sleeps, rs/moq-clock/src/clock.rs:53-57. -/
def delay (g : Seg) : Nat := (g.now + perSecond) / perSecond * perSecond - g.now

/-- `create_group`, rs/moq/src/model/track.rs:65-88: only after all groups before. -/
def fits (segs : List Seg) (seq : Nat) : Bool :=
  match segs.getLast? with
  | some g => g.seq < seq
  | none => true

/-- One round of `run` until it sleeps, rs/moq-clock/src/clock.rs:23-37, with the start of `send_segment`,
rs/moq-clock/src/clock.rs:45-57. -/
def round (s : State) (now seq : Nat) : Out × State :=
  if fits s.segs seq then
    let g : Seg := ⟨seq, now / perMinute, [secondOf now], now, false⟩
    (.did [next now - now, delay g], { s with run := some (next now, seq + 1), segs := s.segs ++ [g] })
  else (.panic, { s with dead := true })

/-- `send_segment` after a sleep, rs/moq-clock/src/clock.rs:60-68 and 50-57. -/
def wake (g : Seg) (now : Nat) : Seg :=
  if minuteOf now ≠ minuteOf g.now then { g with done := true }
  else { g with seconds := g.seconds ++ [secondOf now], now := now }

def step (s : State) (op : Op) : Out × State :=
  if s.dead then (.panic, s)
  else
    match op with
    | .start now =>
      match s.run with
      | none => round s now (minuteOf now)
      | some _ => (.invalid, s)
    | .tick _ =>
      match s.run with
      | none => (.invalid, s)
      | some (next, seq) => round s next seq
    | .wake i now =>
      match s.segs[i]? with
      | some g => if g.done then (.invalid, s)
        else (.did (if (wake g now).done then [] else [delay (wake g now)]), { s with segs := s.segs.set i (wake g now) })
      | none => (.invalid, s)

/-- The machine of a publisher. -/
abbrev machine : Machine := { State := State, Op := Op, Out := Out, init := init, step := step }

abbrev Trace := List (Op × Out)

/-- What `Subscriber::run` prints of a group, rs/moq-clock/src/clock.rs:84-98. -/
def printed (g : Seg) : List (Nat × Nat) := g.seconds.map fun s => (g.base, s)

end Verif.Clock
