import Verif.Model.TrackSpec

/-!
# Model of the loop that serves the groups of one subscription

`Publisher::run_track`, rs/moq/src/session/publisher.rs:157-235, together with the track whose
groups it serves.  What the future of a single group does (lines 180-213) is the subject of
`Verif/Session/Transfer.lean`; here it is a group that is in flight until it completes (with or
without an error: the result is ignored, lines 222 and 225) or is dropped.

`tokio::select!` picks any branch that is ready, so every branch is an operation that can happen
at any time.
-/

set_option autoImplicit false

namespace Verif.Session.ServeLoop

open Verif Verif.Session
open Verif.Model (Track.Op Track.Out Track.State Track.Grp Track.step)

/-- The state. -/
structure State where
  track : Track.State
  /-- `old_group`, rs/moq/src/session/publisher.rs:162 -/
  old : Option Track.Grp
  /-- `new_group`, rs/moq/src/session/publisher.rs:163 -/
  new : Option Track.Grp
  /-- the loop has not returned and was not dropped -/
  running : Bool

/-- Operations. -/
inductive Op where
  /-- somebody else uses the track -/
  | track (op : Track.Op)
  /-- `track.next_group()` is polled in the `select!` -/
  | next
  /-- the future in `old_group` completes -/
  | oldDone
  /-- the future in `new_group` completes -/
  | newDone
  /-- the loop is dropped: the subscriber closed its stream, line 151 -/
  | cancel

/-- Outputs.  `dropped` are the futures of groups that are dropped, which resets their streams. -/
inductive Out where
  | track (o : Track.Out)
  /-- the future of the group was made -/
  | started (g : Track.Grp) (dropped : List Track.Grp)
  | pending
  /-- the future of the group completed -/
  | done (g : Track.Grp) (dropped : List Track.Grp)
  /-- the loop returned `Ok` -/
  | finished
  /-- the loop returned an error -/
  | failed (e : Error) (dropped : List Track.Grp)
  | cancelled (dropped : List Track.Grp)
  | invalid
  deriving DecidableEq

/-- Somebody else cannot use the consumer `c` of the loop (except to clone it). -/
def foreign (c : Nat) : Track.Op → Bool
  | .next d => d != c
  | .dropConsumer d => d != c
  | _ => true

/-- One operation of the loop with consumer `c`. -/
def step (c : Nat) (s : State) : Op → Out × State
  | .track op =>
    if foreign c op then
      (.track (Track.step s.track op).1, { s with track := (Track.step s.track op).2 })
    else (.invalid, s)
  | .next =>
    if s.running then
      match Track.step s.track (.next c) with
      /- rs/moq/src/session/publisher.rs:215-220 -/
      | (.group g, t) =>
        match s.new with
        | none => (.started g [], { s with track := t, new := some g })
        | some n =>
          (.started g s.old.toList, { s with track := t, old := some n, new := some g })
      /- line 168 -/
      | (.err e, t) =>
        (.failed e (s.old.toList ++ s.new.toList),
          { s with track := t, old := none, new := none, running := false })
      /- line 167: `None` disables the branch, and line 230 is reached if the others are too -/
      | (.ended, t) =>
        match s.old, s.new with
        | none, none => (.finished, { s with track := t, running := false })
        | _, _ => (.pending, { s with track := t })
      | (.pending, t) => (.pending, { s with track := t })
      | _ => (.invalid, s)
    else (.invalid, s)
  /- lines 222-224 -/
  | .oldDone =>
    if s.running then
      match s.old with
      | some g => (.done g [], { s with old := none })
      | none => (.invalid, s)
    else (.invalid, s)
  /- lines 225-228 -/
  | .newDone =>
    if s.running then
      match s.new with
      | some g => (.done g s.old.toList, { s with old := none, new := none })
      | none => (.invalid, s)
    else (.invalid, s)
  | .cancel =>
    if s.running then
      (.cancelled (s.old.toList ++ s.new.toList), { s with old := none, new := none, running := false })
    else (.invalid, s)

/-- The loop as a machine, started with the track in state `t` and its consumer `c`,
rs/moq/src/session/publisher.rs:162-163. -/
abbrev machine (t : Track.State) (c : Nat) : Machine :=
  ⟨State, Op, Out, ⟨t, none, none, true⟩, step c⟩

end Verif.Session.ServeLoop
