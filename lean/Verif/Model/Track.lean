import Verif.Slots
import Verif.Session.Error

/-!
# Model of `rs/moq/src/model/track.rs`

One track with any number of producer handles, consumer handles and `unused()` futures.  A group
is identified by a number `gid` chosen by the caller and its sequence number; what happens inside
the group is the subject of `Verif/Model/Group.lean`.
-/

set_option autoImplicit false

namespace Verif.Model.Track

open Verif Verif.Session

/-- A group as seen by the track: `GroupConsumer` with its `info.sequence`,
rs/moq/src/model/group.rs:28-30. -/
structure Grp where
  seq : Nat
  gid : Nat
  deriving DecidableEq

/-- The state of a track and of all its handles. -/
structure State where
  /-- `TrackState::latest`, rs/moq/src/model/track.rs:45 -/
  latest : Option Grp
  /-- `TrackState::closed`, rs/moq/src/model/track.rs:46 -/
  closed : Option (Except Error Unit)
  /-- live producers, rs/moq/src/model/track.rs:51-54.  The data is the sequence number computed
  by an `append_group` that is in the middle of its two critical sections. -/
  producers : Slots (Option Nat)
  /-- live `unused()` futures, rs/moq/src/model/track.rs:122-127 -/
  futures : Slots Unit
  /-- live consumers with `prev`, rs/moq/src/model/track.rs:143-147 -/
  consumers : Slots (Option Nat)

/-- Operations.  Sequence numbers are `u64`. -/
inductive Op where
  /-- `insert_group`; `create_group` is this with a fresh group -/
  | insert (p : Nat) (g : Grp)
  /-- the first critical section of `append_group` -/
  | appendStart (p : Nat)
  /-- the second critical section of `append_group`, with the new group's number -/
  | appendFinish (p : Nat) (gid : Nat)
  | finish (p : Nat)
  | abort (p : Nat) (e : Error)
  | cloneProducer (p : Nat)
  | dropProducer (p : Nat)
  | consume (p : Nat)
  | unused (p : Nat)
  | pollUnused (f : Nat)
  | dropUnused (f : Nat)
  | cloneConsumer (c : Nat)
  | dropConsumer (c : Nat)
  /-- one poll of `next_group` -/
  | next (c : Nat)
  /-- one poll of `closed` -/
  | pollClosed (c : Nat)

/-- Outputs. -/
inductive Out where
  | ok
  | handle (id : Nat)
  | pending
  /-- the result of `insert_group`; `create_group` returns a producer exactly if it is true -/
  | inserted (b : Bool)
  /-- `append_group` returned a group with this sequence number -/
  | appended (seq : Nat)
  /-- `Ok(Some(group))` of `next_group` -/
  | group (g : Grp)
  /-- `Ok(None)` of `next_group`, `Ok(())` of `closed` -/
  | ended
  | err (e : Error)
  | panic
  | invalid
  deriving DecidableEq

/-- `TrackProducer::new`, rs/moq/src/model/track.rs:57-62 -/
def init : State := ⟨none, none, [some none], [], []⟩

/-- The number of `watch::Sender`s. -/
def State.senders (s : State) : Nat := s.producers.count + s.futures.count

/-- `latest.map(|group| group.info.sequence) > self.prev` with the order of `Option`,
rs/moq/src/model/track.rs:158. -/
def newer : Option Nat → Option Nat → Bool
  | none, _ => false
  | some _, none => true
  | some a, some b => decide (b < a)

/-- The closure of `insert_group`, rs/moq/src/model/track.rs:66-79: `none` is a failed
assertion, `some (false, _)` leaves the state unchanged. -/
def insertGroup (s : State) (g : Grp) : Option (Bool × State) :=
  if s.closed.isSome then none
  else
    match s.latest with
    | some l =>
      match compare g.seq l.seq with
      | .lt => some (false, s)
      | .eq => some (false, s)
      | .gt => some (true, { s with latest := some g })
    | none => some (true, { s with latest := some g })

/-- One operation.  While a producer is inside `append_group` it is mutably borrowed and no
other call on it is possible. -/
def step (s : State) : Op → Out × State
  /- rs/moq/src/model/track.rs:65-80 and 85-88 -/
  | .insert p g =>
    match s.producers.get p with
    | some none =>
      if 2 ^ 64 ≤ g.seq then (.invalid, s)
      else
        match insertGroup s g with
        | none => (.panic, s)
        | some (b, s') => (.inserted b, s')
    | _ => (.invalid, s)
  /- rs/moq/src/model/track.rs:93-98: `sequence + 1` overflows for the largest sequence.  Without
  overflow checks it wraps to 0, and the insertion then fails and the `unwrap` panics all the
  same. -/
  | .appendStart p =>
    match s.producers.get p with
    | some none =>
      match s.latest with
      | none => (.ok, { s with producers := s.producers.put p (some (some 0)) })
      | some l =>
        if 2 ^ 64 ≤ l.seq + 1 then (.panic, s)
        else (.ok, { s with producers := s.producers.put p (some (some (l.seq + 1))) })
    | _ => (.invalid, s)
  /- rs/moq/src/model/track.rs:100-101 with 85-88: `unwrap` panics if the group is refused -/
  | .appendFinish p gid =>
    match s.producers.get p with
    | some (some n) =>
      let s := { s with producers := s.producers.put p (some none) }
      match insertGroup s ⟨n, gid⟩ with
      | none => (.panic, s)
      | some (false, s') => (.panic, s')
      | some (true, s') => (.appended n, s')
    | _ => (.invalid, s)
  /- rs/moq/src/model/track.rs:104-106 -/
  | .finish p =>
    match s.producers.get p with
    | some none => (.ok, { s with producers := s.producers.put p none, closed := some (.ok ()) })
    | _ => (.invalid, s)
  /- rs/moq/src/model/track.rs:108-110 -/
  | .abort p e =>
    match s.producers.get p with
    | some none => (.ok, { s with producers := s.producers.put p none, closed := some (.error e) })
    | _ => (.invalid, s)
  /- `#[derive(Clone)]`, rs/moq/src/model/track.rs:50 -/
  | .cloneProducer p =>
    match s.producers.get p with
    | some none => (.handle s.producers.length, { s with producers := s.producers.add none })
    | _ => (.invalid, s)
  | .dropProducer p =>
    match s.producers.get p with
    | some none => (.ok, { s with producers := s.producers.put p none })
    | _ => (.invalid, s)
  /- rs/moq/src/model/track.rs:113-119 -/
  | .consume p =>
    match s.producers.get p with
    | some none => (.handle s.consumers.length, { s with consumers := s.consumers.add none })
    | _ => (.invalid, s)
  /- rs/moq/src/model/track.rs:122-127 -/
  | .unused p =>
    match s.producers.get p with
    | some none => (.handle s.futures.length, { s with futures := s.futures.add () })
    | _ => (.invalid, s)
  | .pollUnused f =>
    match s.futures.get f with
    | none => (.invalid, s)
    | some _ => (if s.consumers.count = 0 then .ok else .pending, s)
  | .dropUnused f =>
    match s.futures.get f with
    | none => (.invalid, s)
    | some _ => (.ok, { s with futures := s.futures.put f none })
  /- `#[derive(Clone)]`, rs/moq/src/model/track.rs:142: `prev` is copied. -/
  | .cloneConsumer c =>
    match s.consumers.get c with
    | none => (.invalid, s)
    | some prev => (.handle s.consumers.length, { s with consumers := s.consumers.add prev })
  | .dropConsumer c =>
    match s.consumers.get c with
    | none => (.invalid, s)
    | some _ => (.ok, { s with consumers := s.consumers.put c none })
  /- rs/moq/src/model/track.rs:153-177 -/
  | .next c =>
    match s.consumers.get c with
    | none => (.invalid, s)
    | some prev =>
      if newer (s.latest.map (·.seq)) prev || s.closed.isSome then
        match s.closed with
        | some (.ok _) => (.ended, s)
        | some (.error e) => (.err e, s)
        | none =>
          match s.latest with
          | none => (.panic, s)
          | some g => (.group g, { s with consumers := s.consumers.put c (some (some g.seq)) })
      else if s.senders = 0 then (.err .cancel, s)
      else (.pending, s)
  /- rs/moq/src/model/track.rs:180-185 -/
  | .pollClosed c =>
    match s.consumers.get c with
    | none => (.invalid, s)
    | some _ =>
      match s.closed with
      | some (.ok _) => (.ended, s)
      | some (.error e) => (.err e, s)
      | none => if s.senders = 0 then (.err .cancel, s) else (.pending, s)

/-- The track as a machine. -/
abbrev machine : Machine := ⟨State, Op, Out, init, step⟩

end Verif.Model.Track
