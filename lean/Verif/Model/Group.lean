import Verif.Model.Frame

/-!
# Model of `rs/moq/src/model/group.rs`

One group with any number of producer handles, consumer handles and `unused()` futures, and any
number of frames.  Frames are created separately and may be appended to the group.

Simplifications: a frame is appended through a consumer that has not read anything, as
`create_frame` and `write_frame` do (no other use of `append_frame` exists in the repository);
the frame consumers held inside the group are not counted by the frame's `unused()`, so polling
that future is not offered here.
-/

namespace Verif.Model.Group

open Verif Verif.Session

/-- The state of a group, its frames and all handles. -/
structure State where
  /-- all frames, each with its declared size -/
  frames : List (Nat × Frame.State)
  /-- `GroupState::frames`, rs/moq/src/model/group.rs:64: the frames by number.  The consumers
  held here have index 0. -/
  list : List Nat
  /-- `GroupState::closed`, rs/moq/src/model/group.rs:67 -/
  closed : Option (Except Error Unit)
  /-- live producers, rs/moq/src/model/group.rs:72-78 -/
  producers : Slots Unit
  /-- live `unused()` futures, rs/moq/src/model/group.rs:136-141 -/
  futures : Slots Unit
  /-- live consumers with `index` and `active`, rs/moq/src/model/group.rs:152-165.  The active
  consumer is given by its frame; it has index 0 until it is given up. -/
  consumers : Slots (Nat × Option Nat)

/-- Operations. -/
inductive Op where
  /-- `Frame::produce` -/
  | newFrame (size : Nat)
  /-- an operation on frame `f` -/
  | frame (f : Nat) (op : Frame.Op)
  /-- `append_frame` of frame `f`; `create_frame` is `newFrame` followed by this -/
  | appendFrame (p : Nat) (f : Nat)
  | finish (p : Nat)
  | abort (p : Nat) (e : Error)
  | cloneProducer (p : Nat)
  | dropProducer (p : Nat)
  | consume (p : Nat)
  | unused (p : Nat)
  | pollUnused (f : Nat)
  | dropUnused (f : Nat)
  | cloneConsumer (c : Nat)
  | dropConsumer (c : Nat)
  /-- one poll of `next_frame` -/
  | nextFrame (c : Nat)
  /-- the first half of a poll of `read_frame`: obtain the frame.  Other threads may run between
  the two halves, or the call may be cancelled there. -/
  | readFrameStart (c : Nat)
  /-- one whole poll of `read_frame` -/
  | readFrame (c : Nat)

/-- Polling the `unused()` future of a frame; not offered here. -/
def _root_.Verif.Model.Frame.Op.isPollUnused : Frame.Op → Bool
  | .pollUnused _ => true
  | _ => false

/-- Outputs. -/
inductive Out where
  | ok
  | handle (id : Nat)
  | pending
  /-- `Ok(Some(frame))` of `next_frame`: a new consumer `id` of frame `f` -/
  | reader (f id : Nat)
  /-- `Ok(Some(data))` of `read_frame` -/
  | data (b : Bytes)
  /-- `Ok(None)` -/
  | ended
  | err (e : Error)
  | panic
  | invalid
  /-- the answer of a frame operation -/
  | frame (o : Frame.Out)
  deriving DecidableEq

/-- `GroupProducer::new`, rs/moq/src/model/group.rs:81-86 -/
def init : State := ⟨[], [], none, [some ()], [], []⟩

/-- The number of `watch::Sender`s. -/
def State.senders (s : State) : Nat := s.producers.count + s.futures.count

/-- The end of the loop in `next_frame`, rs/moq/src/model/group.rs:203-213. -/
def State.atEnd (s : State) : Out :=
  match s.closed with
  | some (.ok _) => .ended
  | some (.error e) => .err e
  | none => if s.senders = 0 then .err .cancel else .pending

/-- The second half of `read_frame`, rs/moq/src/model/group.rs:177-184: `read_all` on the active
frame; the active frame is given up only if that succeeds. -/
def readActive (s : State) (c i f : Nat) : Out × State :=
  match s.frames[f]? with
  | none => (.invalid, s)
  | some (_, fs) =>
    match fs.readAllAt 0 with
    | .data b => (.data b, { s with consumers := s.consumers.put c (some (i, none)) })
    | .err e => (.err e, { s with consumers := s.consumers.put c (some (i, some f)) })
    | .panic => (.panic, { s with consumers := s.consumers.put c (some (i, some f)) })
    | _ => (.pending, { s with consumers := s.consumers.put c (some (i, some f)) })

/-- Hand out a new consumer of frame `f`, with index 0. -/
def giveReader (s : State) (c i f : Nat) : Out × State :=
  match s.frames[f]? with
  | none => (.invalid, s)
  | some (size, fs) =>
    (.reader f fs.consumers.length,
      { s with
        frames := s.frames.set f (size, { fs with consumers := fs.consumers.add 0 })
        consumers := s.consumers.put c (some (i, none)) })

/-- One operation. -/
def step (s : State) : Op → Out × State
  | .newFrame size => (.handle s.frames.length, { s with frames := s.frames ++ [(size, Frame.init)] })
  | .frame f op =>
    match s.frames[f]? with
    | none => (.invalid, s)
    | some (size, fs) =>
      if op.isPollUnused then (.invalid, s)
      else
        (.frame (Frame.step size fs op).1,
          { s with frames := s.frames.set f (size, (Frame.step size fs op).2) })
  /- rs/moq/src/model/group.rs:110-115 -/
  | .appendFrame p f =>
    match s.producers.get p, s.frames[f]? with
    | some _, some _ =>
      if s.closed.isSome then (.panic, s) else (.ok, { s with list := s.list ++ [f] })
    | _, _ => (.invalid, s)
  /- rs/moq/src/model/group.rs:118-120 -/
  | .finish p =>
    match s.producers.get p with
    | none => (.invalid, s)
    | some _ => (.ok, { s with producers := s.producers.put p none, closed := some (.ok ()) })
  /- rs/moq/src/model/group.rs:122-124 -/
  | .abort p e =>
    match s.producers.get p with
    | none => (.invalid, s)
    | some _ => (.ok, { s with producers := s.producers.put p none, closed := some (.error e) })
  /- `#[derive(Clone)]`, rs/moq/src/model/group.rs:71 -/
  | .cloneProducer p =>
    match s.producers.get p with
    | none => (.invalid, s)
    | some _ => (.handle s.producers.length, { s with producers := s.producers.add () })
  | .dropProducer p =>
    match s.producers.get p with
    | none => (.invalid, s)
    | some _ => (.ok, { s with producers := s.producers.put p none })
  /- rs/moq/src/model/group.rs:127-134 -/
  | .consume p =>
    match s.producers.get p with
    | none => (.invalid, s)
    | some _ => (.handle s.consumers.length, { s with consumers := s.consumers.add (0, none) })
  /- rs/moq/src/model/group.rs:136-141 -/
  | .unused p =>
    match s.producers.get p with
    | none => (.invalid, s)
    | some _ => (.handle s.futures.length, { s with futures := s.futures.add () })
  | .pollUnused f =>
    match s.futures.get f with
    | none => (.invalid, s)
    | some _ => (if s.consumers.count = 0 then .ok else .pending, s)
  | .dropUnused f =>
    match s.futures.get f with
    | none => (.invalid, s)
    | some _ => (.ok, { s with futures := s.futures.put f none })
  /- `#[derive(Clone)]`, rs/moq/src/model/group.rs:151: `index` and `active` are copied. -/
  | .cloneConsumer c =>
    match s.consumers.get c with
    | none => (.invalid, s)
    | some x => (.handle s.consumers.length, { s with consumers := s.consumers.add x })
  | .dropConsumer c =>
    match s.consumers.get c with
    | none => (.invalid, s)
    | some _ => (.ok, { s with consumers := s.consumers.put c none })
  /- rs/moq/src/model/group.rs:188-214 -/
  | .nextFrame c =>
    match s.consumers.get c with
    | none => (.invalid, s)
    | some (i, some f) => giveReader s c i f
    | some (i, none) =>
      match s.list[i]? with
      | some f => giveReader s c (i + 1) f
      | none => (s.atEnd, s)
  /- rs/moq/src/model/group.rs:172-174 -/
  | .readFrameStart c =>
    match s.consumers.get c with
    | none => (.invalid, s)
    | some (_, some _) => (.pending, s)
    | some (i, none) =>
      match s.list[i]? with
      | some f => (.pending, { s with consumers := s.consumers.put c (some (i + 1, some f)) })
      | none => (.pending, s)
  /- rs/moq/src/model/group.rs:169-185 -/
  | .readFrame c =>
    match s.consumers.get c with
    | none => (.invalid, s)
    | some (i, some f) => readActive s c i f
    | some (i, none) =>
      match s.list[i]? with
      | some f => readActive s c (i + 1) f
      | none => (s.atEnd, s)

/-- The group as a machine. -/
abbrev machine : Machine := ⟨State, Op, Out, init, step⟩

end Verif.Model.Group
