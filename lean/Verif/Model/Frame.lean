import Verif.Slots
import Verif.Session.Error

/-!
# Model of `rs/moq/src/model/frame.rs`

One frame with any number of producer handles, consumer handles and `unused()` futures.  Each
operation is one critical section on the `watch` channel.  `FrameProducer`s and `unused()`
futures hold a `watch::Sender`, so the channel is closed for the consumers when all of them
are gone.
-/

namespace Verif.Model.Frame

open Verif Verif.Session

/-- The state of a frame and of all its handles. -/
structure State where
  /-- `FrameState::chunks`, rs/moq/src/model/frame.rs:47 -/
  chunks : List Bytes
  /-- `FrameState::closed`, rs/moq/src/model/frame.rs:50 -/
  closed : Option (Except Error Unit)
  /-- live producers with their `written`, rs/moq/src/model/frame.rs:63 -/
  producers : Slots Nat
  /-- live `unused()` futures, rs/moq/src/model/frame.rs:105-110: each holds a clone of the sender -/
  futures : Slots Unit
  /-- live consumers with their `index`, rs/moq/src/model/frame.rs:130 -/
  consumers : Slots Nat

/-- Operations.  An operation names the handle it is called on. -/
inductive Op where
  | write (p : Nat) (chunk : Bytes)
  | finish (p : Nat)
  | abort (p : Nat) (e : Error)
  | cloneProducer (p : Nat)
  | dropProducer (p : Nat)
  | consume (p : Nat)
  | unused (p : Nat)
  | pollUnused (f : Nat)
  | dropUnused (f : Nat)
  | cloneConsumer (c : Nat)
  | dropConsumer (c : Nat)
  | read (c : Nat)
  | readAll (c : Nat)

/-- Outputs. -/
inductive Out where
  /-- done -/
  | ok
  /-- a new handle -/
  | handle (id : Nat)
  /-- the future is not ready -/
  | pending
  /-- `Ok(Some(chunk))` of `read`, `Ok(data)` of `read_all` -/
  | data (b : Bytes)
  /-- `Ok(None)` of `read` -/
  | ended
  /-- `Err(e)` -/
  | err (e : Error)
  /-- the call panicked -/
  | panic
  /-- the handle does not exist; Rust's ownership rules exclude such calls -/
  | invalid
  deriving DecidableEq

/-- `FrameProducer::new`, rs/moq/src/model/frame.rs:67-73: one producer, nothing written. -/
def init : State := ⟨[], none, [some 0], [], []⟩

/-- The number of `watch::Sender`s. -/
def State.senders (s : State) : Nat := s.producers.count + s.futures.count

/-- The part of `read`/`read_all` that waits: `Err(Cancel)` once all senders are gone,
rs/moq/src/model/frame.rs:152-154 and 169. -/
def State.wait (s : State) : Out := if s.senders = 0 then .err .cancel else .pending

/-- One poll of `read_all` by a consumer with the given index,
rs/moq/src/model/frame.rs:159-188; slicing panics if the index is too large. -/
def State.readAllAt (s : State) (index : Nat) : Out :=
  match s.closed with
  | some (.error e) => .err e
  | some (.ok _) =>
    if index ≤ s.chunks.length then .data (s.chunks.drop index).flatten else .panic
  | none => s.wait

/-- One operation on a frame of the given size. -/
def step (size : Nat) (s : State) : Op → Out × State
  /- rs/moq/src/model/frame.rs:75-84: `written` is increased before the assertion. -/
  | .write p chunk =>
    match s.producers.get p with
    | none => (.invalid, s)
    | some written =>
      let s := { s with producers := s.producers.put p (some (written + chunk.length)) }
      if ¬ (written + chunk.length ≤ size) then (.panic, s)
      else if s.closed.isSome then (.panic, s)
      else (.ok, { s with chunks := s.chunks ++ [chunk] })
  /- rs/moq/src/model/frame.rs:86-89: consumes the producer, also if it panics. -/
  | .finish p =>
    match s.producers.get p with
    | none => (.invalid, s)
    | some written =>
      let s := { s with producers := s.producers.put p none }
      if written = size then (.ok, { s with closed := some (.ok ()) }) else (.panic, s)
  /- rs/moq/src/model/frame.rs:91-93 -/
  | .abort p e =>
    match s.producers.get p with
    | none => (.invalid, s)
    | some _ =>
      (.ok, { s with producers := s.producers.put p none, closed := some (.error e) })
  /- `#[derive(Clone)]`, rs/moq/src/model/frame.rs:54: `written` is copied. -/
  | .cloneProducer p =>
    match s.producers.get p with
    | none => (.invalid, s)
    | some written =>
      (.handle s.producers.length, { s with producers := s.producers.add written })
  | .dropProducer p =>
    match s.producers.get p with
    | none => (.invalid, s)
    | some _ => (.ok, { s with producers := s.producers.put p none })
  /- rs/moq/src/model/frame.rs:96-102 -/
  | .consume p =>
    match s.producers.get p with
    | none => (.invalid, s)
    | some _ => (.handle s.consumers.length, { s with consumers := s.consumers.add 0 })
  /- rs/moq/src/model/frame.rs:105-110 -/
  | .unused p =>
    match s.producers.get p with
    | none => (.invalid, s)
    | some _ => (.handle s.futures.length, { s with futures := s.futures.add () })
  /- `Sender::closed`: ready when there is no receiver. -/
  | .pollUnused f =>
    match s.futures.get f with
    | none => (.invalid, s)
    | some _ => (if s.consumers.count = 0 then .ok else .pending, s)
  | .dropUnused f =>
    match s.futures.get f with
    | none => (.invalid, s)
    | some _ => (.ok, { s with futures := s.futures.put f none })
  /- `#[derive(Clone)]`, rs/moq/src/model/frame.rs:120: `index` is copied. -/
  | .cloneConsumer c =>
    match s.consumers.get c with
    | none => (.invalid, s)
    | some index =>
      (.handle s.consumers.length, { s with consumers := s.consumers.add index })
  | .dropConsumer c =>
    match s.consumers.get c with
    | none => (.invalid, s)
    | some _ => (.ok, { s with consumers := s.consumers.put c none })
  /- rs/moq/src/model/frame.rs:135-156, one poll -/
  | .read c =>
    match s.consumers.get c with
    | none => (.invalid, s)
    | some index =>
      match s.chunks[index]? with
      | some chunk => (.data chunk, { s with consumers := s.consumers.put c (some (index + 1)) })
      | none =>
        match s.closed with
        | some (.ok _) => (.ended, s)
        | some (.error e) => (.err e, s)
        | none => (s.wait, s)
  /- rs/moq/src/model/frame.rs:159-188, one poll; the index moves to the end with the data -/
  | .readAll c =>
    match s.consumers.get c with
    | none => (.invalid, s)
    | some index =>
      match s.readAllAt index with
      | .data b => (.data b, { s with consumers := s.consumers.put c (some s.chunks.length) })
      | out => (out, s)

/-- The frame of a given size as a machine. -/
abbrev machine (size : Nat) : Machine := ⟨State, Op, Out, init, step size⟩

end Verif.Model.Frame
