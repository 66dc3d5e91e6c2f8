import Verif.Model.GroupSpec
import Verif.Session.Handshake

/-!
# Model of the transfer of a group

The sender is `Publisher::serve_group` and the task around it
(rs/moq/src/session/publisher.rs:184-214 and 237-280), the receiver is `Subscriber::recv_group`
with `run_group` and `run_frame` (rs/moq/src/session/subscriber.rs:222-280).  Both work on a group
of `Verif/Model/Group.lean` that others use at the same time.
-/

set_option autoImplicit false

namespace Verif.Session.Transfer

open Verif Verif.Coding Verif.Message Verif.Session
open Verif.Model (Group.Op Group.Out Group.State Group.machine Group.init Group.step)
open Verif.Model.Group.Spec (Trace received ConsumerAlive)

/-! ## The sender -/

/-- How far `serve_group` is. -/
inductive SendPhase where
  /-- waiting for the next frame, rs/moq/src/session/publisher.rs:247-253 -/
  | frames
  /-- reading frame `f` through reader `id`, lines 260-270 -/
  | payload (f id : Nat)
  /-- returned -/
  | done
  deriving DecidableEq

/-- The stream as the sender sees it. -/
structure Sending where
  phase : SendPhase
  /-- the bytes written to the stream -/
  sent : Bytes
  /-- how it was ended: `idle` if not yet, `fin` if it was finished (line 275), `failed` if it was
  reset, explicitly (lines 202 and 206) or because the writer was dropped
  (rs/moq/src/session/writer.rs:60-65) -/
  ending : StreamEnd
  deriving DecidableEq

/-- The bytes that start the stream: its type (`Writer::open`,
rs/moq/src/session/writer.rs:19-26) and the group message (rs/moq/src/session/publisher.rs:242). -/
def groupHeader (subscribe sequence : Nat) : Except Panic Bytes :=
  wire (Enc.seq (encodeDataType .group) (encodeGroup ⟨subscribe, sequence⟩))

/-- The stream after it was reset.  The code does not matter to what the receiver accepts. -/
def Sending.reset (x : Sending) : Sending :=
  { x with phase := .done, ending := .failed (.stream 0) }

/-- Handling the answer of `next_frame`, lines 250-258 and 273-275. -/
def Sending.next (x : Sending) (size : Nat → Nat) : Group.Out → Sending
  | .reader f id =>
    match wire (encodeFrame ⟨size f⟩) with
    | .ok header => { x with phase := .payload f id, sent := x.sent ++ header }
    | .error _ => x.reset
  | .ended => { x with phase := .done, ending := .fin }
  | .pending => x
  | _ => x.reset

/-- Handling the answer of `read`, lines 264-268. -/
def Sending.read (x : Sending) : Group.Out → Sending
  | .frame (.data chunk) => { x with sent := x.sent ++ chunk }
  | .frame .ended => { x with phase := .frames }
  | .frame .pending => x
  | _ => x.reset

/-- The declared size of frame `f`. -/
def sizeIn (s : Group.State) (f : Nat) : Nat :=
  match s.frames[f]? with
  | some (size, _) => size
  | none => 0

/-- The operation uses consumer `c`, or the reader it is reading from. -/
def Uses (c : Nat) (phase : SendPhase) : Group.Op → Prop
  | .dropConsumer d => d = c
  | .nextFrame d => d = c
  | .readFrameStart d => d = c
  | .readFrame d => d = c
  | .frame f (.read id) => phase = .payload f id
  | .frame f (.readAll id) => phase = .payload f id
  | .frame f (.dropConsumer id) => phase = .payload f id
  | _ => False

/-- The executions of `serve_group` with the group consumer `c`, which it owns.  `tr` and `s` are
history and state of the group. -/
inductive Serve (c subscribe sequence : Nat) : Trace → Group.State → Sending → Prop
  /-- the stream was opened and the group message was written -/
  | start {tr s header} : Group.machine.Reach tr s → ConsumerAlive tr c → received tr c = [] →
      groupHeader subscribe sequence = .ok header →
      Serve c subscribe sequence tr s ⟨.frames, header, .idle⟩
  /-- anybody else uses the group; nothing is assumed once `serve_group` has returned -/
  | other {tr s x} (op : Group.Op) : (x.phase ≠ .done → ¬ Uses c x.phase op) →
      Serve c subscribe sequence tr s x →
      Serve c subscribe sequence (tr ++ [(op, (Group.step s op).1)]) (Group.step s op).2 x
  /-- one poll of `next_frame`, and what follows -/
  | next {tr s x} : x.phase = .frames → Serve c subscribe sequence tr s x →
      Serve c subscribe sequence (tr ++ [(.nextFrame c, (Group.step s (.nextFrame c)).1)])
        (Group.step s (.nextFrame c)).2 (x.next (sizeIn s) (Group.step s (.nextFrame c)).1)
  /-- one poll of `read`, and what follows -/
  | read {tr s x f id} : x.phase = .payload f id → Serve c subscribe sequence tr s x →
      Serve c subscribe sequence
        (tr ++ [(.frame f (.read id), (Group.step s (.frame f (.read id))).1)])
        (Group.step s (.frame f (.read id))).2 (x.read (Group.step s (.frame f (.read id))).1)
  /-- the peer stops the stream, a write fails, or the task is dropped -/
  | stop {tr s x} : x.phase ≠ .done → Serve c subscribe sequence tr s x →
      Serve c subscribe sequence tr s x.reset

/-! ## The receiver -/

/-- How far `recv_group` is, after it has read the group message and created the group. -/
inductive RecvPhase where
  /-- before the header of frame `n`, rs/moq/src/session/subscriber.rs:249 -/
  | header (n : Nat)
  /-- in the payload of frame `n`, lines 271-275 -/
  | payload (n remain : Nat)
  /-- the group is to be aborted, lines 231-238 -/
  | failing (e : Error)
  /-- returned -/
  | done
  deriving DecidableEq

/-- The stream as the receiver sees it. -/
structure Receiving where
  reader : Reader
  phase : RecvPhase

/-- The error the group is aborted with, rs/moq/src/session/subscriber.rs:230-238. -/
def abortWith : Error → Error
  | .webTransport _ => .cancel
  | e => e

/-- The next thing the receiver does, and the calls on the group.  Simplification: the code makes
a clone of the group producer for `run_group` and a clone of each frame producer for `run_frame`,
and closes group and frames through one of the two; here there is one producer each. -/
def Receiving.step (x : Receiving) : List Group.Op × Receiving :=
  match x.phase with
  | .header n =>
    match x.reader.decodeMaybe decodeFrame with
    | (.waiting, r) => ([], ⟨r, .header n⟩)
    | (.done (.ok (some ⟨size⟩)), r) => ([.newFrame size, .appendFrame 0 n], ⟨r, .payload n size⟩)
    | (.done (.ok none), r) => ([.finish 0], ⟨r, .done⟩)
    | (.done (.error e), r) => ([], ⟨r, .failing e⟩)
  | .payload n 0 => ([.frame n (.finish 0)], ⟨x.reader, .header (n + 1)⟩)
  | .payload n (remain + 1) =>
    match x.reader.read (remain + 1) with
    | (.waiting, r) => ([], ⟨r, .payload n (remain + 1)⟩)
    | (.done (.ok (some chunk)), r) =>
      if chunk.length ≤ remain + 1 then
        ([.frame n (.write 0 chunk)], ⟨r, .payload n (remain + 1 - chunk.length)⟩)
      else ([.frame n (.abort 0 .wrongSize)], ⟨r, .failing .wrongSize⟩)
    | (.done (.ok none), r) => ([.frame n (.abort 0 .wrongSize)], ⟨r, .failing .wrongSize⟩)
    | (.done (.error e), r) => ([.frame n (.abort 0 e)], ⟨r, .failing e⟩)
  | .failing e => ([.abort 0 (abortWith e)], ⟨x.reader, .done⟩)
  | .done => ([], x)

/-- What the receiver does when all consumers of the group are gone
(rs/moq/src/session/subscriber.rs:225): the frame producer is dropped and the group aborted. -/
def Receiving.cancel (x : Receiving) : List Group.Op × Receiving :=
  match x.phase with
  | .header _ => ([], ⟨x.reader, .failing .cancel⟩)
  | .payload n _ => ([.frame n (.dropProducer 0)], ⟨x.reader, .failing .cancel⟩)
  | _ => ([], x)

/-- Operations of consumers of the group and of its frames. -/
def ByConsumer : Group.Op → Prop
  | .cloneConsumer _ | .dropConsumer _ | .nextFrame _ | .readFrameStart _ | .readFrame _ => True
  | .frame _ (.cloneConsumer _) | .frame _ (.dropConsumer _) => True
  | .frame _ (.read _) | .frame _ (.readAll _) => True
  | _ => False

/-- The executions of the receiver from the point where the group was created (with a consumer,
rs/moq/src/model/track.rs:94-97), on a stream that is read through `r₀`.  `dropped` tells whether
it was cancelled because nobody wanted the group any more. -/
inductive Recv (r₀ : Reader) : Bool → Trace → Group.State → Receiving → Prop
  | start : Recv r₀ false [(.consume 0, .handle 0)] (Group.step Group.init (.consume 0)).2
      ⟨r₀, .header 0⟩
  /-- a consumer does something -/
  | user {d tr s x} (op : Group.Op) : ByConsumer op → Recv r₀ d tr s x →
      Recv r₀ d (tr ++ [(op, (Group.step s op).1)]) (Group.step s op).2 x
  /-- the receiver does something -/
  | recv {d tr s x} : Recv r₀ d tr s x →
      Recv r₀ d (tr ++ (Group.machine.runFrom s x.step.1).1) (Group.machine.runFrom s x.step.1).2
        x.step.2
  /-- the receiver is cancelled -/
  | cancel {d tr s x} : Recv r₀ d tr s x →
      Recv r₀ true (tr ++ (Group.machine.runFrom s x.cancel.1).1)
        (Group.machine.runFrom s x.cancel.1).2 x.cancel.2

end Verif.Session.Transfer
