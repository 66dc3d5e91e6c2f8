import Verif.Session.Handshake

/-!
# Model of an established session, rs/moq/src/session/mod.rs:29-65, 122-177, 216-218

The task spawned by `Session::new` selects over three loops.  One `poll` is one iteration of one of the
loops; which loop is polled is up to the schedule (`tokio::select!` begins with a random branch).  The
tasks spawned for accepted streams begin with `runControl` and `runData` (`Verif.Session.Handshake`);
what they do afterwards is the subject of the other models of this directory.

The transport is modelled by its contract: a session is closed once, later calls of `close` have no
effect; streams that arrived before the end of the session are still accepted, afterwards accepting
fails; a read from a stream of a session that is gone fails after the bytes already received.
-/

set_option autoImplicit false

namespace Verif.Session.Lifecycle

open Verif Verif.Coding Verif.Message

/-- The branches of `tokio::select!`, rs/moq/src/session/mod.rs:42-46. -/
inductive Branch where
  | session
  | bi
  | uni
  deriving DecidableEq, Repr

structure State where
  /-- the receiving half of the session stream -/
  reader : Reader
  /-- bidirectional streams of the peer that were not accepted yet -/
  bi : List RecvStream
  /-- unidirectional streams of the peer that were not accepted yet -/
  uni : List RecvStream
  /-- the task of rs/moq/src/session/mod.rs:41-62 is running -/
  running : Bool
  /-- the transport session was ended by the peer or the network -/
  lost : Bool
  /-- the transport session was closed by this side: code and the error whose text was sent -/
  closed : Option (Nat × Option Error)
  deriving DecidableEq

inductive Op where
  /-- a piece of the session stream arrives -/
  | recv (bytes : Bytes)
  /-- the peer finishes the session stream -/
  | fin
  /-- the peer resets the session stream -/
  | reset (code : Nat)
  /-- the peer closes the transport session, or the connection fails -/
  | lose
  /-- the peer opens a bidirectional stream -/
  | openBi (s : RecvStream)
  /-- the peer opens a unidirectional stream -/
  | openUni (s : RecvStream)
  /-- the task is polled -/
  | poll (b : Branch)
  /-- `Session::close` -/
  | close (e : Error)
  deriving DecidableEq

inductive Out where
  | ok
  | pending
  /-- `run_session` read a message -/
  | info (m : SubscribeOk)
  /-- a task was spawned that begins like this -/
  | control (d : ControlDispatch)
  | data (d : DataDispatch)
  /-- the task ended with this error -/
  | ended (e : Error)
  /-- `close` had no effect: the session was gone already -/
  | ignored
  | panicked
  | invalid
  deriving DecidableEq

/-- The transport session has ended. -/
def State.gone (s : State) : Bool := s.lost || s.closed.isSome

/-- The session ends: reads fail after the bytes already received. -/
def failReader (r : Reader) : Reader :=
  if r.stream.ending = .idle then ⟨⟨r.stream.chunks, .failed .session⟩, r.buffer⟩ else r

/-- `web_transport::Session::close`. -/
def closeTransport (code : Nat) (reason : Option Error) (s : State) : State :=
  if s.gone then s else { s with closed := some (code, reason), reader := failReader s.reader }

/-- The end of the task, rs/moq/src/session/mod.rs:48-61.  The last arm, line 57, is for a loop that
ended without an error; there is none. -/
def finish (e : Error) (s : State) : Out × State :=
  match e with
  | .webTransport .session => (.ended e, { closeTransport 1 none s with running := false })
  | e =>
    match e.toCode with
    | .ok code => (.ended e, { closeTransport code (some e) s with running := false })
    | .error _ => (.panicked, { s with running := false })

def step (s : State) : Op → Out × State
  | .recv bytes =>
    if s.gone || s.reader.stream.ending ≠ .idle || bytes = [] then (.invalid, s)
    else (.ok, { s with reader := ⟨⟨s.reader.stream.chunks ++ [bytes], .idle⟩, s.reader.buffer⟩ })
  | .fin =>
    if s.gone || s.reader.stream.ending ≠ .idle then (.invalid, s)
    else (.ok, { s with reader := ⟨⟨s.reader.stream.chunks, .fin⟩, s.reader.buffer⟩ })
  | .reset code =>
    if s.gone || s.reader.stream.ending ≠ .idle then (.invalid, s)
    else (.ok, { s with reader := ⟨⟨s.reader.stream.chunks, .failed (.stream code)⟩, s.reader.buffer⟩ })
  | .lose =>
    if s.gone then (.invalid, s)
    else (.ok, { s with lost := true, reader := failReader s.reader })
  | .openBi r => if s.gone then (.invalid, s) else (.ok, { s with bi := s.bi ++ [r] })
  | .openUni r => if s.gone then (.invalid, s) else (.ok, { s with uni := s.uni ++ [r] })
  | .poll b =>
    if ¬ s.running then (.invalid, s)
    else
      match b with
      /- `run_session`, rs/moq/src/session/mod.rs:122-125; the message type is `SubscribeOk` -/
      | .session =>
        match s.reader.decodeMaybe decodeSubscribeOk with
        | (.waiting, r) => (.pending, { s with reader := r })
        | (.done (.ok (some m)), r) => (.info m, { s with reader := r })
        | (.done (.ok none), r) => finish .cancel { s with reader := r }
        | (.done (.error e), r) => finish e { s with reader := r }
      /- `run_bi`, rs/moq/src/session/mod.rs:152-161, and the beginning of `run_control` -/
      | .bi =>
        match s.bi with
        | r :: rest => (.control (runControl (Reader.new r)), { s with bi := rest })
        | [] => if s.gone then finish (.webTransport .session) s else (.pending, s)
      /- `run_uni`, rs/moq/src/session/mod.rs:127-136, and the beginning of `run_data` -/
      | .uni =>
        match s.uni with
        | r :: rest => (.data (runData (Reader.new r)), { s with uni := rest })
        | [] => if s.gone then finish (.webTransport .session) s else (.pending, s)
  /- rs/moq/src/session/mod.rs:216-218 -/
  | .close e =>
    match e.toCode with
    | .ok code => if s.gone then (.ignored, s) else (.ok, closeTransport code (some e) s)
    | .error _ => (.panicked, s)

/-- The beginning, rs/moq/src/session/mod.rs:29-46; `left` was received together with the setup message. -/
def init (left : Bytes) : State := ⟨⟨⟨[], .idle⟩, left⟩, [], [], true, false, none⟩

abbrev machine (left : Bytes) : Machine := ⟨State, Op, Out, init left, step⟩

/-- How the peer's session stream is closed if the handshake fails: the stream is dropped, and
`Drop for Writer`, rs/moq/src/session/writer.rs:69-74, resets it with the code of `Error::Cancel`. -/
def refusal (h : Handshake) : Option (Except Panic Nat) :=
  match h.result with
  | .done (.error _) => some (Error.toCode .cancel)
  | _ => none

end Verif.Session.Lifecycle
