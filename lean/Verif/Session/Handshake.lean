import Verif.Session.Reader

/-!
# Model of the handshake and stream dispatch, `rs/moq/src/session/mod.rs`, and of
`Publisher::stream_priority`
-/

namespace Verif.Session

open Verif Verif.Coding Verif.Message

/-- `Writer::encode`, rs/moq/src/session/writer.rs:28-37: all bytes of the message are
written, or the transport fails (`fail`).  A failed write may have sent a part; the model
reports nothing written then. -/
def writeMessage (e : Enc) (fail : Option TransportError) : Except Panic (Except Error Bytes) :=
  match wire e with
  | .error p => .error p
  | .ok bs =>
    match fail with
    | some t => .ok (.error (.webTransport t))
    | none => .ok (.ok bs)

/-- What a handshake did: its result and the bytes it wrote. -/
structure Handshake where
  result : Outcome Unit
  written : Bytes

/-- `Session::accept_setup`, rs/moq/src/session/mod.rs:103-120.  The encoding of the constant
answer does not panic, so the panic case of `writeMessage` is not reachable; it is kept as a
waiting outcome. -/
def acceptSetup (fail : Option TransportError) (r : Reader) : Handshake :=
  match (r.decode decodeClientSetup).1 with
  | .waiting => ⟨.waiting, []⟩
  | .done (.error e) => ⟨.done (.error e), []⟩
  | .done (.ok client) =>
    if ¬ client.versions.contains Version.CURRENT then
      ⟨.done (.error (.version client.versions [Version.CURRENT])), []⟩
    else
      match writeMessage (encodeServerSetup ⟨Version.CURRENT, []⟩) fail with
      | .ok (.ok bs) => ⟨.done (.ok ()), bs⟩
      | .ok (.error e) => ⟨.done (.error e), []⟩
      | .error _ => ⟨.waiting, []⟩

/-- `Session::accept`, rs/moq/src/session/mod.rs:90-101, on the first bidirectional stream. -/
def accept (fail : Option TransportError) (r : Reader) : Handshake :=
  match r.decode decodeControlType with
  | (.waiting, _) => ⟨.waiting, []⟩
  | (.done (.error e), _) => ⟨.done (.error e), []⟩
  | (.done (.ok kind), r) =>
    if kind ≠ .session then ⟨.done (.error (.unexpectedStream kind)), []⟩
    else acceptSetup fail r

/-- The message sent by `Session::connect_setup`, rs/moq/src/session/mod.rs:76-79. -/
def clientHello : ClientSetup := ⟨[Version.CURRENT], []⟩

/-- The bytes a client writes: the stream type (rs/moq/src/session/stream.rs:15) and the
setup message (rs/moq/src/session/mod.rs:81). -/
def connectRequest : Except Panic Bytes :=
  wire (encodeControlType .session ⨾ encodeClientSetup clientHello)

/-- `Session::connect_setup`, rs/moq/src/session/mod.rs:81-86, after the request was written:
the answer is decoded and its version is logged, not compared. -/
def connectAnswer (r : Reader) : Outcome Unit :=
  match (r.decode decodeServerSetup).1 with
  | .waiting => .waiting
  | .done (.error e) => .done (.error e)
  | .done (.ok _server) => .done (.ok ())

/-- What happens to a bidirectional stream accepted after the handshake. -/
inductive ControlDispatch where
  /-- still waiting for the type -/
  | waiting
  /-- the type could not be read: the stream is dropped -/
  | dropped (e : Error)
  /-- the stream is reset with this error -/
  | refused (e : Error)
  /-- `Publisher::recv_announce` is run with the rest of the stream -/
  | announce (r : Reader)
  /-- `Publisher::recv_subscribe` is run with the rest of the stream -/
  | subscribe (r : Reader)
  deriving DecidableEq

/-- `Session::run_control`, rs/moq/src/session/mod.rs:163-177. -/
def runControl (r : Reader) : ControlDispatch :=
  match r.decode decodeControlType with
  | (.waiting, _) => .waiting
  | (.done (.error e), _) => .dropped e
  | (.done (.ok .session), _) => .refused (.unexpectedStream .session)
  | (.done (.ok .announce), r) => .announce r
  | (.done (.ok .subscribe), r) => .subscribe r

/-- What happens to a unidirectional stream. -/
inductive DataDispatch where
  | waiting
  | dropped (e : Error)
  /-- `Subscriber::recv_group` is run with the rest of the stream -/
  | group (r : Reader)
  deriving DecidableEq

/-- `Session::run_data`, rs/moq/src/session/mod.rs:138-150. -/
def runData (r : Reader) : DataDispatch :=
  match r.decode decodeDataType with
  | (.waiting, _) => .waiting
  | (.done (.error e), _) => .dropped e
  | (.done (.ok .group), r) => .group r

/-- Reinterpretation of a 32-bit pattern as `i32`. -/
def toI32 (n : Nat) : Int := if n % 2 ^ 32 < 2 ^ 31 then (n % 2 ^ 32 : Nat) else (n % 2 ^ 32 : Nat) - 2 ^ 32

/-- `Publisher::stream_priority`, rs/moq/src/session/publisher.rs:287-290.  `group_sequence as
u32` keeps 32 bits; the subtraction panics on underflow if overflow checks are on and wraps
otherwise; `<<` on `i32` drops bits shifted out. -/
def streamPriority (overflowChecks : Bool) (trackPriority : UInt8) (groupSequence : Nat) :
    Except Panic Int :=
  let seq := groupSequence % 2 ^ 32
  if overflowChecks && 0xFFFFFF < seq then .error .overflow
  else
    let sequence := ((0xFFFFFF + 2 ^ 32 - seq) % 2 ^ 32) &&& 0xFFFFFF
    .ok (toI32 (((trackPriority.toNat <<< 24) % 2 ^ 32) ||| sequence))

end Verif.Session
