import Verif.Session.Error

/-!
# Model of `rs/moq/src/session/reader.rs`

The transport stream (`web_transport::RecvStream`) is modelled by its documented contract:
it delivers the bytes of the stream in order, in non-empty pieces of arbitrary size, and then
its end.  The pieces are fixed in advance (`chunks`), which covers every behaviour because
the theorems quantify over all lists of pieces.
-/

namespace Verif.Session

open Verif Verif.Coding Verif.Message

/-- What comes after the last byte received. -/
inductive StreamEnd where
  /-- the peer finished the stream -/
  | fin
  /-- the stream was reset or the session lost -/
  | failed (e : TransportError)
  /-- neither: nothing more arrives, readers wait -/
  | idle
  deriving DecidableEq, Repr

/-- `web_transport::RecvStream`. -/
structure RecvStream where
  chunks : List Bytes
  ending : StreamEnd
  deriving DecidableEq, Repr

/-- `Reader`, rs/moq/src/session/reader.rs:7-10. -/
structure Reader where
  stream : RecvStream
  buffer : Bytes
  deriving DecidableEq, Repr

/-- The result of an async function: it returned, or it is still waiting. -/
inductive Outcome (α : Type) where
  | done (r : Except Error α)
  | waiting

/-- `Reader::new`, rs/moq/src/session/reader.rs:13-18. -/
def Reader.new (stream : RecvStream) : Reader := ⟨stream, []⟩

/-- The result of `read_buf`/`read` once no piece is left. -/
def StreamEnd.result : StreamEnd → Outcome (Option Bytes)
  | .fin => .done (.ok none)
  | .failed e => .done (.error (.webTransport e))
  | .idle => .waiting

/-- The loop of `Reader::decode`, rs/moq/src/session/reader.rs:26-46, by recursion on the
pieces that `read_buf` (line 43) will return. -/
def Reader.decodeLoop {α} (d : Dec α) (ending : StreamEnd) :
    List Bytes → Bytes → Outcome α × Reader
  | chunks, buffer =>
    match d buffer with
    | .ok (msg, rest) => (.done (.ok msg), ⟨⟨chunks, ending⟩, rest⟩)
    | .error .short =>
      match chunks with
      | [] =>
        match ending with
        | .fin => (.done (.error (.decode .short)), ⟨⟨[], ending⟩, buffer⟩)
        | .failed e => (.done (.error (.webTransport e)), ⟨⟨[], ending⟩, buffer⟩)
        | .idle => (.waiting, ⟨⟨[], ending⟩, buffer⟩)
      | c :: chunks => Reader.decodeLoop d ending chunks (buffer ++ c)
    | .error err => (.done (.error (.decode err)), ⟨⟨chunks, ending⟩, buffer⟩)

/-- `Reader::decode`, rs/moq/src/session/reader.rs:25-47. -/
def Reader.decode {α} (d : Dec α) (r : Reader) : Outcome α × Reader :=
  Reader.decodeLoop d r.stream.ending r.stream.chunks r.buffer

/-- `Reader::finished`, rs/moq/src/session/reader.rs:70-76. -/
def Reader.finished (r : Reader) : Outcome Unit × Reader :=
  if r.buffer = [] then
    match r.stream.chunks with
    | [] =>
      match r.stream.ending with
      | .fin => (.done (.ok ()), r)
      | .failed e => (.done (.error (.webTransport e)), r)
      | .idle => (.waiting, r)
    | c :: chunks =>
      (.done (.error (.decode .expectedEnd)), ⟨⟨chunks, r.stream.ending⟩, r.buffer ++ c⟩)
  else (.done (.error (.decode .expectedEnd)), r)

/-- `Reader::decode_maybe`, rs/moq/src/session/reader.rs:50-56. -/
def Reader.decodeMaybe {α} (d : Dec α) (r : Reader) : Outcome (Option α) × Reader :=
  match r.finished with
  | (.done (.ok ()), r) => (.done (.ok none), r)
  | (.done (.error (.decode .expectedEnd)), r) =>
    match r.decode d with
    | (.done (.ok a), r) => (.done (.ok (some a)), r)
    | (.done (.error e), r) => (.done (.error e), r)
    | (.waiting, r) => (.waiting, r)
  | (.done (.error e), r) => (.done (.error e), r)
  | (.waiting, r) => (.waiting, r)

/-- `Reader::read`, rs/moq/src/session/reader.rs:59-67.  `RecvStream::read(max)` returns at
most `max` bytes of the next piece and keeps the others. -/
def Reader.read (max : Nat) (r : Reader) : Outcome (Option Bytes) × Reader :=
  if r.buffer = [] then
    match r.stream.chunks with
    | [] => (r.stream.ending.result, r)
    | c :: chunks =>
      if c.length ≤ max then (.done (.ok (some c)), ⟨⟨chunks, r.stream.ending⟩, r.buffer⟩)
      else
        (.done (.ok (some (c.take max))),
          ⟨⟨c.drop max :: chunks, r.stream.ending⟩, r.buffer⟩)
  else
    let size := min max r.buffer.length
    (.done (.ok (some (r.buffer.take size))), { r with buffer := r.buffer.drop size })

end Verif.Session
