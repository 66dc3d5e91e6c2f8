import Verif.Hang.Import

/-!
# Model of the sink element of GStreamer, rs/hang-gst/src/sink/imp.rs

`HangSink` connects when it is started and publishes a broadcast; the buffers that it is to render are given to `Import::parse`.

What the model takes from elsewhere (part of the trusted base):
* Connecting: `start` is told what comes of it.
* `Import` is that of Verif/Hang/Import.lean, with the decoder and the processing of a box as parameters; `σ` is what has been imported
  and published.  A panic within `parse` has the same effect here as an error, so it is one of the errors.
* Dropping an `Import` ends its broadcast; as long as there is one, its broadcast is announced.
* GStreamer: `start`, `stop` and `render` are called in order (`render` only between `start` and `stop`); a panic in one of them is
  caught, and later calls fail without reaching the code; the element counts as stopped whatever `stop` answers.
* `set_property` has no such protection; a panic there ends the process.
-/

set_option autoImplicit false

namespace Verif.Gst.Sink

open Verif Verif.Hang.Import

variable {Atom Err σ : Type}

/-- `Option<Import>` in `State`, rs/hang-gst/src/sink/imp.rs:29-31: the number of the start that made it, the bytes that wait for more,
and what has been imported. -/
structure Media (σ : Type) where
  id : Nat
  buffer : Bytes
  imported : σ

structure State (σ : Type) where
  /-- `settings.url` is there -/
  url : Bool
  /-- the mutex of `settings` is poisoned -/
  poisoned : Bool
  /-- a panic was caught -/
  dead : Bool
  /-- between `start` and `stop` -/
  started : Bool
  /-- how often the element has been started -/
  starts : Nat
  media : Option (Media σ)

/-- What comes of connecting, rs/hang-gst/src/sink/imp.rs:151-165. -/
inductive Peer where
  /-- the URL is not valid, or the client cannot be made -/
  | unusable
  /-- connecting fails -/
  | unreachable
  | connected
  deriving DecidableEq

inductive Op where
  /-- the property `url` is set to a text or to null -/
  | setUrl (b : Bool)
  | start (p : Peer)
  | stop
  /-- a buffer; none if it cannot be mapped -/
  | render (d : Option Bytes)
  /-- what others see of the element -/
  | look
  deriving DecidableEq

inductive Out (σ : Type) where
  | ok
  | failed
  | panicked
  | invalid
  /-- the broadcast that is announced, and what has been published in it -/
  | shown (x : Option (Nat × σ))
  deriving DecidableEq

def init : State σ := ⟨false, false, false, false, 0, none⟩

/-- `start` and `setup`, rs/hang-gst/src/sink/imp.rs:121-125 and 147-177.  `settings` is locked all the time.  The former `Import` is
dropped when there is a new one. -/
def start (new : σ) (s : State σ) (p : Peer) : Out σ × State σ :=
  if s.started then (.invalid, s)
  else if s.dead then (.failed, s)
  else if !s.url then (.panicked, { s with dead := true, poisoned := true })
  else
    match p with
    | .unusable => (.failed, s)
    | .unreachable => (.panicked, { s with dead := true, poisoned := true })
    | .connected =>
      (.ok, { s with started := true, starts := s.starts + 1, media := some ⟨s.starts + 1, [], new⟩ })

/-- `render`, rs/hang-gst/src/sink/imp.rs:131-143.  The `Import` is taken and, after an error, dropped. -/
def render (P : Params Atom Err σ) (s : State σ) (d : Option Bytes) : Out σ × State σ :=
  if !s.started then (.invalid, s)
  else if s.dead then (.failed, s)
  else
    match d with
    | none => (.failed, s)
    | some d =>
      match s.media with
      | none => (.panicked, { s with dead := true })
      | some m =>
        match parse P (m.buffer, m.imported) d with
        | (none, b, x) => (.ok, { s with media := some ⟨m.id, b, x⟩ })
        | (some _, _, _) => (.panicked, { s with dead := true, media := none })

/-- `stop`, rs/hang-gst/src/sink/imp.rs:127-129. -/
def stop (s : State σ) : Out σ × State σ :=
  if !s.started then (.invalid, s)
  else (if s.dead then .failed else .ok, { s with started := false })

/-- `set_property`, rs/hang-gst/src/sink/imp.rs:68-76, and the above. -/
def step (P : Params Atom Err σ) (new : σ) (s : State σ) (op : Op) : Out σ × State σ :=
  match op with
  | .setUrl b => if s.poisoned then (.panicked, s) else (.ok, { s with url := b })
  | .start p => start new s p
  | .stop => stop s
  | .render d => render P s d
  | .look => (.shown (s.media.map fun m => (m.id, m.imported)), s)

abbrev machine (P : Params Atom Err σ) (new : σ) : Machine :=
  { State := State σ, Op := Op, Out := Out σ, init := init, step := step P new }

abbrev Trace (σ : Type) := List (Op × Out σ)

end Verif.Gst.Sink
