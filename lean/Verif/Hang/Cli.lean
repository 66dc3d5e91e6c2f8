import Verif.Hang.Import

/-!
# Model of the program `hang`, rs/hang-cli/src/client.rs and rs/hang-cli/src/server.rs

`hang publish` connects to a relay and publishes the media that it reads from its input; `hang serve` accepts connections and publishes the
media to each.

What the model takes from elsewhere (part of the trusted base):
* `tokio::select!` runs its branches side by side and ends with the first that ends; events of the branches come in any order.
* The importer is that of Verif/Hang/Import.lean, with the decoder and the processing of a box as parameters; `σ` is what has been imported
  and published.  The boxes `ftyp` and `moov` at the beginning are read by `mp4_atom`, which takes their bytes and no more; whether they are
  valid, and what `Import::init` makes of them, is part of the event.
* When the program ends, so do its connections.  A handler for ctrl-c is installed when `ctrl_c()` is polled first and stays; without it
  ctrl-c ends the process.
* The session of a connection goes on when its task in `accept` has ended, and a panic of the task ends only that task.

Not modelled: the configuration, and the web server except that it may end.
-/

set_option autoImplicit false

namespace Verif.Hang.Cli

open Verif Verif.Hang.Import

variable {Atom Err σ : Type}

/-! ## Publishing, which is the same for both -/

/-- Where `publish` is, rs/hang-cli/src/client.rs:50-63 and rs/hang-cli/src/server.rs:68-81: `Ftyp::read_from`, `Moov::read_from` (rs/hang/src/cmaf/import.rs:332-336),
or the loop of `Import::read_from` (rs/hang/src/cmaf/import.rs:339-352) with its buffer. -/
inductive Stage (σ : Type) where
  | ftyp
  | moov
  | media (buffer : Bytes) (imported : σ)

/-- What comes from the input. -/
inductive Event (σ : Type) where
  /-- the box `ftyp`, or something else -/
  | ftyp (ok : Bool)
  /-- the box `moov` and what has been imported after it; none if there is an error -/
  | moov (r : Option σ)
  /-- bytes for the media -/
  | data (d : Bytes)
  | eof
  /-- reading fails -/
  | broken
  deriving DecidableEq

inductive Res (σ : Type) where
  | invalid
  | next (st : Stage σ)
  /-- `publish` returns `Ok` or not -/
  | ended (ok : Bool)

def publish (P : Params Atom Err σ) (st : Stage σ) (e : Event σ) : Res σ :=
  match st, e with
  | _, .broken => .ended false
  | .ftyp, .ftyp ok => if ok then .next .moov else .ended false
  | .ftyp, .eof => .ended false
  | .moov, .moov (some s) => .next (.media [] s)
  | .moov, .moov none => .ended false
  | .moov, .eof => .ended false
  | .media b s, .data d =>
    if d = [] then .invalid
    else
      match parseInner P s (b ++ d) with
      | (none, b, s) => .next (.media b s)
      | (some _, _, _) => .ended false
  | .media b _, .eof => .ended b.isEmpty
  | _, _ => .invalid

/-- What has been published; none before `moov`. -/
def Stage.imported : Stage σ → Option σ
  | .media _ s => some s
  | _ => none

/-- How the process ends. -/
inductive Exit where
  | ok
  | err
  /-- by the signal -/
  | killed
  deriving DecidableEq

/-! ## `hang publish` -/

namespace Client

/-- Where `connect` is, rs/hang-cli/src/client.rs:26-48. -/
inductive Conn where
  | connecting
  | open
  /-- after ctrl-c: the session is closed, and the program sleeps -/
  | closing
  deriving DecidableEq

structure State (σ : Type) where
  stage : Stage σ
  conn : Conn
  /-- the process has ended -/
  over : Bool

inductive Op (σ : Type) where
  | input (e : Event σ)
  /-- connecting succeeds or fails -/
  | connect (ok : Bool)
  | ctrlC
  /-- the session is closed, by the other side or an error -/
  | closed
  /-- the 100 ms are over -/
  | elapsed
  /-- what the relay sees -/
  | look
  deriving DecidableEq

inductive Out (σ : Type) where
  | ok
  | invalid
  /-- the process ends; whether the session had been closed -/
  | exit (e : Exit) (graceful : Bool)
  /-- whether the broadcast is announced, and what is in it -/
  | shown (x : Option (Option σ))
  deriving DecidableEq

def init : State σ := ⟨.ftyp, .connecting, false⟩

def result (ok : Bool) : Exit := if ok then .ok else .err

def exit (s : State σ) (e : Exit) : Out σ × State σ := (.exit e (s.conn == .closing), { s with over := true })

/-- `client`, rs/hang-cli/src/client.rs:9-24, with `connect` and `publish`. -/
def step (P : Params Atom Err σ) (s : State σ) (op : Op σ) : Out σ × State σ :=
  match op with
  | .look =>
    (.shown (if !s.over && s.conn == .open then some s.stage.imported else none), s)
  | .input e =>
    if s.over then (.invalid, s)
    else
      match publish P s.stage e with
      | .invalid => (.invalid, s)
      | .next st => (.ok, { s with stage := st })
      | .ended ok => exit s (result ok)
  | .connect ok =>
    if s.over || s.conn != .connecting then (.invalid, s)
    else if ok then (.ok, { s with conn := .open })
    else exit s .err
  | .ctrlC =>
    if s.over then (.invalid, s)
    else
      match s.conn with
      | .connecting => exit s .killed
      | .open => (.ok, { s with conn := .closing })
      | .closing => (.ok, s)
  | .closed => if s.over || s.conn != .open then (.invalid, s) else exit s .err
  | .elapsed => if s.over || s.conn != .closing then (.invalid, s) else exit s .ok

abbrev machine (P : Params Atom Err σ) : Machine :=
  { State := State σ, Op := Op σ, Out := Out σ, init := init, step := step P }

abbrev Trace (σ : Type) := List (Op σ × Out σ)

end Client

/-! ## `hang serve` -/

namespace Server

/-- A connection, rs/hang-cli/src/server.rs:40-66. -/
inductive Conn where
  /-- in `Session::accept` -/
  | waiting
  | open
  | gone
  deriving DecidableEq

structure State (σ : Type) where
  stage : Stage σ
  conns : List Conn
  over : Bool

inductive Op (σ : Type) where
  | input (e : Event σ)
  /-- `server.accept()` returns a connection or, at the end, none -/
  | incoming (more : Bool)
  /-- `Session::accept` of a connection succeeds or fails -/
  | accept (n : Nat) (ok : Bool)
  /-- a session ends -/
  | closed (n : Nat)
  /-- the web server ends -/
  | web (ok : Bool)
  /-- ctrl-c: there is no handler -/
  | ctrlC
  /-- what a connection sees -/
  | look (n : Nat)
  deriving DecidableEq

inductive Out (σ : Type) where
  | ok
  /-- the number of the connection -/
  | conn (n : Nat)
  | invalid
  /-- the task of a connection panics -/
  | panicked
  /-- the process ends -/
  | exit (e : Exit)
  | shown (x : Option (Option σ))
  deriving DecidableEq

def init : State σ := ⟨.ftyp, [], false⟩

def result (ok : Bool) : Exit := if ok then .ok else .err

def exit (s : State σ) (e : Exit) : Out σ × State σ := (.exit e, { s with over := true })

/-- `server`, rs/hang-cli/src/server.rs:15-38, with `accept` and `publish`. -/
def step (P : Params Atom Err σ) (s : State σ) (op : Op σ) : Out σ × State σ :=
  match op with
  | .look n =>
    (.shown (if !s.over && s.conns[n]? == some .open then some s.stage.imported else none), s)
  | .input e =>
    if s.over then (.invalid, s)
    else
      match publish P s.stage e with
      | .invalid => (.invalid, s)
      | .next st => (.ok, { s with stage := st })
      | .ended ok => exit s (result ok)
  | .incoming more =>
    if s.over then (.invalid, s)
    else if more then (.conn s.conns.length, { s with conns := s.conns ++ [.waiting] })
    else exit s .ok
  | .accept n ok =>
    if s.over || s.conns[n]? != some .waiting then (.invalid, s)
    else if ok then (.ok, { s with conns := s.conns.set n .open })
    else (.panicked, { s with conns := s.conns.set n .gone })
  | .closed n =>
    if s.over || s.conns[n]? != some .open then (.invalid, s)
    else (.ok, { s with conns := s.conns.set n .gone })
  | .web ok => if s.over then (.invalid, s) else exit s (result ok)
  | .ctrlC => if s.over then (.invalid, s) else exit s .killed

abbrev machine (P : Params Atom Err σ) : Machine :=
  { State := State σ, Op := Op σ, Out := Out σ, init := init, step := step P }

abbrev Trace (σ : Type) := List (Op σ × Out σ)

end Server

end Verif.Hang.Cli
