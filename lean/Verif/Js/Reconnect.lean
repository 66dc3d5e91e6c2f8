import Verif.Base

/-!
# Model of `js/hang/src/connection.ts`

`Connection` keeps a connection to a relay: it connects when it has a URL, and again after failures.

`#connect` is an effect of the signals `url` and `#tick`: it runs again, after its cleanup functions,
when `set` changes one of them, and not after `close`.  The asynchronous part of a run is an
*attempt*; the outcome of `Moq.Connection.connect` and of `closed` arrive at any later time.  A URL is
given to the constructor, or set later; here it is always set (the first run of the effect without a URL
does nothing).
-/

set_option autoImplicit false

namespace Verif.Js.Reconnect

open Verif

/-- The options, js/hang/src/connection.ts:4-19. -/
structure Cfg where
  reload : Bool
  delay : Nat
  maxDelay : Nat
  deriving DecidableEq, Repr

/-- `ConnectionStatus`, js/hang/src/connection.ts:21, where WebTransport is supported. -/
inductive Status where
  | connecting
  | connected
  | disconnected
  deriving DecidableEq, Repr

/-- How far an attempt is, js/hang/src/connection.ts:66-92. -/
inductive Phase where
  | connecting
  /-- waits for `closed` -/
  | opened
  | over
  deriving DecidableEq, Repr

/-- `Connection`, js/hang/src/connection.ts:23-36.  A connection has the number of its attempt. -/
structure State where
  url : Option Nat
  status : Status
  established : Option Nat
  tick : Nat
  /-- `#delay` -/
  delay : Nat
  /-- whether the last run of the effect registered its cleanup functions -/
  running : Bool
  closed : Bool
  attempts : List Phase
  /-- the timers: the tick to set, and whether it has fired -/
  timers : List (Nat × Bool)
  deriving DecidableEq, Repr

inductive Op where
  /-- `url.set` -/
  | setUrl (u : Option Nat)
  /-- `Moq.Connection.connect` returns, or throws -/
  | connected (a : Nat)
  | failed (a : Nat)
  /-- `closed` of a connection returns, or throws -/
  | ended (a : Nat) (clean : Bool)
  | fire (k : Nat)
  | close
  deriving DecidableEq, Repr

inductive Out where
  | ok
  /-- the effect was cleaned up, and closed this connection; it ran again, and made an attempt with a URL -/
  | ran (shut : Option Nat) (started : Option (Nat × Nat))
  /-- a timer is set -/
  | retry (k wait : Nat)
  | gaveUp
  | invalid
  deriving DecidableEq, Repr

def init (cfg : Cfg) : State := ⟨none, .disconnected, none, 0, cfg.delay, false, false, [], []⟩

/-- The cleanup functions, js/hang/src/connection.ts:64 and 94-99. -/
def cleanup (s : State) : Option Nat × State :=
  if s.running then
    (s.established, { s with
      status := .disconnected
      established := none
      running := false })
  else (none, s)

/-- The effect runs again: `#connect`, js/hang/src/connection.ts:56-100. -/
def run (s : State) : Out × State :=
  let (shut, s) := cleanup s
  match s.url with
  | none => (.ran shut none, s)
  | some u => (.ran shut (some (s.attempts.length, u)), { s with
      status := .connecting
      running := true
      attempts := s.attempts ++ [.connecting] })

/-- The `catch` block, js/hang/src/connection.ts:76-91. -/
def handle (cfg : Cfg) (s : State) : Out × State :=
  let s := { s with
    established := none
    status := .disconnected }
  if cfg.reload then
    (.retry s.timers.length s.delay, { s with
      timers := s.timers ++ [(s.tick + 1, false)]
      delay := min (s.delay * 2) cfg.maxDelay })
  else (.gaveUp, s)

/-- An attempt goes on. -/
def advance (s : State) (a : Nat) (p : Phase) : State := { s with attempts := s.attempts.set a p }

def step (cfg : Cfg) (s : State) : Op → Out × State
  | .setUrl u =>
    if u = s.url then (.ok, s)
    else if s.closed then (.ok, { s with url := u })
    else run { s with url := u }
  /- js/hang/src/connection.ts:68-75 -/
  | .connected a =>
    if s.attempts[a]? = some .connecting then
      (.ok, { advance s a .opened with
        established := some a
        status := .connected
        delay := cfg.delay })
    else (.invalid, s)
  | .failed a =>
    if s.attempts[a]? = some .connecting then handle cfg (advance s a .over) else (.invalid, s)
  | .ended a clean =>
    if s.attempts[a]? = some .opened then
      if clean then (.ok, advance s a .over) else handle cfg (advance s a .over)
    else (.invalid, s)
  /- js/hang/src/connection.ts:85-87 -/
  | .fire k =>
    match s.timers[k]? with
    | some (t, false) =>
      let s := { s with timers := s.timers.set k (t, true) }
      if s.tick < t then
        if s.closed then (.ok, { s with tick := t }) else run { s with tick := t }
      else (.ok, s)
    | _ => (.invalid, s)
  /- js/hang/src/connection.ts:102-104 -/
  | .close =>
    if s.closed then (.ok, s)
    else
      let (shut, s) := cleanup s
      (.ran shut none, { s with closed := true })

/-- The machine of a reconnecting connection. -/
abbrev machine (cfg : Cfg) : Machine :=
  { State := State, Op := Op, Out := Out, init := init cfg, step := step cfg }

/-! ## Vocabulary of histories -/

abbrev Trace := List (Op × Out)

/-- The attempts that were made, with their URLs. -/
def started (tr : Trace) : List (Nat × Nat) :=
  tr.filterMap fun e =>
    match e.2 with
    | .ran _ st => st
    | _ => none

/-- The URL that was set last. -/
def url (tr : Trace) : Option Nat :=
  tr.foldl (fun u e =>
    match e.1 with
    | .setUrl u => u
    | _ => u) none

/-- The attempt of the last run of the effect, if it is not cleaned up. -/
def latest (tr : Trace) : Option Nat :=
  tr.foldl (fun a e =>
    match e.2 with
    | .ran _ st => st.map (·.1)
    | _ => a) none

/-- `close` was called. -/
def Closed (tr : Trace) : Prop := ∃ o, (.close, o) ∈ tr

/-- The attempt gave a connection. -/
def Connected (tr : Trace) (a : Nat) : Prop := (.connected a, .ok) ∈ tr

/-- The attempt did not, or its connection is over; with or without an exception. -/
def Failed (tr : Trace) (a : Nat) : Prop :=
  ∃ o, o ≠ .invalid ∧ ((.failed a, o) ∈ tr ∨ (.ended a false, o) ∈ tr)

/-- The connection ended without an exception. -/
def Finished (tr : Trace) (a : Nat) : Prop := (.ended a true, .ok) ∈ tr

/-- `close` of the connection was called. -/
def Shut (tr : Trace) (a : Nat) : Prop := ∃ op st, (op, .ran (some a) st) ∈ tr

/-- There is a connection, which is not over and which nobody closed. -/
def Open (tr : Trace) (a : Nat) : Prop := Connected tr a ∧ ¬ Failed tr a ∧ ¬ Finished tr a ∧ ¬ Shut tr a

/-- A timer was set. -/
def Set (tr : Trace) (k : Nat) : Prop := ∃ op wait, (op, .retry k wait) ∈ tr

/-- And has fired. -/
def Fired (tr : Trace) (k : Nat) : Prop := ∃ o, o ≠ .invalid ∧ (.fire k, o) ∈ tr

/-- The attempt that an event is about, except for a connection that ends without an exception. -/
def subject : Op × Out → Option Nat
  | (.connected a, .ok) => some a
  | (.failed a, .retry _ _) | (.failed a, .gaveUp) => some a
  | (.ended a false, .retry _ _) | (.ended a false, .gaveUp) => some a
  | _ => none

/-- Outcomes arrive only for the latest attempt. -/
def Calm (tr : Trace) : Prop :=
  ∀ before e after a, tr = before ++ e :: after → subject e = some a → latest before = some a

/-- The failures since the last success. -/
def failures (tr : Trace) : Nat :=
  tr.foldl (fun n e =>
    match e with
    | (.connected _, .ok) => 0
    | (_, .retry _ _) => n + 1
    | _ => n) 0

/-- The delay after a failure that follows on `n` others. -/
def backoff (cfg : Cfg) (n : Nat) : Nat := if n = 0 then cfg.delay else min (cfg.delay * 2 ^ n) cfg.maxDelay

end Verif.Js.Reconnect
