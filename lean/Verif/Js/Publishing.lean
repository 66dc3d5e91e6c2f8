import Verif.Js.Publisher

/-!
# Model of the publishing effect of `Broadcast`, js/hang/src/publish/broadcast.ts:62-80

The effect publishes the broadcast on the connection while it is enabled.  It runs again when `enabled`, the connection or the path
changes, after its cleanups.

What the model takes from elsewhere (part of the trusted base): an effect of solid-js runs again, at once, when a signal that it has read
is set to another value, and its cleanups run before and when the root is closed.  The effect reads `enabled` first, then the connection,
then the path; a run that stops early does not depend on the rest, and would do nothing if it ran again.  Setting signals in a `batch` is
one step for the effect; here every signal is set on its own.

Every connection has a `Verif.Js.Publisher`; the consumer of the broadcast that is made for a publication is a number.
-/

set_option autoImplicit false

namespace Verif.Js.Publishing

open Verif

export Verif.Js.Announced (Str)

structure State where
  enabled : Bool
  /-- `connection.established` -/
  established : Option Nat
  path : Str
  /-- the root is closed -/
  closed : Bool
  /-- how many connections there have been -/
  count : Nat
  conns : Nat → Publisher.State
  /-- how many consumers have been made -/
  made : Nat
  /-- what the cleanups of the effect refer to: connection, path and consumer -/
  current : Option (Nat × Str × Nat)
  /-- `#published` -/
  published : Bool

inductive Op where
  | setEnabled (b : Bool)
  | setPath (p : Str)
  /-- a new connection is established, or the connection is lost -/
  | connection (up : Bool)
  | close
  /-- the continuation of a call of `#runPublish` of a connection -/
  | run (c t : Nat)
  /-- the lookup of a path at a connection, for a subscription -/
  | lookup (c : Nat) (p : Str)
  /-- `published.peek()` -/
  | published
  deriving DecidableEq

inductive Out where
  | ok
  /-- `connection.publish` was called: connection, path and consumer -/
  | publish (c : Nat) (p : Str) (b : Nat)
  /-- the publication was taken back: connection, path and consumer -/
  | ended (c : Nat) (p : Str) (b : Nat)
  | found (b : Option Nat)
  | flag (b : Bool)
  | invalid
  deriving DecidableEq

/-- js/hang/src/publish/broadcast.ts:41-50; nothing is enabled yet. -/
def init : State := ⟨false, none, [], false, 0, fun _ => Publisher.init, 0, none, false⟩

/-- A step of the publisher of a connection. -/
def at_ (s : State) (c : Nat) (op : Publisher.Op) : State :=
  { s with conns := fun i => if i = c then (Publisher.step (s.conns i) op).2 else s.conns i }

/-- The cleanups, js/hang/src/publish/broadcast.ts:75 and 79. -/
def cleanups (s : State) : State :=
  match s.current with
  | none => s
  | some (c, _, b) => { at_ s c (.over b) with current := none, published := false }

/-- The effect, js/hang/src/publish/broadcast.ts:62-80. -/
def body (s : State) : Out × State :=
  if !s.enabled then (.ok, s)
  else
    match s.established with
    | none => (.ok, s)
    | some c =>
      (.publish c s.path s.made,
        { at_ s c (.publish s.path s.made) with made := s.made + 1, current := some (c, s.path, s.made), published := true })

/-- A signal has changed. -/
def rerun (s : State) : Out × State := if s.closed then (.ok, s) else body (cleanups s)

def step (s : State) (op : Op) : Out × State :=
  match op with
  | .setEnabled b => if s.enabled = b then (.ok, s) else rerun { s with enabled := b }
  | .setPath p => if s.path = p then (.ok, s) else rerun { s with path := p }
  | .connection true => rerun { s with established := some s.count, count := s.count + 1 }
  | .connection false => if s.established = none then (.ok, s) else rerun { s with established := none }
  /- js/hang/src/publish/broadcast.ts:218-219, as far as the effect is concerned -/
  | .close => if s.closed then (.ok, s) else (.ok, { cleanups s with closed := true })
  | .run c t =>
    match (s.conns c).tasks[t]? with
    | none => (.invalid, s)
    | some k =>
      match (Publisher.step (s.conns c) (.run t)).1 with
      | .ended p => (.ended c p k.broadcast, at_ s c (.run t))
      | _ => (.invalid, s)
  | .lookup c p => (.found (Publisher.get (s.conns c).broadcasts p), s)
  | .published => (.flag s.published, s)

abbrev machine : Machine := { State := State, Op := Op, Out := Out, init := init, step := step }

abbrev Trace := List (Op × Out)

end Verif.Js.Publishing
