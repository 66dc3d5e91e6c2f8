import Verif.Base

/-!
# Model of `js/hang/src/watch/location.ts`

`Location`, js/hang/src/watch/location.ts:10-93, shows the position of a broadcaster; `LocationPeer`,
js/hang/src/watch/location.ts:112-167, the position that a broadcaster has for someone with a given handle.  Both subscribe
to a track of positions and have a loop that reads them, `runConsumer`, js/hang/src/watch/location.ts:95-110.

What the model takes from the platform (part of the trusted base):
* Effects run when a signal that they read has another value, before `set` returns, after their cleanups in reverse order.
  The memos compare deeply (33-39, 52-66, 129-143).  One signal is set at a time.
* `consumer.next()` settles once, at any later time, if ever, and the loop continues at any time after that.  What it settles
  with is up to the network; `undefined` also if the consumer was closed.

Positions, tracks and handles are numbers; so are broadcasts, which are compared by identity.
-/

set_option autoImplicit false

namespace Verif.Js.Location

open Verif

/-- `Location` or `LocationPeer`. -/
inductive Kind where
  | own
  | peer
  deriving DecidableEq, Repr

/-- The section of the catalog, js/hang/src/catalog/location.ts; other fields are `rest`. -/
structure Section where
  initial : Option Nat
  updates : Option Nat
  /-- handles and tracks -/
  peers : List (Nat × Nat)
  rest : Nat
  deriving DecidableEq, Repr

/-- The signals that are read; `handle` only by a `LocationPeer`. -/
structure Sig where
  enabled : Bool
  catalog : Option Section
  broadcast : Option Nat
  handle : Option Nat
  deriving DecidableEq, Repr

/-- What `consumer.next()` settles with. -/
inductive Next where
  | position (p : Nat)
  | done
  | rejected
  deriving DecidableEq, Repr

inductive Loop where
  | waiting
  /-- the promise is settled, the loop has not continued yet -/
  | ready (n : Next)
  | over
  deriving DecidableEq, Repr

/-- A subscription with its loop. -/
structure Item where
  track : Nat
  broadcast : Nat
  /-- the subscription is open -/
  sub : Bool
  loop : Loop
  deriving DecidableEq, Repr

structure State where
  sig : Sig
  items : List Item
  /-- what the last run of the effect started -/
  active : Option Nat
  /-- `#current`, or `location` of a `LocationPeer` -/
  current : Option Nat
  closed : Bool
  deriving DecidableEq, Repr

inductive Op where
  | enable (b : Bool)
  | catalog (c : Option Section)
  | broadcast (b : Option Nat)
  | handle (h : Option Nat)
  | settle (i : Nat) (n : Next)
  /-- a loop continues -/
  | go (i : Nat)
  | close
  deriving DecidableEq, Repr

inductive Out where
  | ok
  | warned
  | invalid
  deriving DecidableEq, Repr

/-- Not enabled, without catalog and broadcast. -/
def init : State := ⟨⟨false, none, none, none⟩, [], none, none, false⟩

/-- The memo `catalog`, js/hang/src/watch/location.ts:33-39. -/
def part (g : Sig) : Option Section := if g.enabled then g.catalog else none

/-- The memos `#updates` (without the check of the broadcast), js/hang/src/watch/location.ts:57-63, and `#track`,
js/hang/src/watch/location.ts:130-141.  The handle is not the empty string, which is like none. -/
def track (k : Kind) (g : Sig) : Option Nat :=
  match k, part g with
  | _, none => none
  | .own, some c => c.updates
  | .peer, some c =>
    match g.handle with
    | none => none
    | some h => c.peers.lookup h

/-- What the effect that subscribes depends on, js/hang/src/watch/location.ts:69-73 and 151-155. -/
def key (k : Kind) (g : Sig) : Option (Nat × Option Nat) :=
  match g.broadcast with
  | none => none
  | some b => some (b, track k g)

def onItem (s : State) (i : Nat) (f : Item → Item) : State := { s with items := s.items.modify i f }

/-- The cleanups of the effect, js/hang/src/watch/location.ts:76-79, and 149 and 158. -/
def cleanup (k : Kind) (s : State) : State :=
  let s :=
    match s.active with
    | some i => { onItem s i fun x => { x with sub := false } with active := none }
    | none => s
  match k with
  | .own => s
  | .peer => { s with current := none }

/-- The effect that subscribes, js/hang/src/watch/location.ts:68-82 and 148-162. -/
def start (k : Kind) (s : State) : State :=
  match key k s.sig with
  | some (b, some t) => { s with items := s.items ++ [⟨t, b, true, .waiting⟩], active := some s.items.length }
  | _ => s

/-- The effect that shows the initial position, js/hang/src/watch/location.ts:42-50. -/
def showInitial (k : Kind) (s : State) : State :=
  match k with
  | .own =>
    match (part s.sig).bind (·.initial) with
    | some p => { s with current := some p }
    | none => s
  | .peer => s

/-- A signal is set and the effects run. -/
def set (k : Kind) (s : State) (g : Sig) : State :=
  if s.closed then { s with sig := g }
  else
    let s' := if part g = part s.sig then { s with sig := g } else showInitial k { s with sig := g }
    if key k g = key k s.sig then s' else start k (cleanup k s')

def settle (s : State) (i : Nat) (n : Next) : Out × State :=
  match s.items[i]? with
  | some x => if x.loop = .waiting then (.ok, onItem s i fun x => { x with loop := .ready n }) else (.invalid, s)
  | none => (.invalid, s)

/-- The end of the loop, js/hang/src/watch/location.ts:108. -/
def finish (x : Item) : Item := { x with loop := .over, sub := false }

/-- `runConsumer`, js/hang/src/watch/location.ts:95-110. -/
def go (s : State) (i : Nat) : Out × State :=
  match s.items[i]? with
  | none => (.invalid, s)
  | some x =>
    match x.loop with
    | .ready (.position p) => (.ok, { onItem s i fun x => { x with loop := .waiting } with current := some p })
    | .ready .done => (.ok, { onItem s i finish with current := none })
    | .ready .rejected => (.warned, onItem s i finish)
    | _ => (.invalid, s)

/-- `close`, js/hang/src/watch/location.ts:90-92 and 164-166. -/
def close (k : Kind) (s : State) : State :=
  if s.closed then s else { cleanup k s with closed := true }

def step (k : Kind) (s : State) : Op → Out × State
  | .enable b => (.ok, set k s { s.sig with enabled := b })
  | .catalog c => (.ok, set k s { s.sig with catalog := c })
  | .broadcast b => (.ok, set k s { s.sig with broadcast := b })
  | .handle h => (.ok, set k s { s.sig with handle := h })
  | .settle i n => settle s i n
  | .go i => go s i
  | .close => (.ok, close k s)

/-- The machine of a location that is shown. -/
abbrev machine (k : Kind) : Machine := { State := State, Op := Op, Out := Out, init := init, step := step k }

abbrev Trace := List (Op × Out)

end Verif.Js.Location
