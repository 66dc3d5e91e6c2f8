import Verif.Base

/-!
# Model of `js/hang/src/watch/chat.ts`

`Chat`, js/hang/src/watch/chat.ts:14-64, subscribes to the track of the chat that the catalog of a broadcast names.

What the model takes from the platform (part of the trusted base):
* `memo`, js/signals/src/index.ts:78-90, calls its function once at once, under the root, so that the cleanups of this run are run when
  the root is closed, and then in an effect.  Effects run again, after their cleanups, when a signal that they read has another value,
  before `set` returns.  On `close` the cleanups of effects run before those of the root; nothing runs any more afterwards.
* The broadcasts are open, so that `subscribe` does not throw.

Names, priorities and broadcasts are numbers.  Whatever else a catalog says does not matter here: `setCatalog` sets a new catalog with the
given section for the chat.  Consumers are numbered in the order in which they are made.
-/

set_option autoImplicit false

namespace Verif.Js.WatchChat

open Verif

/-- `Catalog.Chat`, js/hang/src/catalog/chat.ts. -/
structure Section where
  name : Nat
  priority : Nat
  ttl : Option Nat
  deriving DecidableEq, Repr

/-- What a subscription is to. -/
structure Target where
  broadcast : Nat
  name : Nat
  priority : Nat
  deriving DecidableEq, Repr

/-- What the broadcasts see. -/
inductive Event where
  /-- `broadcast.subscribe`; the number is that of the consumer -/
  | subscribe (i : Nat) (t : Target)
  /-- `consumer.close()` -/
  | closed (i : Nat)
  deriving DecidableEq, Repr

structure State where
  created : Bool
  closed : Bool
  enabled : Bool
  /-- the section of the catalog given to the constructor -/
  root : Option Section
  broadcast : Option Nat
  /-- the memo `catalog` -/
  catalog : Option Section
  /-- how many consumers have been made -/
  count : Nat
  /-- the consumer made in the first run of the function of `track`, under the root -/
  first : Option (Nat × Target)
  /-- the consumer made in the last run of the effect -/
  cur : Option (Nat × Target)
  /-- the memo `track` -/
  track : Option Nat
  deriving DecidableEq, Repr

inductive Op where
  | create (enabled : Bool) (root : Option Section) (broadcast : Option Nat)
  | setEnabled (b : Bool)
  | setCatalog (c : Option Section)
  | setBroadcast (b : Option Nat)
  | close
  /-- `track.peek()` -/
  | track
  /-- `ttl.peek()` -/
  | ttl
  deriving DecidableEq, Repr

inductive Out where
  | events (l : List Event)
  | track (i : Option Nat)
  | ttl (t : Option Nat)
  | invalid
  deriving DecidableEq, Repr

def init : State := ⟨false, false, false, none, none, none, 0, none, none, none⟩

/-- The function of `catalog`, js/hang/src/watch/chat.ts:33-36. -/
def chosen (s : State) : Option Section := if !s.enabled then none else s.root

/-- The function of `track`, js/hang/src/watch/chat.ts:45-57, without the cleanup. -/
def subscribe (s : State) : Option (Nat × Target) :=
  match s.catalog with
  | none => none
  | some c =>
    match s.broadcast with
    | none => none
    | some b => some (s.count, ⟨b, c.name, c.priority⟩)

/-- The events of making a consumer. -/
def opens : Option (Nat × Target) → List Event
  | none => []
  | some (i, t) => [.subscribe i t]

/-- The events of the cleanup, js/hang/src/watch/chat.ts:55. -/
def closes : Option (Nat × Target) → List Event
  | none => []
  | some (i, _) => [.closed i]

/-- Whether a consumer was made. -/
def used : Option (Nat × Target) → Nat
  | none => 0
  | some _ => 1

/-- The effect of `track`: the cleanup, then the function, js/signals/src/index.ts:84-87. -/
def effect (s : State) : Out × State :=
  let r := subscribe s
  (.events (closes s.cur ++ opens r), { s with cur := r, track := r.map (·.1), count := s.count + used r })

/-- The effect of `catalog`, js/hang/src/watch/chat.ts:32-38: sections that are deeply equal are the same. -/
def refresh (s : State) : Out × State :=
  if chosen s = s.catalog then (.events [], s) else effect { s with catalog := chosen s }

def step (s : State) (op : Op) : Out × State :=
  match op with
  /- js/hang/src/watch/chat.ts:24-58: the first run of the function of `track`, and then the effect -/
  | .create e r b =>
    if s.created then (.invalid, s)
    else
      let s1 := { s with created := true, enabled := e, root := r, broadcast := b }
      let s2 := { s1 with catalog := chosen s1 }
      let f := subscribe s2
      match effect { s2 with first := f, count := s2.count + used f } with
      | (.events l, s3) => (.events (opens f ++ l), s3)
      | x => x
  | .setEnabled e =>
    if !s.created then (.invalid, s)
    else if s.closed then (.events [], { s with enabled := e })
    else refresh { s with enabled := e }
  | .setCatalog c =>
    if !s.created then (.invalid, s)
    else if s.closed then (.events [], { s with root := c })
    else refresh { s with root := c }
  | .setBroadcast b =>
    if !s.created then (.invalid, s)
    else if s.closed || s.broadcast = b then (.events [], { s with broadcast := b })
    else effect { s with broadcast := b }
  /- js/hang/src/watch/chat.ts:60-62 -/
  | .close =>
    if !s.created then (.invalid, s)
    else (.events (closes s.cur ++ closes s.first), { s with closed := true, cur := none, first := none })
  | .track => if !s.created then (.invalid, s) else (.track s.track, s)
  /- js/hang/src/watch/chat.ts:41-43 -/
  | .ttl => if !s.created then (.invalid, s) else (.ttl (s.catalog.bind (·.ttl)), s)

abbrev machine : Machine := { State := State, Op := Op, Out := Out, init := init, step := step }

abbrev Trace := List (Op × Out)

end Verif.Js.WatchChat
