import Verif.Base

/-!
# Model of the catalog of a chat, js/hang/src/publish/chat.ts:28-43

While a `Chat` is enabled, its track is a track of the broadcast and its section is part of the catalog.

What the model takes from the platform (part of the trusted base):
* `memo`, js/signals/src/index.ts:78-90, calls its function once at once, under the root, so that the cleanups of this run are run when
  the root is closed, and then in an effect.  Effects run again, after their cleanups, when a signal that they read has another value,
  before `set` returns.  On `close` the cleanups of effects run before those of the root; nothing runs any more afterwards.
* The broadcast is open, has no other track named `chat.md`, and does not make unknown tracks up.

A reader is a consumer of the track that somebody else has: one that subscribed to it in the broadcast, or the result of `consume()`.
Which of the messages a reader has taken is in `Verif.Js.Chat`; here a message reaches a reader if it is written to the track while the
reader is open.
-/

set_option autoImplicit false

namespace Verif.Js.ChatCatalog

open Verif

structure State where
  created : Bool
  closed : Bool
  enabled : Bool
  ttl : Option Nat
  /-- the memo `catalog`: the time to live, if there is a section -/
  catalog : Option (Option Nat)
  /-- whether the broadcast has the track -/
  present : Bool
  /-- `#consumers` of the track, js/moq/src/util/watch.ts:29 -/
  consumers : Int
  /-- whether the first run of the function, and the last run of the effect, have left a cleanup -/
  first : Bool
  cur : Bool
  /-- the readers that are open, and how many there have been -/
  readers : List Nat
  count : Nat
  deriving DecidableEq, Repr

inductive Op where
  | create (enabled : Bool) (ttl : Option Nat)
  | setEnabled (b : Bool)
  | setTtl (t : Option Nat)
  | close
  /-- `catalog.peek()` -/
  | catalog
  /-- somebody subscribes to the track in the broadcast -/
  | subscribe
  /-- `consume()` -/
  | consume
  /-- a reader is closed -/
  | leave (r : Nat)
  /-- `publish` -/
  | publish
  /-- how many consumers the track has; without any it is `unused` -/
  | consumers
  deriving DecidableEq, Repr

inductive Out where
  | ok
  | catalog (c : Option (Option Nat))
  | reader (r : Option Nat)
  /-- the readers that the message reaches -/
  | sent (l : List Nat)
  | consumers (n : Int)
  | invalid
  deriving DecidableEq, Repr

def init : State := ⟨false, false, false, none, none, false, 0, false, false, [], 0⟩

/-- `broadcast.insertTrack(this.#track.consume())`, js/moq/src/broadcast.ts:48-55: a track that is there is closed. -/
def insertTrack (s : State) : State :=
  { s with consumers := s.consumers + 1 - (if s.present then 1 else 0), present := true }

/-- `broadcast.removeTrack`, js/moq/src/broadcast.ts:61-72. -/
def removeTrack (s : State) : State := if s.present then { s with present := false, consumers := s.consumers - 1 } else s

/-- The function of `catalog`, js/hang/src/publish/chat.ts:34-42. -/
def function (s : State) : Option (Option Nat) × State := if !s.enabled then (none, s) else (some s.ttl, insertTrack s)

/-- The effect of `catalog`, js/signals/src/index.ts:84-87. -/
def effect (s : State) : State :=
  let r := function (if s.cur then removeTrack s else s)
  { r.2 with cur := r.1.isSome, catalog := r.1 }

def step (s : State) (op : Op) : Out × State :=
  match op with
  /- js/hang/src/publish/chat.ts:29-43 -/
  | .create e t =>
    if s.created then (.invalid, s)
    else
      let r := function { s with created := true, enabled := e, ttl := t }
      (.ok, effect { r.2 with first := r.1.isSome })
  | .setEnabled e =>
    if !s.created then (.invalid, s)
    else if s.closed || s.enabled = e then (.ok, { s with enabled := e })
    else (.ok, effect { s with enabled := e })
  /- the effect has read `ttl` only if enabled -/
  | .setTtl t =>
    if !s.created then (.invalid, s)
    else if s.closed || s.ttl = t || !s.enabled then (.ok, { s with ttl := t })
    else (.ok, effect { s with ttl := t })
  /- js/hang/src/publish/chat.ts:84 -/
  | .close =>
    if !s.created then (.invalid, s)
    else
      let s1 := if s.cur then removeTrack s else s
      let s2 := if s1.first then removeTrack s1 else s1
      (.ok, { s2 with closed := true, cur := false, first := false })
  | .catalog => if !s.created then (.invalid, s) else (.catalog s.catalog, s)
  /- js/moq/src/broadcast.ts:143-161 -/
  | .subscribe =>
    if s.present then
      (.reader (some s.count), { s with readers := s.readers ++ [s.count], count := s.count + 1, consumers := s.consumers + 1 })
    else (.reader none, s)
  /- js/hang/src/publish/chat.ts:71-73 -/
  | .consume =>
    if !s.created then (.invalid, s)
    else (.reader (some s.count), { s with readers := s.readers ++ [s.count], count := s.count + 1, consumers := s.consumers + 1 })
  | .leave r =>
    if r ∈ s.readers then (.ok, { s with readers := s.readers.erase r, consumers := s.consumers - 1 }) else (.invalid, s)
  /- js/hang/src/publish/chat.ts:57-59: written to the track, whether enabled or not -/
  | .publish => if !s.created then (.invalid, s) else (.sent s.readers, s)
  | .consumers => if !s.created then (.invalid, s) else (.consumers s.consumers, s)

abbrev machine : Machine := { State := State, Op := Op, Out := Out, init := init, step := step }

abbrev Trace := List (Op × Out)

end Verif.Js.ChatCatalog
