import Verif.Base

/-!
# Model of `js/hang/src/publish/location.ts`

`Location`, js/hang/src/publish/location.ts:17-72, publishes the position of a broadcaster in a track of the broadcast;
`LocationPeer`, js/hang/src/publish/location.ts:74-131, publishes the position of someone with a given handle in another track
of the same broadcast, and lists it in the catalog.

What the model takes from the platform (part of the trusted base):
* `memo`, js/signals/src/index.ts:78-90, calls its function once at once, under the root, so that the cleanups of this run are
  run when the root is closed, and then in an effect.  Effects run again, after their cleanups in reverse order, when a signal
  that they read has another value, before `set` returns.  On `close` the cleanups of effects run before those of the root.
* The broadcast is open, and has no other tracks with these names.
* The signal `#peers` is set to a new object each time, so that the catalog is always made again.

Positions and handles are numbers; a handle is not the empty string, which is like none.  The properties of the constructor
are as if set at once afterwards, except for the handle of a peer.
-/

set_option autoImplicit false

namespace Verif.Js.Locating

open Verif

/-- The names of tracks: `location.json` and `peer/${handle}/location.json`, js/hang/src/publish/location.ts:25 and 96. -/
inductive Name where
  | own
  | peer (h : Nat)
  deriving DecidableEq, Repr

/-- A `TrackProducer`. -/
structure Track where
  name : Name
  /-- which peer created it, and whether in the first run of its memo -/
  made : Option (Nat × Bool)
  open_ : Bool
  /-- the position in the newest group -/
  last : Option Nat
  deriving DecidableEq, Repr

/-- A `LocationPeer`. -/
structure Peer where
  handle : Option Nat
  /-- handle and track of the first run of the memo -/
  first : Option (Nat × Nat)
  /-- handle and track of the last run in the effect; `producer` -/
  cur : Option (Nat × Nat)
  closed : Bool
  deriving DecidableEq, Repr

/-- What a section of the catalog says. -/
structure Section where
  initial : Option Nat
  peering : Option Bool
  peers : Nat → Bool

structure State where
  tracks : List Track
  /-- the tracks of the broadcast -/
  served : Name → Option Nat
  /-- `#peers`: the handles with an entry -/
  listed : Nat → Bool
  enabled : Bool
  current : Option Nat
  peering : Option Bool
  catalog : Option Section
  closed : Bool
  peers : List Peer

inductive Op where
  | enable (b : Bool)
  | current (p : Option Nat)
  | peering (b : Option Bool)
  /-- `peer(handle)` -/
  | peer (h : Option Nat)
  /-- `handle` of a peer is set -/
  | handle (i : Nat) (h : Option Nat)
  /-- `producer.get()?.update(position)` of a peer -/
  | update (i : Nat) (p : Nat)
  /-- `close` of a peer -/
  | leave (i : Nat)
  | close
  deriving DecidableEq, Repr

inductive Out where
  | ok
  /-- there is no producer -/
  | nothing
  | threw
  | invalid
  deriving DecidableEq, Repr

/-- A `Location` that is not enabled. -/
def init : State := ⟨[⟨.own, none, true, none⟩], fun _ => none, fun _ => false, false, none, none, none, false, []⟩

/-- `insertTrack`, js/moq/src/broadcast.ts:46-53. -/
def insert (s : State) (n : Name) (t : Nat) : State := { s with served := fun m => if m = n then some t else s.served m }

/-- `removeTrack`, js/moq/src/broadcast.ts:59-70. -/
def remove (s : State) (n : Name) : State := { s with served := fun m => if m = n then none else s.served m }

def onTrack (s : State) (t : Nat) (f : Track → Track) : State := { s with tracks := s.tracks.modify t f }

def onPeer (s : State) (i : Nat) (f : Peer → Peer) : State := { s with peers := s.peers.modify i f }

/-- The memo `catalog` in its effect, if it is enabled, js/hang/src/publish/location.ts:45-53.  The track is removed and
inserted again. -/
def publish (s : State) : State :=
  if s.closed then s
  else if s.enabled then insert { s with catalog := some ⟨s.current, s.peering, s.listed⟩ } .own 0
  else s

/-- `enabled` is set, js/hang/src/publish/location.ts:42-46. -/
def enable (s : State) (b : Bool) : State :=
  if s.closed ∨ s.enabled = b then { s with enabled := b }
  else if b then publish { s with enabled := true }
  else remove { s with enabled := false, catalog := none } .own

/-- `current` is set, js/hang/src/publish/location.ts:56-60, js/hang/src/container/position.ts:13-23. -/
def current (s : State) (p : Option Nat) : State :=
  let s := { s with current := p }
  if s.closed then s
  else
    match p with
    | none => s
    | some p => onTrack s 0 fun t => { t with last := some p }

/-- `peering` is set, js/hang/src/publish/location.ts:51. -/
def peering (s : State) (b : Option Bool) : State :=
  if s.peering = b then s else publish { s with peering := b }

/-- A run of the memo `producer`, js/hang/src/publish/location.ts:92-125. -/
def run (s : State) (made : Nat × Bool) (h : Option Nat) : State × Option (Nat × Nat) :=
  match h with
  | none => (s, none)
  | some h =>
    let t := s.tracks.length
    let s := insert { s with tracks := s.tracks ++ [⟨.peer h, some made, true, none⟩] } (.peer h) t
    (publish { s with listed := fun x => if x = h then true else s.listed x }, some (h, t))

/-- The cleanups of a run, js/hang/src/publish/location.ts:122, 112-119, 100, 97. -/
def clean (s : State) : Option (Nat × Nat) → State
  | none => s
  | some (h, t) =>
    let s := onTrack s t fun x => { x with open_ := false }
    let s := publish { s with listed := fun x => if x = h then false else s.listed x }
    remove s (.peer h)

/-- The constructor of a peer, js/hang/src/publish/location.ts:83-126. -/
def peer (s : State) (h : Option Nat) : State :=
  let i := s.peers.length
  let (s, first) := run s (i, true) h
  let (s, cur) := run s (i, false) h
  { s with peers := s.peers ++ [⟨h, first, cur, false⟩] }

/-- `handle` of a peer is set, js/hang/src/publish/location.ts:93. -/
def handle (s : State) (i : Nat) (h : Option Nat) : Out × State :=
  match s.peers[i]? with
  | none => (.invalid, s)
  | some p =>
    if p.closed ∨ p.handle = h then (.ok, onPeer s i fun p => { p with handle := h })
    else
      let (s, cur) := run (clean s p.cur) (i, false) h
      (.ok, onPeer s i fun p => { p with handle := h, cur := cur })

/-- `producer.get()?.update(position)`, js/hang/src/container/position.ts:13-23; `appendGroup` throws if the track is closed,
js/moq/src/track.ts:35-45. -/
def update (s : State) (i : Nat) (p : Nat) : Out × State :=
  match s.peers[i]? with
  | none => (.invalid, s)
  | some x =>
    match x.cur with
    | none => (.nothing, s)
    | some (_, t) =>
      if s.tracks[t]?.any (·.open_) then (.ok, onTrack s t fun x => { x with last := some p }) else (.threw, s)

/-- `close` of a peer, js/hang/src/publish/location.ts:128-130. -/
def leave (s : State) (i : Nat) : Out × State :=
  match s.peers[i]? with
  | none => (.invalid, s)
  | some x =>
    if x.closed then (.ok, s)
    else (.ok, onPeer (clean (clean s x.cur) x.first) i fun p => { p with closed := true })

/-- `close`, js/hang/src/publish/location.ts:68-71. -/
def close (s : State) : State :=
  if s.closed then s
  else
    let s := onTrack s 0 fun t => { t with open_ := false }
    let s := if s.enabled then remove s .own else s
    { s with closed := true }

def step (s : State) : Op → Out × State
  | .enable b => (.ok, enable s b)
  | .current p => (.ok, current s p)
  | .peering b => (.ok, peering s b)
  | .peer h => (.ok, peer s h)
  | .handle i h => handle s i h
  | .update i p => update s i p
  | .leave i => leave s i
  | .close => (.ok, close s)

/-- The machine of a location and its peers. -/
abbrev machine : Machine := { State := State, Op := Op, Out := Out, init := init, step := step }

abbrev Trace := List (Op × Out)

end Verif.Js.Locating
