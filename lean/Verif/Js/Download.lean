import Verif.Base

/-!
# Model of downloading media in `js/hang/src/watch/audio.ts` and `js/hang/src/watch/video.ts`

The effect `#init` of `Audio`, js/hang/src/watch/audio.ts:174-215, and of `Video`, js/hang/src/watch/video.ts:178-249:
while the player is enabled, a track is selected and there is a broadcast, it subscribes to the track and has a loop that
passes the frames to a decoder.  The two differ in how they end: `Audio` registers cleanups, `Video` returns a function,
which `effect` ignores, js/signals/src/index.ts:92-100.

What the model takes from the platform (part of the trusted base):
* `sub.nextFrame()` settles once, at any later time, if ever, and the loop continues at any time after that.  What it
  settles with is up to the network, also after the subscription was closed.
* A decoder may fail at any time until it is closed; then it is closed before the error callback is called.  `decode()` and
  `close()` of a closed decoder throw.
* Signals may be set together (`batch`).  An effect runs again if a signal that it read in its last run has another value,
  after its cleanups.  Cleanups run in reverse order, and if one throws the rest do not run.  Whether the effect runs again
  after that, then or ever, is left open (`again`).

`selected` is compared by value, broadcasts by identity; both are numbers here.  `decoder.configure` does not throw,
and `decode()` of an open decoder neither (for a delta frame before any key frame it would).
-/

set_option autoImplicit false

namespace Verif.Js.Download

open Verif

inductive Kind where
  | audio
  | video
  deriving DecidableEq, Repr

/-- The signals `enabled`, `selected` and `broadcast`. -/
structure Sig where
  enabled : Bool
  selected : Option Nat
  broadcast : Option Nat
  deriving DecidableEq, Repr

/-- What `sub.nextFrame()` settles with. -/
inductive Next where
  /-- a frame: its number in the group, and its data -/
  | frame (index data : Nat)
  /-- a frame that `decodeFrame` throws on -/
  | garbage
  | done
  | rejected
  deriving DecidableEq, Repr

inductive Loop where
  | waiting
  /-- the promise is settled, the loop has not continued yet -/
  | ready (n : Next)
  | over
  deriving DecidableEq, Repr

/-- What a run of `#init` starts. -/
structure Item where
  track : Nat
  broadcast : Nat
  /-- the subscription is open -/
  sub : Bool
  /-- the decoder is open -/
  decoder : Bool
  loop : Loop
  deriving DecidableEq, Repr

structure State where
  sig : Sig
  items : List Item
  /-- what the last run of the effect started -/
  current : Option Nat
  /-- a cleanup threw and the effect does not run any more -/
  broken : Bool
  closed : Bool
  deriving DecidableEq, Repr

inductive Op where
  /-- signals are set; does the effect run again if its cleanup throws? -/
  | set (sig : Sig) (again : Bool)
  | settle (i : Nat) (n : Next)
  /-- a loop continues -/
  | go (i : Nat)
  /-- a decoder fails -/
  | fail (i : Nat)
  | close
  deriving DecidableEq, Repr

inductive Out where
  | ok
  /-- a cleanup threw -/
  | threw
  /-- a chunk is passed to the decoder -/
  | fed (i data : Nat) (key : Bool)
  /-- a loop has ended, as the track has -/
  | ended (i : Nat)
  /-- a loop has ended by an error, which is logged -/
  | warned (i : Nat)
  /-- and which nobody handles -/
  | unhandled (i : Nat)
  | invalid
  deriving DecidableEq, Repr

/-- Without broadcast and catalog, js/hang/src/watch/audio.ts:122-129 and js/hang/src/watch/video.ts:162-169. -/
def init : State := ⟨⟨false, none, none⟩, [], none, false, false⟩

/-- What to download, js/hang/src/watch/audio.ts:175-181 and js/hang/src/watch/video.ts:179-186. -/
def want (g : Sig) : Option (Nat × Nat) :=
  if g.enabled then
    match g.selected, g.broadcast with
    | some t, some b => some (t, b)
    | _, _ => none
  else none

/-- js/hang/src/watch/audio.ts:183-199 and js/hang/src/watch/video.ts:189-222. -/
def start (s : State) : State :=
  match want s.sig with
  | some (t, b) => { s with items := s.items ++ [⟨t, b, true, true, .waiting⟩], current := some s.items.length }
  | none => { s with current := none }

def onItem (s : State) (i : Nat) (f : Item → Item) : State := { s with items := s.items.modify i f }

/-- Does the cleanup throw? -/
def throws (k : Kind) (s : State) : Bool :=
  match k, s.current with
  | .audio, some i =>
    match s.items[i]? with
    | some x => !x.decoder
    | none => false
  | _, _ => false

/-- The cleanups, js/hang/src/watch/audio.ts:190 and 184; there is none in js/hang/src/watch/video.ts. -/
def cleanup (k : Kind) (s : State) : State :=
  match k, s.current with
  | .audio, some i => if throws k s then s else onItem s i fun x => { x with sub := false, decoder := false }
  | _, _ => s

def set (k : Kind) (s : State) (g : Sig) (again : Bool) : Out × State :=
  if want g = want s.sig ∨ s.closed = true ∨ s.broken = true then (.ok, { s with sig := g })
  else if throws k s then
    if again then (.threw, start { s with sig := g }) else (.threw, { s with sig := g, broken := true })
  else (.ok, start { cleanup k s with sig := g })

/-- `close`, js/hang/src/watch/audio.ts:320-322 and js/hang/src/watch/video.ts:279-285; a second one does nothing. -/
def close (k : Kind) (s : State) : Out × State :=
  if s.closed then (.ok, s)
  else (if throws k s then .threw else .ok, { cleanup k s with closed := true, current := none })

/-- The loop ends: js/hang/src/watch/video.ts:240-242 closes the subscription, js/hang/src/watch/audio.ts does not. -/
def finish (k : Kind) (x : Item) : Item :=
  match k with
  | .audio => { x with loop := .over }
  | .video => { x with loop := .over, sub := false }

/-- An exception in the loop, js/hang/src/watch/audio.ts:199-214 and js/hang/src/watch/video.ts:238-239. -/
def error (k : Kind) (i : Nat) : Out :=
  match k with
  | .audio => .unhandled i
  | .video => .warned i

/-- The `type` of a chunk, js/hang/src/watch/audio.ts:207 and js/hang/src/watch/video.ts:231. -/
def isKey (k : Kind) (index : Nat) : Bool :=
  match k with
  | .audio => true
  | .video => index == 0

/-- js/hang/src/watch/audio.ts:200-213 and js/hang/src/watch/video.ts:224-242. -/
def go (k : Kind) (s : State) (i : Nat) : Out × State :=
  match s.items[i]? with
  | none => (.invalid, s)
  | some x =>
    match x.loop with
    | .ready (.frame j d) =>
      if x.decoder then (.fed i d (isKey k j), onItem s i fun x => { x with loop := .waiting })
      else (error k i, onItem s i (finish k))
    | .ready .done => (.ended i, onItem s i (finish k))
    | .ready _ => (error k i, onItem s i (finish k))
    | _ => (.invalid, s)

def settle (s : State) (i : Nat) (n : Next) : Out × State :=
  match s.items[i]? with
  | some x => if x.loop = .waiting then (.ok, onItem s i fun x => { x with loop := .ready n }) else (.invalid, s)
  | none => (.invalid, s)

/-- An error of a decoder, js/hang/src/watch/audio.ts:188 and js/hang/src/watch/video.ts:208-211. -/
def fail (k : Kind) (s : State) (i : Nat) : Out × State :=
  match s.items[i]? with
  | none => (.invalid, s)
  | some x =>
    if x.decoder then
      let s := onItem s i fun x => { x with decoder := false }
      match k with
      | .audio => (.ok, s)
      | .video => (.ok, (close k s).2)
    else (.invalid, s)

def step (k : Kind) (s : State) : Op → Out × State
  | .set g again => set k s g again
  | .settle i n => settle s i n
  | .go i => go k s i
  | .fail i => fail k s i
  | .close => close k s

/-- The machine of the downloads of a player. -/
abbrev machine (k : Kind) : Machine := { State := State, Op := Op, Out := Out, init := init, step := step k }

abbrev Trace := List (Op × Out)

end Verif.Js.Download
