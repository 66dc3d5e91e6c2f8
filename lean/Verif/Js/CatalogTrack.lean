import Verif.Js.Receive

/-!
# Model of the catalog track in `js/hang/src/publish/broadcast.ts`

The class `Broadcast` has a track `catalog.json` for its whole life, js/hang/src/publish/broadcast.ts:41-42 and 60, and
an effect that writes the catalog to it, js/hang/src/publish/broadcast.ts:88 and 193-216, when broadcasting is enabled
and one of the parts changes.

`Catalog.encode`, js/hang/src/catalog/root.ts:22-25, is a parameter: a function of the parts.  Values of signals are
told apart by numbers.  Signals may be set together (`batch`); an effect runs again if a signal that it read in its
last run has another value.  Readers of the track do whatever they like in between, but not within the effect.
-/

set_option autoImplicit false

namespace Verif.Js.CatalogTrack

open Verif Verif.Js

/-- The signals that make up the catalog, js/hang/src/publish/broadcast.ts:197-206. -/
structure Parts where
  audio : Nat
  video : Nat
  location : Nat
  user : Nat
  chat : Nat
  deriving DecidableEq, Repr

structure State where
  enabled : Bool
  parts : Parts
  closed : Bool
  /-- `#catalog` -/
  track : Track.State
  /-- what happened to the track so far -/
  calls : Track.Trace

inductive Op where
  /-- signals are set -/
  | set (enabled : Bool) (parts : Parts)
  /-- `Broadcast.close` -/
  | close
  /-- somebody reads the track -/
  | read (op : Track.Op)

inductive Out where
  /-- the catalog was written -/
  | wrote
  /-- nothing was written -/
  | ok
  /-- `appendGroup` or `writeFrame` threw -/
  | threw
  | reader (o : Track.Out)
  | invalid
  deriving DecidableEq, Repr

/-- Not enabled, js/hang/src/publish/broadcast.ts:49. -/
def init : State := ⟨false, ⟨0, 0, 0, 0, 0⟩, false, Track.init, []⟩

/-- A call of the track. -/
def call (s : State) (op : Track.Op) : State :=
  { s with track := (Track.step s.track op).2, calls := s.calls ++ [(op, (Track.step s.track op).1)] }

/-- The body of the effect if enabled, js/hang/src/publish/broadcast.ts:208-213. -/
def run (enc : Parts → Bytes) (s : State) : Out × State :=
  match (Track.step s.track .append).1 with
  | .group g =>
    let a := call s .append
    match (Track.step a.track (.write g (enc s.parts))).1 with
    | .ok => (.wrote, call (call a (.write g (enc s.parts))) (.closeGroup g))
    | _ => (.threw, call a (.write g (enc s.parts)))
  | _ => (.threw, call s .append)

/-- Has a signal that the effect read another value?  The parts are only read if enabled,
js/hang/src/publish/broadcast.ts:194. -/
def reads (s : State) (enabled : Bool) (parts : Parts) : Bool :=
  enabled != s.enabled || (s.enabled && parts != s.parts)

def step (enc : Parts → Bytes) (s : State) : Op → Out × State
  | .set enabled parts =>
    let s' := { s with enabled := enabled, parts := parts }
    if s.closed = false ∧ reads s enabled parts = true ∧ enabled = true then run enc s' else (.ok, s')
  /- js/hang/src/publish/broadcast.ts:218-224: the track is not closed -/
  | .close => (.ok, { s with closed := true })
  | .read op => if Receive.reads op = true then (.reader (Track.step s.track op).1, call s op) else (.invalid, s)

/-- The machine of the catalog track. -/
abbrev machine (enc : Parts → Bytes) : Machine :=
  { State := State, Op := Op, Out := Out, init := init, step := step enc }

abbrev Trace := List (Op × Out)

end Verif.Js.CatalogTrack
