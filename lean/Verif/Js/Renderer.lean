import Verif.Base

/-!
# Model of `VideoRenderer` in `js/hang/src/watch/video.ts`

`VideoRenderer`, js/hang/src/watch/video.ts:13-135, draws the frames of a video player on a canvas, once per animation frame
while there is a canvas and it is not paused, and tells the player to download while the canvas is visible.

What the model takes from the platform (part of the trusted base):
* Effects run when a signal that they read has another value, before `set` (or the `batch` around it) returns, after their
  cleanups in reverse order.  So `#ctx` is up to date in between calls.
* `getContext` gives the same context, or none, for the same canvas each time (`ctxOf`); a canvas is a number.
* `requestAnimationFrame` returns numbers that are not 0 and not used twice; the callback is called once, at any later time,
  unless it was cancelled.
* An `IntersectionObserver` queues entries while it is connected, and calls the callback with all of them at any later time.
  What `disconnect()` does with queued entries is left open: they are dropped, or delivered nevertheless (`late`).
-/

set_option autoImplicit false

namespace Verif.Js.Renderer

open Verif

/-- What differs from browser to browser. -/
structure Env where
  /-- is there a 2d context for a canvas? -/
  ctxOf : Nat → Bool
  /-- are entries delivered that were queued before `disconnect()`? -/
  late : Bool

structure Observer where
  canvas : Nat
  connected : Bool
  queue : List Bool
  deriving DecidableEq, Repr

structure State where
  canvas : Option Nat
  paused : Bool
  /-- `#ctx`, by the canvas that it is for -/
  ctx : Option Nat
  /-- `#animate` -/
  animate : Option Nat
  /-- the callbacks that the browser is going to call -/
  scheduled : List Nat
  /-- the next number that `requestAnimationFrame` returns -/
  next : Nat
  observers : List Observer
  /-- `source.enabled` -/
  enabled : Bool
  closed : Bool
  deriving DecidableEq, Repr

inductive Op where
  /-- the signals `canvas` and `paused` are set -/
  | set (canvas : Option Nat) (paused : Bool)
  /-- the browser calls a callback -/
  | render (id : Nat)
  /-- the browser sees a canvas, or does not any more -/
  | entry (i : Nat) (visible : Bool)
  /-- the browser calls the callback of an observer -/
  | notify (i : Nat)
  | close
  deriving DecidableEq, Repr

inductive Out where
  | ok
  /-- the current frame of the source is drawn on a canvas -/
  | drew (canvas : Nat)
  /-- "scheduled without a canvas" -/
  | threw
  | invalid
  deriving DecidableEq, Repr

/-- The constructor without properties, js/hang/src/watch/video.ts:28-38; those given are as if set at once. -/
def init : State := ⟨none, false, none, none, [], 1, [], false, false⟩

/-- `#ctx`, js/hang/src/watch/video.ts:33-35. -/
def context (e : Env) (canvas : Option Nat) : Option Nat := canvas.filter e.ctxOf

/-- `#schedule`, js/hang/src/watch/video.ts:67-78. -/
def schedule (s : State) : State :=
  if s.ctx.isSome && !s.paused then
    match s.animate with
    | some _ => s
    | none => { s with animate := some s.next, scheduled := s.scheduled ++ [s.next], next := s.next + 1 }
  else
    match s.animate with
    | some a => { s with animate := none, scheduled := s.scheduled.filter (· != a) }
    | none => s

/-- What `#runEnabled` observes, js/hang/src/watch/video.ts:42-46. -/
def target (canvas : Option Nat) (paused : Bool) : Option Nat :=
  match canvas with
  | none => none
  | some c => if paused then none else some c

/-- `observer.disconnect()`. -/
def disconnect (e : Env) (o : Observer) : Observer :=
  if o.connected then { o with connected := false, queue := if e.late then o.queue else [] } else o

/-- The cleanups of `#runEnabled`, js/hang/src/watch/video.ts:62-63; the observer is the last one. -/
def cleanup (e : Env) (s : State) : State :=
  match target s.canvas s.paused with
  | none => s
  | some _ => { s with observers := s.observers.modify (s.observers.length - 1) (disconnect e), enabled := false }

/-- `#runEnabled`, js/hang/src/watch/video.ts:41-64. -/
def runEnabled (s : State) : State :=
  match target s.canvas s.paused with
  | none => s
  | some c => { s with observers := s.observers ++ [⟨c, true, []⟩] }

/-- The signals are set and the effects run: the memo, `#schedule` and `#runEnabled`. -/
def set (e : Env) (s : State) (canvas : Option Nat) (paused : Bool) : State :=
  if s.closed then { s with canvas := canvas, paused := paused }
  else
    let s :=
      if target canvas paused = target s.canvas s.paused then { s with canvas := canvas, paused := paused }
      else runEnabled { cleanup e s with canvas := canvas, paused := paused }
    schedule { s with ctx := context e canvas }

/-- `#render`, js/hang/src/watch/video.ts:80-88. -/
def render (s : State) (id : Nat) : Out × State :=
  if id ∈ s.scheduled then
    let s := schedule { s with scheduled := s.scheduled.filter (· != id), animate := none }
    match s.ctx with
    | some c => (.drew c, s)
    | none => (.threw, s)
  else (.invalid, s)

/-- An entry is queued. -/
def entry (s : State) (i : Nat) (visible : Bool) : Out × State :=
  match s.observers[i]? with
  | some o =>
    if o.connected then (.ok, { s with observers := s.observers.modify i fun o => { o with queue := o.queue ++ [visible] } })
    else (.invalid, s)
  | none => (.invalid, s)

/-- The callback of an observer, js/hang/src/watch/video.ts:50-54. -/
def notify (s : State) (i : Nat) : Out × State :=
  match s.observers[i]? with
  | some o =>
    if o.queue = [] then (.invalid, s)
    else (.ok, { s with observers := s.observers.modify i fun o => { o with queue := [] }, enabled := o.queue.foldl (fun _ v => v) s.enabled })
  | none => (.invalid, s)

/-- `close`, js/hang/src/watch/video.ts:127-134. -/
def close (e : Env) (s : State) : State :=
  let s := if s.closed then s else { cleanup e s with closed := true }
  match s.animate with
  | some a => { s with animate := none, scheduled := s.scheduled.filter (· != a) }
  | none => s

def step (e : Env) (s : State) : Op → Out × State
  | .set canvas paused => (.ok, set e s canvas paused)
  | .render id => render s id
  | .entry i visible => entry s i visible
  | .notify i => notify s i
  | .close => (.ok, close e s)

/-- The machine of a renderer. -/
abbrev machine (e : Env) : Machine := { State := State, Op := Op, Out := Out, init := init, step := step e }

abbrev Trace := List (Op × Out)

end Verif.Js.Renderer
