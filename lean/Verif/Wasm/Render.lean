import Verif.Base

/-!
# Model of the renderer of video, rs/hang-wasm/src/watch/video.rs:191-427

`Render` has a queue of decoded frames, of which it draws one in each animation frame.  `Video`, which owns it, passes on
what the user sets (103-125) and the decoded frames (97).

What the model takes from the platform (part of the trusted base):
* `request_animation_frame` calls the closure once, at any later time; `set_timeout` once, at any time after the timeout, unless
  cancelled; each `set_timeout` returns another handle.
* `Instant::now` never goes back; the difference of two instants is zero if the second one is later, as is documented for
  `web_time::Instant`.
* Getting the context of a canvas and drawing a frame do not fail.
* A panic leaves the `RefCell` borrowed, so that every later call panics as well.

Times are numbers of microseconds, without overflow.
-/

set_option autoImplicit false

namespace Verif.Wasm.Render

open Verif

/-- A decoded frame. -/
structure Frame where
  ts : Nat
  width : Nat
  height : Nat
  deriving DecidableEq, Repr

/-- `RendererStatus`, rs/hang-wasm/src/watch/video.rs:191-197. -/
inductive Status where
  | idle
  | paused
  | buffering
  | live
  deriving DecidableEq, Repr

/-- `Render`, rs/hang-wasm/src/watch/video.rs:199-219. -/
structure State where
  status : Status
  scheduled : Bool
  /-- `latency` -/
  latency : Nat
  /-- `latency_ref` -/
  anchor : Option (Nat × Nat)
  visible : Bool
  /-- the size of `canvas`; `context` is set along with it -/
  canvas : Option (Nat × Nat)
  queue : List Frame
  /-- `timeout_handle` -/
  handle : Option Nat
  /-- the animation frames requested that have not come yet -/
  requests : Nat
  /-- the timeouts pending: handle and when -/
  timers : List (Nat × Nat)
  /-- the next handle -/
  fresh : Nat
  clock : Nat
  /-- there was a panic -/
  dead : Bool
  deriving DecidableEq, Repr

inductive Op where
  | push (f : Frame)
  /-- an animation frame -/
  | draw
  | canvas (size : Option (Nat × Nat))
  | paused (b : Bool)
  | latency (d : Nat)
  | visible (b : Bool)
  /-- a timeout -/
  | fire (h : Nat)
  /-- time passes -/
  | wait (d : Nat)
  deriving DecidableEq, Repr

inductive Out where
  | ok
  /-- a frame is drawn on a canvas that has the given size -/
  | drawn (f : Frame) (size : Nat × Nat)
  | panic
  | invalid
  deriving DecidableEq, Repr

/-- `Render::new`, rs/hang-wasm/src/watch/video.rs:222-237. -/
def init : State := ⟨.idle, false, 0, none, true, none, [], none, 0, [], 0, 0, false⟩

/-- `duration`, rs/hang-wasm/src/watch/video.rs:239-246. -/
def duration (q : List Frame) : Option Nat :=
  match q.getLast?, q.head? with
  | some b, some f => some (b.ts - f.ts)
  | _, _ => none

/-- The loop of `trim_buffer`, rs/hang-wasm/src/watch/video.rs:309-312: what is left and whether something was dropped; `none` for
a panic. -/
def trimLoop (d : Nat) (dropped : Bool) : List Frame → Option (List Frame × Bool)
  | [] => none
  | f :: q =>
    match duration (f :: q) with
    | none => none
    | some x => if d < x then trimLoop d true q else some (f :: q, dropped)

/-- `trim_buffer`, rs/hang-wasm/src/watch/video.rs:302-313. -/
def trim (s : State) : Option State :=
  if s.queue.isEmpty then some { s with anchor := none }
  else
    match trimLoop s.latency false s.queue with
    | none => none
    | some (q, dropped) => some { s with queue := q, anchor := if dropped then none else s.anchor }

/-- `schedule`, rs/hang-wasm/src/watch/video.rs:315-337. -/
def schedule (s : State) : State :=
  if s.scheduled then s
  else if s.status ≠ .live ∧ s.status ≠ .buffering then s
  else if !s.visible then s
  else if s.queue.isEmpty then s
  else { s with requests := s.requests + 1, scheduled := true }

/-- `push`, rs/hang-wasm/src/watch/video.rs:248-252. -/
def push (s : State) (f : Frame) : Out × State :=
  match trim { s with queue := s.queue ++ [f] } with
  | none => (.panic, { s with dead := true })
  | some s => (.ok, schedule s)

/-- `set_live`, rs/hang-wasm/src/watch/video.rs:408-419. -/
def setLive (s : State) : State :=
  let s := { s with status := .live }
  let s :=
    match s.handle with
    | some h => { s with timers := s.timers.filter (fun t => t.1 ≠ h) }
    | none => s
  { s with handle := some s.fresh, timers := s.timers ++ [(s.fresh, s.clock + 1000000)], fresh := s.fresh + 1 }

/-- The loop of `draw`, rs/hang-wasm/src/watch/video.rs:270-280; the queue is passed separately. -/
def advance (elapsed pts : Nat) : State → Frame → List Frame → Frame × State
  | s, f, [] => (f, { s with queue := [] })
  | s, f, n :: q =>
    if elapsed ≤ n.ts - pts then (f, { s with queue := n :: q })
    else advance elapsed pts (setLive s) n q

/-- Which frame to draw, rs/hang-wasm/src/watch/video.rs:267-284. -/
def pick (s : State) (f : Frame) (q : List Frame) : Frame × State :=
  match s.anchor with
  | some (w, p) => advance (s.clock - w) p s f q
  | none => (f, { s with queue := q, anchor := some (s.clock + s.latency, f.ts) })

/-- The end of `draw`, rs/hang-wasm/src/watch/video.rs:291-299. -/
def putBack (s : State) (f : Frame) : State :=
  if (duration s.queue).getD 0 < s.latency then { s with queue := f :: s.queue } else setLive s

/-- What is seen, rs/hang-wasm/src/watch/video.rs:286-288. -/
def show' (s : State) (f : Frame) : Out :=
  match s.canvas with
  | some c => .drawn f c
  | none => .ok

/-- `set_resolution` as it is called, rs/hang-wasm/src/watch/video.rs:379-391. -/
def resize (s : State) (f : Frame) : State :=
  match s.canvas with
  | some _ => { s with canvas := some (f.width, f.height) }
  | none => s

/-- `draw`, rs/hang-wasm/src/watch/video.rs:254-300, called in an animation frame. -/
def draw (s : State) : Out × State :=
  match s.requests with
  | 0 => (.invalid, s)
  | n + 1 =>
    let s := { s with requests := n, scheduled := false }
    if s.status = .paused ∨ s.status = .idle then (.ok, s)
    else
      match s.queue with
      | [] => (.panic, { s with dead := true })
      | f :: q =>
        let r := pick (resize { s with queue := q } f) f q
        (show' r.2 r.1, schedule (putBack r.2 r.1))

/-- `set_canvas`, rs/hang-wasm/src/watch/video.rs:339-363. -/
def setCanvas (s : State) (c : Option (Nat × Nat)) : State := { s with canvas := c }

/-- `set_paused`, rs/hang-wasm/src/watch/video.rs:365-377. -/
def setPaused (s : State) : Bool → State
  | true => { s with queue := [], anchor := none, status := .paused }
  | false => schedule { s with status := .buffering }

/-- `set_latency`, rs/hang-wasm/src/watch/video.rs:393-397. -/
def setLatency (s : State) (d : Nat) : State := { s with latency := d, anchor := none, status := .buffering }

/-- `set_visible`, rs/hang-wasm/src/watch/video.rs:399-402. -/
def setVisible (s : State) (b : Bool) : State := schedule { s with visible := b }

/-- A timeout is over, rs/hang-wasm/src/watch/video.rs:422-426. -/
def fire (s : State) (h : Nat) : Out × State :=
  match s.timers.find? (fun t => t.1 = h) with
  | none => (.invalid, s)
  | some t =>
    if s.clock < t.2 then (.invalid, s)
    else
      let s := { s with timers := s.timers.filter (fun t => t.1 ≠ h) }
      (.ok, if s.status = .live then { s with status := .buffering } else s)

def step (s : State) (op : Op) : Out × State :=
  if s.dead then
    match op with
    | .wait d => (.ok, { s with clock := s.clock + d })
    | _ => (.panic, s)
  else
    match op with
    | .push f => push s f
    | .draw => draw s
    | .canvas c => (.ok, setCanvas s c)
    | .paused b => (.ok, setPaused s b)
    | .latency d => (.ok, setLatency s d)
    | .visible b => (.ok, setVisible s b)
    | .fire h => fire s h
    | .wait d => (.ok, { s with clock := s.clock + d })

/-- The machine of the renderer. -/
abbrev machine : Machine := { State := State, Op := Op, Out := Out, init := init, step := step }

abbrev Trace := List (Op × Out)

end Verif.Wasm.Render
