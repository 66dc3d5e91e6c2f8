import Verif.Js.Receive
import Verif.Js.Text

/-!
# Model of `js/hang/src/publish/chat.ts` and of `ChatConsumer` of `js/hang/src/container/chat.ts`

The class `Chat` publishes messages on a track `chat.md`, js/hang/src/publish/chat.ts:23: each message is a group of its
own with one frame, and a timer replaces the message by an empty group when its time is over.

Time is in milliseconds, and so is `ttl`, here a natural number or nothing.  A timer that is due runs at any later time
(`fire`).  Timers have numbers that are never used twice and never 0.  Readers of the track do whatever they like between
the calls.  The catalog, js/hang/src/publish/chat.ts:34-42, is not part of this model.
-/

set_option autoImplicit false

namespace Verif.Js.Chat

open Verif Verif.Js

structure State where
  now : Nat
  ttl : Option Nat
  /-- `#group` -/
  group : Option Nat
  /-- `#expires` -/
  expires : Option Nat
  /-- the timers that have not run: number and time -/
  timers : List (Nat × Nat)
  /-- the number of the next timer -/
  fresh : Nat
  /-- `#track` -/
  track : Track.State
  /-- what happened to the track so far -/
  calls : Track.Trace

inductive Op where
  | publish (text : JsString)
  | clear
  | close
  | setTtl (ttl : Option Nat)
  /-- time passes -/
  | tick (n : Nat)
  /-- a timer runs -/
  | fire (i : Nat)
  /-- somebody reads the track -/
  | read (op : Track.Op)

inductive Out where
  | ok
  /-- `appendGroup` or `writeFrame` threw -/
  | threw
  | reader (o : Track.Out)
  /-- no such timer, or it is not yet due; not a call of a reader -/
  | invalid
  deriving DecidableEq, Repr

/-- js/hang/src/publish/chat.ts:22-33. -/
def init (ttl : Option Nat) : State := ⟨0, ttl, none, none, [], 1, Track.init, []⟩

/-- A call of the track. -/
def call (s : State) (op : Track.Op) : State :=
  { s with track := (Track.step s.track op).2, calls := s.calls ++ [(op, (Track.step s.track op).1)] }

/-- `this.#group?.close()`. -/
def closeGroup (s : State) : State :=
  match s.group with
  | none => s
  | some g => call s (.closeGroup g)

/-- `if (this.#expires) clearTimeout(this.#expires)`, js/hang/src/publish/chat.ts:51-53 and 84-86. -/
def clearTimer (s : State) : State :=
  match s.expires with
  | none => s
  | some i => { s with timers := s.timers.filter fun t => t.1 != i }

/-- The timer for a message, js/hang/src/publish/chat.ts:62-65. -/
def arm (s : State) : State :=
  match s.ttl with
  | none => s
  | some t =>
    if t = 0 then s
    else { s with expires := some s.fresh, timers := s.timers ++ [(s.fresh, s.now + t)], fresh := s.fresh + 1 }

/-- js/hang/src/publish/chat.ts:46-66. -/
def publish (text : JsString) (s : State) : Out × State :=
  let s := closeGroup (clearTimer s)
  match (Track.step s.track .append).1 with
  | .group g =>
    let s := { call s .append with group := some g }
    match (Track.step s.track (.write g (textEncode text))).1 with
    | .ok => (.ok, arm (call s (.write g (textEncode text))))
    | _ => (.threw, call s (.write g (textEncode text)))
  | _ => (.threw, call s .append)

/-- js/hang/src/publish/chat.ts:73-78. -/
def clear (s : State) : Out × State :=
  let s := closeGroup s
  match (Track.step s.track .append).1 with
  | .group g => (.ok, { call s .append with group := some g })
  | _ => (.threw, call s .append)

def step (s : State) : Op → Out × State
  | .publish text => publish text s
  | .clear => clear s
  /- js/hang/src/publish/chat.ts:80-87: the track is not closed -/
  | .close => (.ok, clearTimer (closeGroup s))
  | .setTtl ttl => (.ok, { s with ttl := ttl })
  | .tick n => (.ok, { s with now := s.now + n })
  | .fire i =>
    if s.timers.any (fun t => t.1 == i && decide (t.2 ≤ s.now)) then
      clear { s with timers := s.timers.filter fun t => t.1 != i }
    else (.invalid, s)
  | .read op => if Receive.reads op = true then (.reader (Track.step s.track op).1, call s op) else (.invalid, s)

/-- `ChatConsumer.next`, js/hang/src/container/chat.ts:37-43, on a frame. -/
def message (L : Lossy) (b : Bytes) : JsString := textDecode L b

/-- The machine of a chat. -/
abbrev machine (ttl : Option Nat) : Machine :=
  { State := State, Op := Op, Out := Out, init := init ttl, step := step }

abbrev Trace := List (Op × Out)

end Verif.Js.Chat
