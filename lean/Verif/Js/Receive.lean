import Verif.Js.Track
import Verif.Js.Wire

/-!
# Model of `js/moq/src/subscriber.ts`: receiving the groups of a subscription

`Subscriber.runGroup` for the streams of one subscription, on top of the track (`Verif.Js.Track`) and of
the reader (`Verif.Js.Wire`).  Which stream belongs to which subscription is `Verif.Js.Accept` and
`Verif.Js.Subscriber`.

A stream is the reader with what has arrived; more arrives by steps of its own.  A read that waits is
done again from its beginning when it is looked at again: what it returns depends only on the bytes
(C91).

Consumers of a group are not counted.  The track has one of its newest group, which it closes when
there is a newer one or when the track ends (js/moq/src/track.ts:39 and 70, C94), so `producer.unused()`
cannot return before that (C97; no consumer is closed twice).  After that it may return at any time:
the model allows more than the code.  `subscribe.unused()` returns or throws only when the track has
ended, as the broadcast has a consumer of it (C98).
-/

set_option autoImplicit false

namespace Verif.Js.Receive

open Verif

open Verif.Session (StreamEnd TransportError)

/-- Where a call of `runGroup`, js/moq/src/subscriber.ts:157-183, is. -/
inductive GPhase where
  /-- at `Promise.race`, 169 -/
  | idle
  /-- `stream.done()` returned false: at 172-173 -/
  | frame
  /-- past 179 or 181; the stream is cancelled, js/moq/src/connection.ts:221-227 -/
  | over
  deriving DecidableEq, Repr

/-- A call of `runGroup` with its stream.  `group` is the number of its group, if the track took it. -/
structure Task where
  group : Option Nat
  reader : Reader
  phase : GPhase
  deriving DecidableEq, Repr

structure State where
  track : Track.State
  /-- the subscription is not in `#subscribes`, js/moq/src/subscriber.ts:145 -/
  over : Bool
  tasks : List Task
  deriving DecidableEq, Repr

inductive Op where
  /-- something that readers of the track do -/
  | track (op : Track.Op)
  /-- a stream was accepted: the number of its group, and the bytes in the buffer of its reader -/
  | stream (g : Nat) (rest : Bytes)
  /-- more of a stream arrives -/
  | arrive (i : Nat) (b : Bytes)
  /-- the end of a stream arrives -/
  | finish (i : Nat)
  /-- a stream fails; pieces that were not read yet may be lost -/
  | fail (i : Nat) (e : TransportError) (keep : Nat)
  /-- `runGroup` looks at `stream.done()` -/
  | race (i : Nat)
  /-- `runGroup` looks at the frame -/
  | frame (i : Nat)
  /-- `producer.unused()` decides the race -/
  | unusedGroup (i : Nat)
  /-- `subscribe.unused()` decides the race -/
  | unusedTrack (i : Nat)
  /-- the stream of the subscription was finished by the peer, or fails -/
  | ended (ok : Bool)
  deriving DecidableEq, Repr

inductive Out where
  | ok
  | track (o : Track.Out)
  /-- this is stream `i`, and its group was taken by the track -/
  | inserted (i : Nat)
  /-- this is stream `i`, and its group is too old -/
  | dropped (i : Nat)
  /-- "unknown subscription" -/
  | unknown
  /-- a frame was written to the group -/
  | wrote (g : Option Nat) (b : Bytes)
  /-- the group was closed -/
  | closed (g : Option Nat)
  /-- the group was aborted -/
  | aborted (g : Option Nat)
  | pending
  | invalid
  deriving DecidableEq, Repr

def init : State := ⟨Track.init, false, []⟩

/-- The methods of readers of a track. -/
def reads : Track.Op → Bool
  | .consume => true
  | .run _ => true
  | .nextGroup _ => true
  | .nextFrame _ _ => true
  | .closeSub _ => true
  | _ => false

/-- A method of the `GroupProducer`; nobody sees a group that the track did not take. -/
def apply (t : Track.State) : Option Track.Op → Track.State
  | none => t
  | some op => (Track.step t op).2

def put (s : State) (i : Nat) (t : Task) : State := { s with tasks := s.tasks.set i t }

/-- `producer.close()`, js/moq/src/subscriber.ts:179. -/
def close (s : State) (i : Nat) (t : Task) : Out × State :=
  (.closed t.group,
    { put s i { t with phase := .over } with track := apply s.track (t.group.map .closeGroup) })

/-- `producer.abort()`, js/moq/src/subscriber.ts:181. -/
def abort (s : State) (i : Nat) (t : Task) : Out × State :=
  (.aborted t.group,
    { put s i { t with phase := .over } with track := apply s.track (t.group.map .abortGroup) })

/-- js/moq/src/subscriber.ts:169-170, when `stream.done()` decides the race. -/
def race (s : State) (i : Nat) (t : Task) : Out × State :=
  match t.phase with
  | .idle =>
    match done t.reader with
    | (.ok false, r) => (.ok, put s i { t with reader := r, phase := .frame })
    | (.ok true, _) => close s i t
    | (.thrown _, _) => abort s i t
    | (.waiting, _) => (.pending, s)
  | _ => (.invalid, s)

/-- js/moq/src/subscriber.ts:172-176. -/
def frame (s : State) (i : Nat) (t : Task) : Out × State :=
  match t.phase with
  | .frame =>
    match decodeFrame t.reader with
    | (.ok b, r) =>
      (.wrote t.group b,
        { put s i { t with reader := r, phase := .idle } with
          track := apply s.track (t.group.map fun g => .write g b) })
    | (.thrown _, _) => abort s i t
    | (.waiting, _) => (.pending, s)
  | _ => (.invalid, s)

/-- js/moq/src/subscriber.ts:169-170, when `producer.unused()` decides the race. -/
def unusedGroup (s : State) (i : Nat) (t : Task) : Out × State :=
  match t.phase with
  | .idle => if t.group ≠ none ∧ t.group = s.track.latest then (.invalid, s) else close s i t
  | _ => (.invalid, s)

/-- js/moq/src/subscriber.ts:169-170, when `subscribe.unused()` decides the race: it throws if the track
was aborted. -/
def unusedTrack (s : State) (i : Nat) (t : Task) : Out × State :=
  match t.phase with
  | .idle =>
    match s.track.status with
    | .live => (.invalid, s)
    | .closed => close s i t
    | .aborted => abort s i t
  | _ => (.invalid, s)

/-- The stream has not ended, and has not been cancelled. -/
def Task.open (t : Task) : Bool := t.phase ≠ .over ∧ t.reader.stream.ending = .idle

/-- The platform's part of the stream changes. -/
def receive (s : State) (i : Nat) (t : Task) (chunks : List Bytes) (e : StreamEnd) : Out × State :=
  if t.open then (.ok, put s i { t with reader := ⟨t.reader.buffer, ⟨chunks, e⟩⟩ }) else (.invalid, s)

/-- A step of one call of `runGroup`. -/
def onTask (s : State) (i : Nat) (f : Task → Out × State) : Out × State :=
  match s.tasks[i]? with
  | some t => f t
  | none => (.invalid, s)

def step (s : State) : Op → Out × State
  | .track op =>
    if reads op then
      (.track (Track.step s.track op).1, { s with track := (Track.step s.track op).2 })
    else (.invalid, s)
  /- js/moq/src/subscriber.ts:158-165.  The track of a running subscription does not throw. -/
  | .stream g rest =>
    if s.over then (.unknown, s)
    else
      match Track.step s.track (.insert g [] .live) with
      | (.ok, t) => (.inserted s.tasks.length,
          { s with track := t, tasks := s.tasks ++ [⟨some g, ⟨rest, ⟨[], .idle⟩⟩, .idle⟩] })
      | (.dropped, t) => (.dropped s.tasks.length,
          { s with track := t, tasks := s.tasks ++ [⟨none, ⟨rest, ⟨[], .idle⟩⟩, .idle⟩] })
      | _ => (.invalid, s)
  | .arrive i b => onTask s i fun t =>
      if b = [] then (.invalid, s) else receive s i t (t.reader.stream.chunks ++ [b]) .idle
  | .finish i => onTask s i fun t => receive s i t t.reader.stream.chunks .fin
  | .fail i e keep => onTask s i fun t =>
      receive s i t (t.reader.stream.chunks.take keep) (.failed e)
  | .race i => onTask s i (race s i)
  | .frame i => onTask s i (frame s i)
  | .unusedGroup i => onTask s i (unusedGroup s i)
  | .unusedTrack i => onTask s i (unusedTrack s i)
  /- the end of `#runSubscribe`, js/moq/src/subscriber.ts:137-147: `closed()` of the stream of the
  subscription returns or throws -/
  | .ended ok =>
    if s.over then (.invalid, s)
    else (.ok, { s with
      track := (Track.step s.track (if ok then .close else .abort)).2
      over := true })

/-- The machine of the groups of a subscription that the browser receives. -/
abbrev machine : Machine := { State := State, Op := Op, Out := Out, init := init, step := step }

/-! ## Vocabulary of histories -/

abbrev Trace := List (Op × Out)

/-- What an entry did to the track. -/
def onTrack : Op × Out → Track.Trace
  | (.track op, .track o) => [(op, o)]
  | (.stream g _, .inserted _) => [(.insert g [] .live, .ok)]
  | (.stream g _, .dropped _) => [(.insert g [] .live, .dropped)]
  | (.ended ok, .ok) => [(if ok then .close else .abort, .ok)]
  | (_, .wrote (some g) b) => [(.write g b, .ok)]
  | (_, .closed (some g)) => [(.closeGroup g, .ok)]
  | (_, .aborted (some g)) => [(.abortGroup g, .ok)]
  | _ => []

/-- The history of the track. -/
def trackTrace (tr : Trace) : Track.Trace := tr.flatMap onTrack

/-- Stream `i` brings group `g`, which the track took. -/
def Brings (tr : Trace) (i g : Nat) : Prop := ∃ rest, (.stream g rest, .inserted i) ∈ tr

/-- What an entry adds to stream `i`. -/
def part (i : Nat) : Op × Out → Bytes
  | (.stream _ rest, .inserted j) => if j = i then rest else []
  | (.stream _ rest, .dropped j) => if j = i then rest else []
  | (.arrive j b, .ok) => if j = i then b else []
  | _ => []

/-- The bytes of stream `i` after its header, as far as they have arrived. -/
def arrived (tr : Trace) (i : Nat) : Bytes := tr.flatMap (part i)

/-- The end of stream `i` has arrived. -/
def Finished (tr : Trace) (i : Nat) : Prop := (.finish i, .ok) ∈ tr

/-- Stream `i` has failed. -/
def Failed (tr : Trace) (i : Nat) : Prop := ∃ e k, (.fail i e k, .ok) ∈ tr

/-- The subscription has ended: finished by the peer, or not. -/
def Ended (tr : Trace) (ok : Bool) : Prop := (.ended ok, .ok) ∈ tr

end Verif.Js.Receive
