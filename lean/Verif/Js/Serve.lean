import Verif.Js.Track
import Verif.Js.Wire

/-!
# Model of `js/moq/src/publisher.ts`: serving a subscription

`runSubscribe`, `#runTrack` and `#runGroup` for one subscription, on top of the track
(`Verif.Js.Track`).  Other subscriptions are other consumers of the track.

A `GroupConsumer` that has read `k` frames is given frame `k` if there is one, and otherwise learns the
end of the group if it has ended (`Verif.Props.JsGroup`, C93).  Streams are what this side hands to
the transport: the bytes, and an end.  That the peer stopped a stream, or that the connection is lost,
is an event (`fail`, `stop`); from then on writing throws, and `closed()` rejects.
-/

set_option autoImplicit false

namespace Verif.Js.Serve

open Verif

/-- How this side ended a stream: `close` or `reset` of `Writer`, js/moq/src/wire/stream.ts:296-306. -/
inductive End where
  | finished
  | reset
  deriving DecidableEq, Repr

/-- Where a call of `#runGroup`, js/moq/src/publisher.ts:173-193, is. -/
inductive GPhase where
  /-- at `Writer.open`, 176 -/
  | opening
  /-- at `Promise.race`, 179 -/
  | looping
  /-- the length of this frame is written, 182 -/
  | writing (b : Bytes)
  /-- past `finally`, 190-192 -/
  | over
  /-- `Writer.open` threw: past `finally`; the exception is not handled, and the stream is not ended -/
  | lost
  deriving DecidableEq, Repr

/-- A call of `#runGroup` with its stream. -/
structure Task where
  group : Nat
  /-- `#index` of the `GroupConsumer`, js/moq/src/group.ts:71 -/
  index : Nat
  phase : GPhase
  bytes : Bytes
  ending : Option End
  failed : Bool
  deriving DecidableEq, Repr

/-- Where the call of `runSubscribe`, js/moq/src/publisher.ts:104-131, is; `c` is its
`TrackConsumer`. -/
inductive Phase where
  | none
  /-- at the SUBSCRIBE_OK, 114 -/
  | answering (c : Nat)
  /-- `#runTrack` is at `Promise.race`, 146 -/
  | running (c : Nat)
  /-- `#runTrack` is past `finally`, 161-163 -/
  | over (c : Nat)
  /-- writing the SUBSCRIBE_OK threw, 114: `#runTrack` was not called -/
  | lost (c : Nat)
  deriving DecidableEq, Repr

structure State where
  track : Track.State
  /-- of the SUBSCRIBE message -/
  id : Nat
  phase : Phase
  /-- `stream.writer.close()` of js/moq/src/connection.ts:190 was called -/
  closing : Bool
  /-- the peer stopped the stream of the subscription, or the connection is lost -/
  failed : Bool
  ending : Option End
  tasks : List Task
  deriving DecidableEq, Repr

inductive Op where
  /-- anything else that happens to the track -/
  | track (op : Track.Op)
  | subscribe (id : Nat)
  /-- the SUBSCRIBE_OK was written, or writing it threw -/
  | answered (ok : Bool)
  /-- `#runTrack` looks at `nextGroup()` -/
  | next
  /-- the peer has finished its side of the stream: `runSubscribe` returns, and the writer is closed,
  js/moq/src/connection.ts:189-191 -/
  | unsubscribe
  /-- the stream of the subscription fails -/
  | stop
  /-- `#runTrack` sees that `closed()` of the stream of the subscription has settled -/
  | sawClosed
  /-- `Writer.open` returned, or threw because of the transport -/
  | opened (i : Nat) (ok : Bool)
  /-- `#runGroup` looks at `nextFrame()` -/
  | frame (i : Nat)
  /-- the length of a frame is written -/
  | flushed (i : Nat)
  /-- the stream of a group fails -/
  | fail (i : Nat)
  /-- `#runGroup` sees that `closed()` of its stream was rejected -/
  | sawFailed (i : Nat)
  deriving DecidableEq, Repr

inductive Out where
  | ok
  | track (o : Track.Out)
  | subscribed (c : Nat)
  /-- what `nextGroup` of the consumer returned -/
  | next (c : Nat) (o : Track.Out)
  /-- `#runTrack` is over, and the consumer closed -/
  | over (c : Nat)
  | pending
  | invalid
  deriving DecidableEq, Repr

def init : State := ⟨Track.init, 0, .none, false, false, none, []⟩

/-- The `TrackConsumer` of the subscription. -/
def Phase.consumer : Phase → Option Nat
  | .none => Option.none
  | .answering c => some c
  | .running c => some c
  | .over c => some c
  | .lost c => some c

/-- The methods of a `TrackConsumer`, which only its owner calls. -/
def uses : Track.Op → Option Nat
  | .nextGroup c => some c
  | .nextFrame c _ => some c
  | .closeSub c => some c
  | _ => none

/-- `stream.close()` or `stream.reset()` of a group, js/moq/src/publisher.ts:186 and 188, and
`finally`, 190-192.  Neither has an effect on a stream that has failed. -/
def Task.finish (t : Task) (e : End) : Task :=
  { t with phase := .over, ending := if t.failed then t.ending else some e }

/-- `Writer.open`, js/moq/src/publisher.ts:176.  If the group's number cannot be written, the stream
has the beginning of the header and is left as it is. -/
def opened (id : Nat) (t : Task) (ok : Bool) : Out × Task :=
  match t.phase with
  | .opening =>
    if ok = false ∨ t.failed = true then (.ok, { t with phase := .lost })
    else
      match openUni ⟨id, t.group⟩ with
      | ⟨b, none⟩ => (.ok, { t with phase := .looping, bytes := b })
      | ⟨b, some _⟩ => (.ok, { t with phase := .lost, bytes := b })
  | _ => (.invalid, t)

/-- A frame was read, js/moq/src/publisher.ts:182: its length is written. -/
def sendLength (t : Task) (b : Bytes) : Task :=
  if t.failed then { t with index := t.index + 1 }.finish .reset
  else
    match writeU53 b.length with
    | ⟨l, none⟩ => { t with index := t.index + 1, bytes := t.bytes ++ l, phase := .writing b }
    | ⟨_, some _⟩ => { t with index := t.index + 1 }.finish .reset

/-- The loop of `#runGroup`, js/moq/src/publisher.ts:178-189, when `nextFrame` decides the race. -/
def frame (s : Track.State) (t : Task) : Out × Task :=
  match t.phase with
  | .looping =>
    match Track.find s t.group with
    | none => (.invalid, t)
    | some g =>
      match g.frames[t.index]? with
      | some b => (.ok, sendLength t b)
      | none =>
        match g.status with
        | .live => (.pending, t)
        | .closed => (.ok, t.finish .finished)
        | .aborted => (.ok, t.finish .reset)
  | _ => (.invalid, t)

/-- js/moq/src/publisher.ts:183. -/
def flushed (t : Task) : Out × Task :=
  match t.phase with
  | .writing b =>
    if t.failed then (.ok, t.finish .reset)
    else (.ok, { t with bytes := t.bytes ++ b, phase := .looping })
  | _ => (.invalid, t)

/-- `closed()` is rejected at js/moq/src/publisher.ts:179. -/
def sawFailed (t : Task) : Out × Task :=
  match t.phase with
  | .looping => if t.failed then (.ok, t.finish .reset) else (.invalid, t)
  | _ => (.invalid, t)

/-- A step of one call of `#runGroup`. -/
def onTask (s : State) (i : Nat) (f : Task → Out × Task) : Out × State :=
  match s.tasks[i]? with
  | some t => ((f t).1, { s with tasks := s.tasks.set i (f t).2 })
  | none => (.invalid, s)

/-- The end of `#runTrack`, js/moq/src/publisher.ts:156, 160 and 162.  The first end of the stream
counts, and none has an effect on a stream that has failed. -/
def endTrack (s : State) (c : Nat) (e : End) : State :=
  { s with
    track := (Track.step s.track (.closeSub c)).2
    phase := .over c
    ending := if s.failed then s.ending else s.ending.or (some e) }

/-- The loop of `#runTrack`, js/moq/src/publisher.ts:144-163, when `nextGroup` decides the race. -/
def next (s : State) (c : Nat) : Out × State :=
  let (o, t) := Track.step s.track (.nextGroup c)
  match o with
  | .group g =>
    (.next c o, { s with track := t, tasks := s.tasks ++ [⟨g, 0, .opening, [], none, false⟩] })
  | .undefined => (.next c o, endTrack { s with track := t } c .finished)
  | .rejected => (.next c o, endTrack { s with track := t } c .reset)
  | _ => (.next c o, { s with track := t })

def step (s : State) : Op → Out × State
  | .track op =>
    if uses op ≠ none ∧ uses op = s.phase.consumer then (.invalid, s)
    else (.track (Track.step s.track op).1, { s with track := (Track.step s.track op).2 })
  /- js/moq/src/publisher.ts:112-114; that the broadcast is published is `Verif.Js.Publisher` -/
  | .subscribe id =>
    match s.phase, Track.step s.track .consume with
    | .none, (.sub c, t) => (.subscribed c, { s with track := t, id := id, phase := .answering c })
    | _, _ => (.invalid, s)
  | .answered ok =>
    match s.phase with
    | .answering c => (.ok, { s with phase := if ok ∧ ¬ s.failed then .running c else .lost c })
    | _ => (.invalid, s)
  | .next =>
    match s.phase with
    | .running c => next s c
    | _ => (.invalid, s)
  | .unsubscribe =>
    match s.phase with
    | .running _ =>
      (.ok, { s with
        closing := true
        ending := if s.failed then s.ending else s.ending.or (some .finished) })
    | _ => (.invalid, s)
  | .stop => (.ok, { s with failed := true })
  | .sawClosed =>
    match s.phase with
    | .running c =>
      if s.failed then (.over c, endTrack s c .reset)
      else if s.closing then (.over c, endTrack s c .finished)
      else (.invalid, s)
    | _ => (.invalid, s)
  | .opened i ok => onTask s i fun t => opened s.id t ok
  | .frame i => onTask s i (frame s.track)
  | .flushed i => onTask s i flushed
  | .fail i => onTask s i fun t => (.ok, { t with failed := true })
  | .sawFailed i => onTask s i sawFailed

/-- The machine of a subscription served by the browser. -/
abbrev machine : Machine := { State := State, Op := Op, Out := Out, init := init, step := step }

/-! ## Vocabulary of histories -/

abbrev Trace := List (Op × Out)

/-- What an entry did to the track. -/
def onTrack : Op × Out → Track.Trace
  | (.track op, .track o) => [(op, o)]
  | (.subscribe _, .subscribed c) => [(.consume, .sub c)]
  | (.next, .next c o) =>
    match o with
    | .undefined => [(.nextGroup c, o), (.closeSub c, .ok)]
    | .rejected => [(.nextGroup c, o), (.closeSub c, .ok)]
    | _ => [(.nextGroup c, o)]
  | (.sawClosed, .over c) => [(.closeSub c, .ok)]
  | _ => []

/-- The history of the track. -/
def trackTrace (tr : Trace) : Track.Trace := tr.flatMap onTrack

/-- There is a subscription with this id, and this consumer. -/
def Subscribed (tr : Trace) (id c : Nat) : Prop := (.subscribe id, .subscribed c) ∈ tr

/-- The peer has unsubscribed. -/
def Unsubscribed (tr : Trace) : Prop := (.unsubscribe, .ok) ∈ tr

/-- The stream of the subscription has failed. -/
def Stopped (tr : Trace) : Prop := (.stop, .ok) ∈ tr

/-- The stream of a group has failed. -/
def Failed (tr : Trace) (i : Nat) : Prop := (.fail i, .ok) ∈ tr

/-- Serving has ended. -/
def Over (tr : Trace) : Prop :=
  ∃ c, (.next, .next c .undefined) ∈ tr ∨ (.next, .next c .rejected) ∈ tr ∨ (.sawClosed, .over c) ∈ tr

/-- A group was closed, also before it was inserted. -/
def GroupClosed (tr : Track.Trace) (g : Nat) : Prop :=
  (.closeGroup g, .ok) ∈ tr ∨ ∃ fs, (.insert g fs .closed, .ok) ∈ tr

/-- A group was aborted, also before it was inserted. -/
def GroupAborted (tr : Track.Trace) (g : Nat) : Prop :=
  (.abortGroup g, .ok) ∈ tr ∨ ∃ fs, (.insert g fs .aborted, .ok) ∈ tr

end Verif.Js.Serve
