import Verif.Js.Unused
import Verif.Js.Text
import Verif.Js.Group

/-!
# Model of `js/moq/src/subscriber.ts`: broadcasts and tracks a browser consumes

With the parts of `js/moq/src/broadcast.ts` it uses.  Every `BroadcastProducer` and every
`TrackProducer` has the count of consumers of `Verif.Js.Unused`.  Of a subscription the model has the
SUBSCRIBE message, the answer, the end by the peer, and the end by the browser.
-/

set_option autoImplicit false

namespace Verif.Js.Subscriber

open Verif

export Verif.Js.Group (Status)

abbrev Str := JsString

/-- Where a call of `#runSubscribe`, js/moq/src/subscriber.ts:124-148, is. -/
inductive Phase where
  /-- the stream is being opened, or the answer is awaited: 132-134 -/
  | asked
  /-- it waits for the end of the stream and for `track.unused()`, 137; the number is that of the call -/
  | running (call : Nat)
  /-- past `finally`, 144-147; `clean` when the `finally` of the caller ran, 103-110 -/
  | over (clean : Bool)
  /-- opening the stream threw, 132: outside of `try`, so neither `catch` nor `finally` runs; `clean` as
  above -/
  | lost (clean : Bool)
  deriving DecidableEq, Repr

def Phase.isOver : Phase → Bool
  | .over _ => true
  | _ => false

/-- A `TrackProducer` and its call of `#runSubscribe`; its number is the subscription id. -/
structure Sub where
  broadcast : Nat
  name : Str
  watch : Unused.State
  status : Status
  phase : Phase
  deriving DecidableEq, Repr

/-- A `BroadcastProducer` made by `Subscriber.consume`. -/
structure Br where
  path : Str
  watch : Unused.State
  /-- `State.tracks`, js/moq/src/broadcast.ts:5: the name and the subscription -/
  tracks : List (Str × Nat)
  closed : Bool
  deriving DecidableEq, Repr

/-- `Subscriber`, js/moq/src/subscriber.ts:13-21.  `#subscribes` has the subscriptions that are not
`over`. -/
structure State where
  brs : List Br
  /-- `#broadcasts` -/
  table : List (Str × Nat)
  subs : List Sub
  deriving DecidableEq, Repr

inductive Op where
  | consume (path : Str)
  /-- `BroadcastConsumer.close` by the application -/
  | closeBroadcast (b c : Nat)
  | subscribe (b : Nat) (name : Str)
  /-- `TrackConsumer.clone` -/
  | clone (i : Nat)
  /-- `TrackConsumer.close` by the application -/
  | closeTrack (i c : Nat)
  /-- SUBSCRIBE_OK arrives -/
  | answer (i : Nat)
  /-- the stream is closed by the peer (`failed = false`), or anything in `try` throws -/
  | peerEnd (i : Nat) (failed : Bool)
  /-- `Stream.open` throws -/
  | openFails (i : Nat)
  /-- the `finally` of the caller of `#runSubscribe`, js/moq/src/subscriber.ts:103-110 -/
  | cleanup (i : Nat)
  /-- `track.unused()` returned, js/moq/src/subscriber.ts:137 -/
  | unsubscribe (i : Nat)
  /-- `producer.unused()` returned, js/moq/src/subscriber.ts:116-119 -/
  | dropBroadcast (b : Nat)
  /-- a group stream with this subscription id arrives: the lookup of `runGroup`,
  js/moq/src/subscriber.ts:157-162 -/
  | group (i : Nat)
  /-- was the `TrackProducer` closed or aborted? -/
  | status (i : Nat)
  deriving DecidableEq, Repr

inductive Out where
  | ok
  /-- a `BroadcastConsumer` -/
  | broadcast (b c : Nat)
  /-- a `TrackConsumer` of a subscription there is already -/
  | track (i c : Nat)
  /-- a SUBSCRIBE message with this id, and a `TrackConsumer` -/
  | subscribed (i c : Nat)
  /-- `insertTrack` threw "closed" -/
  | threw
  /-- the browser closed the stream of the subscription -/
  | unsubscribed
  /-- the group goes to the track of this subscription -/
  | delivered (i : Nat)
  /-- "unknown subscription" -/
  | unknown
  | status (s : Status)
  | invalid
  deriving DecidableEq, Repr

def init : State := ⟨[], [], []⟩

/-- `Map.get`, `Map.delete` and `Map.set`. -/
def get (m : List (Str × Nat)) (k : Str) : Option Nat := (m.find? fun e => e.1 = k).map (·.2)

def delete (m : List (Str × Nat)) (k : Str) : List (Str × Nat) := m.filter fun e => e.1 ≠ k

def put (m : List (Str × Nat)) (k : Str) (v : Nat) : List (Str × Nat) := (k, v) :: delete m k

/-- A step of the count of consumers. -/
def upd (w : Unused.State) (op : Unused.Op) : Unused.State := (Unused.step w op).2

/-- A new producer with two consumers: the one for the application and the one for the cache
(js/moq/src/subscriber.ts:93-94 and 113; js/moq/src/broadcast.ts:154-155 and
js/moq/src/subscriber.ts:100).  The second one has the number 1. -/
def fresh : Unused.State := upd (upd Unused.init .consume) .consume

/-- The cached consumer of a subscription is closed. -/
def closeCached (subs : List Sub) (i : Nat) : List Sub :=
  subs.modify i fun s => { s with watch := upd s.watch (.closeHandle 1) }

/-- `removeTrack`, js/moq/src/broadcast.ts:59-70. -/
def removeTrack (s : State) (b : Nat) (name : Str) : State :=
  match s.brs[b]? with
  | some r =>
    if r.closed then s
    else
      { s with
        brs := s.brs.set b { r with tracks := delete r.tracks name }
        subs := match get r.tracks name with
          | some i => closeCached s.subs i
          | none => s.subs }
  | none => s

/-- The end of `#runSubscribe`, js/moq/src/subscriber.ts:139-147. -/
def finish (s : State) (i : Nat) (k : Sub) (aborted : Bool) : State :=
  { s with
    subs := s.subs.set i { k with
      watch := upd k.watch (if aborted then .abort else .close)
      status := if aborted then .aborted else .closed
      phase := .over false } }

/-- Is the call of `unused` with this number over? -/
def isUnused (w : Unused.State) (call : Nat) : Bool :=
  (Unused.step w (.poll call)).1 != .promise .pending

def step (s : State) : Op → Out × State
  /- js/moq/src/subscriber.ts:87-122 -/
  | .consume path =>
    match get s.table path with
    | some b =>
      match s.brs[b]? with
      | some r => (.broadcast b r.watch.handles.length,
          { s with brs := s.brs.set b { r with watch := upd r.watch .consume } })
      | none => (.invalid, s)
    | none =>
      (.broadcast s.brs.length 0, { s with
        brs := s.brs ++ [⟨path, upd fresh .unused, [], false⟩]
        table := put s.table path s.brs.length })
  /- js/moq/src/broadcast.ts:177-179; consumer 1 is not in the hands of the application -/
  | .closeBroadcast b c =>
    match s.brs[b]? with
    | some r =>
      if c < r.watch.handles.length ∧ c ≠ 1 then
        (.ok, { s with brs := s.brs.set b { r with watch := upd r.watch (.closeHandle c) } })
      else (.invalid, s)
    | none => (.invalid, s)
  /- `BroadcastConsumer.subscribe`, js/moq/src/broadcast.ts:146-164, and the callback of
  js/moq/src/subscriber.ts:96-111 -/
  | .subscribe b name =>
    match s.brs[b]? with
    | some r =>
      match get r.tracks name with
      | some i =>
        match s.subs[i]? with
        | some k => (.track i k.watch.handles.length,
            { s with subs := s.subs.set i { k with watch := upd k.watch .consume } })
        | none => (.invalid, s)
      | none =>
        if r.closed then (.threw, s)
        else
          (.subscribed s.subs.length 0, { s with
            brs := s.brs.set b { r with tracks := put r.tracks name s.subs.length }
            subs := s.subs ++ [⟨b, name, fresh, .live, .asked⟩] })
    | none => (.invalid, s)
  | .clone i =>
    match s.subs[i]? with
    | some k => (.track i k.watch.handles.length,
        { s with subs := s.subs.set i { k with watch := upd k.watch .consume } })
    | none => (.invalid, s)
  | .closeTrack i c =>
    match s.subs[i]? with
    | some k =>
      if c < k.watch.handles.length ∧ c ≠ 1 then
        (.ok, { s with subs := s.subs.set i { k with watch := upd k.watch (.closeHandle c) } })
      else (.invalid, s)
    | none => (.invalid, s)
  | .answer i =>
    match s.subs[i]? with
    | some k =>
      if k.phase = .asked then
        (.ok, { s with subs := s.subs.set i { k with
          watch := upd k.watch .unused
          phase := .running k.watch.calls.length } })
      else (.invalid, s)
    | none => (.invalid, s)
  | .peerEnd i failed =>
    match s.subs[i]? with
    | some k =>
      match k.phase with
      | .asked => (.ok, finish s i k failed)
      | .running _ => (.ok, finish s i k failed)
      | _ => (.invalid, s)
    | none => (.invalid, s)
  | .openFails i =>
    match s.subs[i]? with
    | some k =>
      if k.phase = .asked then
        (.ok, { s with subs := s.subs.set i { k with phase := .lost false } })
      else (.invalid, s)
    | none => (.invalid, s)
  | .cleanup i =>
    match s.subs[i]? with
    | some k =>
      match k.phase with
      | .over false => (.ok, removeTrack
          { s with subs := s.subs.set i { k with phase := .over true } } k.broadcast k.name)
      | .lost false => (.ok, removeTrack
          { s with subs := s.subs.set i { k with phase := .lost true } } k.broadcast k.name)
      | _ => (.invalid, s)
    | none => (.invalid, s)
  | .unsubscribe i =>
    match s.subs[i]? with
    | some k =>
      match k.phase with
      | .running call =>
        if isUnused k.watch call then (.unsubscribed, finish s i k false) else (.invalid, s)
      | _ => (.invalid, s)
    | none => (.invalid, s)
  /- `BroadcastProducer.close`, js/moq/src/broadcast.ts:96-105, and js/moq/src/subscriber.ts:116-119 -/
  | .dropBroadcast b =>
    match s.brs[b]? with
    | some r =>
      if r.closed = false ∧ isUnused r.watch 0 then
        (.ok, { s with
          brs := s.brs.set b { r with
            tracks := []
            watch := upd r.watch .close
            closed := true }
          table := delete s.table r.path
          subs := r.tracks.foldl (fun subs e => closeCached subs e.2) s.subs })
      else (.invalid, s)
    | none => (.invalid, s)
  | .group i =>
    match s.subs[i]? with
    | some k => (if k.phase.isOver then .unknown else .delivered i, s)
    | none => (.unknown, s)
  | .status i =>
    match s.subs[i]? with
    | some k => (.status k.status, s)
    | none => (.invalid, s)

/-- The machine of the consuming side of a connection in the browser. -/
abbrev machine : Machine := { State := State, Op := Op, Out := Out, init := init, step := step }

/-! ## Vocabulary of histories -/

abbrev Trace := List (Op × Out)

/-- The application closes none of its consumers twice. -/
def Tidy (tr : Trace) : Prop :=
  (∀ i c, tr.count (.closeTrack i c, .ok) ≤ 1) ∧ ∀ b c, tr.count (.closeBroadcast b c, .ok) ≤ 1

/-- The SUBSCRIBE messages: the broadcast and the name. -/
def subscribes (tr : Trace) : List (Nat × Str) :=
  tr.filterMap fun e =>
    match e with
    | (.subscribe b name, .subscribed _ _) => some (b, name)
    | _ => none

/-- The broadcasts, by their paths. -/
def paths (tr : Trace) : List Str :=
  tr.foldl (fun ps e =>
    match e with
    | (.consume path, .broadcast b _) => if b < ps.length then ps else ps ++ [path]
    | _ => ps) []

/-- The peer ended the subscription. -/
def PeerEnded (tr : Trace) (i : Nat) : Prop := ∃ f, (.peerEnd i f, .ok) ∈ tr

/-- The browser ended it. -/
def Unsubscribed (tr : Trace) (i : Nat) : Prop := (.unsubscribe i, .unsubscribed) ∈ tr

/-- The cache has forgotten it. -/
def Cleaned (tr : Trace) (i : Nat) : Prop := (.cleanup i, .ok) ∈ tr

/-- Its stream could not be opened. -/
def Failed (tr : Trace) (i : Nat) : Prop := (.openFails i, .ok) ∈ tr

/-- The application has closed all its consumers of the track. -/
def AllClosed (tr : Trace) (i : Nat) : Prop :=
  ∀ op c, ((op, .subscribed i c) ∈ tr ∨ (op, .track i c) ∈ tr) → (.closeTrack i c, .ok) ∈ tr

/-- How many consumers of the track the application was given, and how often it closed one. -/
def handed (tr : Trace) (i : Nat) : Nat :=
  tr.countP fun e => match e.2 with
    | .subscribed j _ => j = i
    | .track j _ => j = i
    | _ => false

def closes (tr : Trace) (i : Nat) : Nat :=
  tr.countP fun e => match e with
    | (.closeTrack j _, .ok) => j = i
    | _ => false

/-- At some moment the application had closed consumers as often as it was given one. -/
def Balanced (tr : Trace) (i : Nat) : Prop := ∃ now later, tr = now ++ later ∧
  0 < handed now i ∧ handed now i ≤ closes now i

end Verif.Js.Subscriber
