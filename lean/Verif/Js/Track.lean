import Verif.Js.Group

/-!
# Model of `js/moq/src/track.ts` on top of `js/moq/src/util/watch.ts`

A track in the browser.  `TrackProducer` holds a `WatchProducer` of the newest group, or null;
every `TrackConsumer` holds a `WatchConsumer` of it, and always has fetched, or is fetching, the next
group.

As in `Verif.Js.Group`, an event that settles the promise a fetch waits for fixes what the fetch
continues with, and the continuation (`run`) is a step of its own at any later time.  A call of
`nextGroup` or `nextFrame` that is not finished answers `pending` (or `moved`), and the same operation
again looks whether it can go on.  One consumer has at most one such call at a time, as in all callers,
and is not closed during one.

The groups of a track have different numbers (`c94_accepted`), so they are identified by them.  Reading
a group is `Verif.Js.Group`, of which only the result is used here: a consumer that has read `k` frames
is given frame `k` if there is one, and otherwise learns the end of the group if it has ended
(`c93_prefix` to `c93_resumed`).
-/

set_option autoImplicit false

namespace Verif.Js.Track

open Verif

open Verif.Js.Group (Status Settled)

/-- A group of the track, with all that was written to it so far. -/
structure Grp where
  id : Nat
  frames : List Bytes
  status : Status
  deriving DecidableEq, Repr

/-- `#nextGroup`, js/moq/src/track.ts:126: a call of `next`, js/moq/src/util/watch.ts:151-177. -/
inductive Fetch where
  /-- it waits at `Promise.race`, js/moq/src/util/watch.ts:166 -/
  | waiting
  /-- the race is decided, the call has not continued -/
  | ready (s : Settled (Option Nat))
  /-- the promise is settled -/
  | done (s : Settled Nat)
  deriving DecidableEq, Repr

/-- `TrackConsumer`, js/moq/src/track.ts:114-127, with its `WatchConsumer`,
js/moq/src/util/watch.ts:122-129.  `current` and `frame` are `#currentGroup` and `#currentFrame`. -/
structure Sub where
  epoch : Nat
  closed : Bool
  fetch : Fetch
  current : Option Nat
  frame : Nat
  deriving DecidableEq, Repr

/-- A `TrackProducer`, js/moq/src/track.ts:9-16, its `WatchProducer`, js/moq/src/util/watch.ts:24-30, all
groups the track ever had, and all consumers. -/
structure State where
  latest : Option Nat
  epoch : Nat
  status : Status
  /-- `#next ?? 0` -/
  next : Nat
  groups : List Grp
  subs : List Sub
  deriving DecidableEq, Repr

/-- Which of the two promises decides the race of `#next`, js/moq/src/track.ts:219. -/
inductive Pick where
  | frame
  | group
  deriving DecidableEq, Repr

inductive Op where
  | append
  /-- a group with a number, that has these frames already and may have ended -/
  | insert (id : Nat) (frames : List Bytes) (status : Status)
  | write (id : Nat) (b : Bytes)
  | closeGroup (id : Nat)
  | abortGroup (id : Nat)
  | close
  | abort
  /-- `TrackProducer.consume` and `TrackConsumer.clone` -/
  | consume
  /-- the fetch of the next group continues -/
  | run (c : Nat)
  | nextGroup (c : Nat)
  | nextFrame (c : Nat) (pick : Pick)
  | closeSub (c : Nat)
  deriving DecidableEq, Repr

inductive Out where
  | ok
  | group (id : Nat)
  /-- the group is too old and was closed -/
  | dropped
  /-- `update` throws "closed" -/
  | threw
  | sub (c : Nat)
  | frame (group frame : Nat) (data : Bytes)
  /-- `nextFrame` goes on with this group; it returns nothing yet -/
  | moved (group : Nat)
  /-- the call returned undefined -/
  | undefined
  /-- the call threw the reason of `abort` -/
  | rejected
  | pending
  /-- not a call the model allows -/
  | invalid
  deriving DecidableEq, Repr

def init : State := ⟨none, 0, .live, 0, [], []⟩

/-- A fetch begins to wait, js/moq/src/util/watch.ts:166. -/
def wait (status : Status) (closed : Bool) : Fetch :=
  if closed then .ready .undefined
  else
    match status with
    | .live => .waiting
    | .closed => .ready .undefined
    | .aborted => .ready .rejected

/-- `this.#groups.next((group) => !!group).then((group) => group?.clone())`, js/moq/src/track.ts:143, 154
and 187: `next`, js/moq/src/util/watch.ts:151-166. -/
def startFetch (s : State) (u : Sub) : Sub :=
  if u.closed then { u with fetch := .done .undefined }
  else if u.epoch ≤ s.epoch then
    match s.latest with
    | some g => { u with epoch := s.epoch + 1, fetch := .done (.value g) }
    | none => { u with epoch := s.epoch + 1, fetch := wait s.status u.closed }
  else { u with fetch := wait s.status u.closed }

/-- The continuation of a fetch, js/moq/src/util/watch.ts:166-176. -/
def run (s : State) (u : Sub) : Out × Sub :=
  match u.fetch with
  | .ready (.value (some g)) => (.ok, { u with epoch := s.epoch + 1, fetch := .done (.value g) })
  | .ready (.value none) => (.ok, { u with epoch := s.epoch + 1, fetch := wait s.status u.closed })
  | .ready .undefined => (.ok, { u with epoch := s.epoch + 1, fetch := .done .undefined })
  | .ready .rejected => (.ok, { u with fetch := .done .rejected })
  | _ => (.invalid, u)

/-- `TrackConsumer.nextGroup`, js/moq/src/track.ts:150-163.  An exception leaves everything as it is. -/
def nextGroup (s : State) (u : Sub) : Out × Sub :=
  match u.fetch with
  | .done (.value g) => (.group g, { startFetch s u with current := some g, frame := 0 })
  | .done .undefined => (.undefined, { startFetch s u with current := none, frame := 0 })
  | .done .rejected => (.rejected, u)
  | _ => (.pending, u)

/-- What there is to know about `#nextFrame`, js/moq/src/track.ts:207-213. -/
inductive FrameNow where
  | data (b : Bytes)
  /-- no group, or the group has ended, or failed -/
  | over
  | notYet
  deriving DecidableEq, Repr

def find (s : State) (id : Nat) : Option Grp := s.groups.find? fun g => g.id = id

def frameNow (s : State) (u : Sub) : FrameNow :=
  match u.current with
  | none => .over
  | some id =>
    match find s id with
    | none => .over
    | some g =>
      match g.frames[u.frame]? with
      | some b => .data b
      | none => if g.status = .live then .notYet else .over

/-- The group is not newer than the current one, js/moq/src/track.ts:189. -/
def stale (u : Sub) (g : Nat) : Bool :=
  match u.current with
  | some c => decide (g ≤ c)
  | none => false

/-- One pass of the loop of `TrackConsumer.nextFrame`, js/moq/src/track.ts:170-203, with `#next`, 206-235.
`pick` says which promise is seen to be settled first; any order is allowed, though the code prefers the
frame if both are settled. -/
def nextFrame (s : State) (u : Sub) (pick : Pick) : Out × Sub :=
  match pick, frameNow s u, u.fetch with
  | .frame, .data b, _ =>
    match u.current with
    | some g => (.frame g u.frame b, { u with frame := u.frame + 1 })
    | none => (.invalid, u)
  | .group, _, .done (.value g) =>
    if stale u g then
      (.pending, startFetch s u)
    else (.moved g, { startFetch s u with current := some g, frame := 0 })
  | .group, _, .done .rejected => (.rejected, u)
  | _, .over, .done .undefined => (.undefined, u)
  | _, _, _ => (.pending, u)

def onSub (s : State) (c : Nat) (f : Sub → Out × Sub) : Out × State :=
  match s.subs[c]? with
  | some u => ((f u).1, { s with subs := s.subs.set c (f u).2 })
  | none => (.invalid, s)

def Fetch.settle (f : Fetch) (s : Settled (Option Nat)) : Fetch :=
  match f with
  | .waiting => .ready s
  | f => f

/-- `WatchProducer.update` while not closed, js/moq/src/util/watch.ts:67-71. -/
def update (s : State) (latest : Option Nat) : State :=
  { s with
    latest := latest
    epoch := s.epoch + 1
    subs := s.subs.map fun u => { u with fetch := u.fetch.settle (.value latest) } }

/-- A new group becomes the newest one, js/moq/src/track.ts:38-42 and 57-61.  `#next` is set before
`update` throws. -/
def add (s : State) (g : Grp) (o : Out) : Out × State :=
  if s.status = .live then
    (o, { update s (some g.id) with
      next := g.id + 1
      groups := s.groups ++ [g] })
  else (.threw, { s with next := g.id + 1 })

/-- Change a group that has not ended.  If it has, `writeFrame` throws; `close` and `abort` do nothing, for
which the output is `threw`, too. -/
def onGroup (s : State) (id : Nat) (f : Grp → Grp) : Out × State :=
  match find s id with
  | some g =>
    if g.status = .live then
      (.ok, { s with groups := s.groups.map fun x => if x.id = id then f x else x })
    else (.threw, s)
  | none => (.invalid, s)

def step (s : State) : Op → Out × State
  /- `TrackProducer.appendGroup`, js/moq/src/track.ts:35-45 -/
  | .append => add s ⟨s.next, [], .live⟩ (.group s.next)
  /- `TrackProducer.insertGroup`, js/moq/src/track.ts:51-62 -/
  | .insert id frames status =>
    if id < s.next then (.dropped, s) else add s ⟨id, frames, status⟩ .ok
  | .write id b => onGroup s id fun g => { g with frames := g.frames ++ [b] }
  | .closeGroup id => onGroup s id fun g => { g with status := .closed }
  | .abortGroup id => onGroup s id fun g => { g with status := .aborted }
  /- `TrackProducer.close`, js/moq/src/track.ts:67-76 -/
  | .close =>
    if s.status = .live then (.ok, { update s none with status := .closed }) else (.ok, s)
  /- `TrackProducer.abort`, js/moq/src/track.ts:98-106 -/
  | .abort =>
    if s.status = .live then (.ok, { update s none with status := .aborted }) else (.ok, s)
  /- js/moq/src/track.ts:90-92 and 137-144 -/
  | .consume =>
    (.sub s.subs.length, { s with subs := s.subs ++ [startFetch s ⟨0, false, .waiting, none, 0⟩] })
  | .run c => onSub s c (run s)
  | .nextGroup c => onSub s c (nextGroup s)
  | .nextFrame c pick => onSub s c fun u => nextFrame s u pick
  /- `TrackConsumer.close`, js/moq/src/track.ts:251-259: `#nextGroup` is undefined from then on -/
  | .closeSub c => onSub s c fun u =>
      (.ok, { u with
        closed := true
        fetch := .done .undefined
        current := none })

/-- The machine of a track in the browser. -/
abbrev machine : Machine := { State := State, Op := Op, Out := Out, init := init, step := step }

/-! ## Vocabulary of histories -/

abbrev Trace := List (Op × Out)

/-- The numbers of the groups the track took. -/
def accepted (tr : Trace) : List Nat :=
  tr.filterMap fun e =>
    match e with
    | (.append, .group g) => some g
    | (.insert g _ _, .ok) => some g
    | _ => none

/-- The frames of a group so far. -/
def content (tr : Trace) (id : Nat) : List Bytes :=
  tr.flatMap fun e =>
    match e with
    | (.insert g fs _, .ok) => if g = id then fs else []
    | (.write g b, .ok) => if g = id then [b] else []
    | _ => []

/-- The group an entry brings to a consumer. -/
def arrival (c : Nat) : Op × Out → Option Nat
  | (.nextGroup c', .group g) => if c' = c then some g else none
  | (.nextFrame c' _, .moved g) => if c' = c then some g else none
  | _ => none

/-- The groups a consumer was given, by `nextGroup` or within `nextFrame`. -/
def seen (tr : Trace) (c : Nat) : List Nat := tr.filterMap (arrival c)

/-- The frame an entry brings to a consumer. -/
def delivery (c : Nat) : Op × Out → Option (Nat × Nat × Bytes)
  | (.nextFrame c' _, .frame g k b) => if c' = c then some (g, k, b) else none
  | _ => none

/-- The frames `nextFrame` returned to a consumer: group, index, data. -/
def delivered (tr : Trace) (c : Nat) : List (Nat × Nat × Bytes) := tr.filterMap (delivery c)

/-- How the track was ended, first come first served. -/
def ending (tr : Trace) : Option Op :=
  (tr.map (·.1)).find? fun op => op = .close ∨ op = .abort

/-- The consumer was closed. -/
def Closed (tr : Trace) (c : Nat) : Prop := (.closeSub c, .ok) ∈ tr

/-- The group has ended, in whatever way. -/
def GroupEnded (tr : Trace) (id : Nat) : Prop :=
  (.closeGroup id, .ok) ∈ tr ∨ (.abortGroup id, .ok) ∈ tr ∨
    ∃ fs st, st ≠ .live ∧ (.insert id fs st, .ok) ∈ tr

end Verif.Js.Track
