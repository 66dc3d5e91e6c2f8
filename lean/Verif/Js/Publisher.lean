import Verif.Js.Announced

/-!
# Model of `js/moq/src/publisher.ts`: publishing and announcing broadcasts

A broadcast is a number; that its consumer's `closed()` settled (the producer was closed or aborted,
or the consumer was closed) is the event `over`.  `#runPublish` runs up to its `await` inside
`publish`, and its continuation is a step of its own (`run`), at any time after the broadcast is over.

The queue of announcements is `Verif.Js.Announced`; every announce stream has a consumer of it, and
`runAnnounce` writes what that consumer's `next` returns to the stream.
-/

set_option autoImplicit false

namespace Verif.Js.Publisher

open Verif

export Verif.Js.Announced (Str Announce)

/-- One call of `#runPublish`, js/moq/src/publisher.ts:51-76. -/
structure Task where
  path : Str
  broadcast : Nat
  done : Bool
  deriving DecidableEq, Repr

/-- `Publisher`, js/moq/src/publisher.ts:13-21. -/
structure State where
  announced : Announced.State
  /-- `#broadcasts`: a `Map`, with at most one entry per path -/
  broadcasts : List (Str × Nat)
  over : List Nat
  tasks : List Task
  deriving DecidableEq, Repr

inductive Op where
  | publish (path : Str) (broadcast : Nat)
  /-- `closed()` of the broadcast settles -/
  | over (broadcast : Nat)
  /-- the continuation of a call of `#runPublish` -/
  | run (task : Nat)
  /-- the lookup of `consume` and `runSubscribe`, js/moq/src/publisher.ts:38-40 and 105-110 -/
  | lookup (path : Str)
  /-- `runAnnounce` for a new stream, js/moq/src/publisher.ts:85-86 -/
  | interest (pre : Str)
  /-- the next round of the loop of `runAnnounce`, js/moq/src/publisher.ts:88-94, or the continuation of
  a round that waits: a message is written to the stream, or the round waits -/
  | next (stream : Nat)
  | resume (stream : Nat)
  deriving DecidableEq, Repr

inductive Out where
  | ok
  /-- the broadcast of this path was taken back -/
  | ended (path : Str)
  | found (broadcast : Option Nat)
  | queue (o : Announced.Out)
  /-- not a call the model allows -/
  | invalid
  deriving DecidableEq, Repr

def init : State := ⟨Announced.init, [], [], []⟩

/-- `Map.get`. -/
def get (m : List (Str × Nat)) (path : Str) : Option Nat :=
  (m.find? fun e => e.1 = path).map (·.2)

/-- `Map.delete`. -/
def delete (m : List (Str × Nat)) (path : Str) : List (Str × Nat) := m.filter fun e => e.1 ≠ path

/-- `Map.set`: the order of a `Map` is not used. -/
def put (m : List (Str × Nat)) (path : Str) (b : Nat) : List (Str × Nat) := (path, b) :: delete m path

/-- `this.#announced.write`, js/moq/src/publisher.ts:53-56 and 71-74. -/
def announce (s : Announced.State) (path : Str) (active : Bool) : Announced.State :=
  (Announced.step s (.write ⟨path, active⟩)).2

/-- The queue does a step. -/
def onQueue (s : State) (op : Announced.Op) : Out × State :=
  (.queue (Announced.step s.announced op).1,
    { s with announced := (Announced.step s.announced op).2 })

def step (s : State) : Op → Out × State
  /- `publish`, js/moq/src/publisher.ts:46-49, and `#runPublish` up to its `await`, 51-61 -/
  | .publish path b =>
    (.ok, { s with
      broadcasts := put s.broadcasts path b
      announced := announce s.announced path true
      tasks := s.tasks ++ [⟨path, b, false⟩] })
  | .over b => (.ok, { s with over := b :: s.over })
  /- `#runPublish` from its `await` on, js/moq/src/publisher.ts:61-75 -/
  | .run t =>
    match s.tasks[t]? with
    | none => (.invalid, s)
    | some k =>
      if k.done = false ∧ k.broadcast ∈ s.over then
        (.ended k.path, { s with
          broadcasts := delete s.broadcasts k.path
          announced := announce s.announced k.path false
          tasks := s.tasks.set t { k with done := true } })
      else (.invalid, s)
  | .lookup path => (.found (get s.broadcasts path), s)
  | .interest pre => onQueue s (.consume pre)
  | .next c => onQueue s (.next c)
  | .resume c => onQueue s (.resume c)

/-- The machine of the publishing side of a connection in the browser. -/
abbrev machine : Machine := { State := State, Op := Op, Out := Out, init := init, step := step }

/-! ## Vocabulary of histories -/

abbrev Trace := List (Op × Out)

/-- The broadcasts published, in order: the number of a publication is its place. -/
def published (tr : Trace) : List (Str × Nat) :=
  tr.filterMap fun e =>
    match e with
    | (.publish path b, .ok) => some (path, b)
    | _ => none

/-- The broadcast is over. -/
def Over (tr : Trace) (b : Nat) : Prop := (.over b, .ok) ∈ tr

/-- The publication was taken back. -/
def TakenBack (tr : Trace) (t : Nat) : Prop := ∃ path, (.run t, .ended path) ∈ tr

/-- What was announced: every publication when it is made, and its end when it is taken back. -/
def announcements (tr : Trace) : List Announce :=
  tr.filterMap fun e =>
    match e with
    | (.publish path _, .ok) => some ⟨path, true⟩
    | (.run _, .ended path) => some ⟨path, false⟩
    | _ => none

/-- The prefixes of the announce streams. -/
def streams (tr : Trace) : List Str :=
  tr.filterMap fun e =>
    match e with
    | (.interest pre, .queue (.handle _)) => some pre
    | _ => none

/-- The messages written to an announce stream. -/
def sent (tr : Trace) (c : Nat) : List Announce :=
  tr.filterMap fun e =>
    match e with
    | (.next c', .queue (.announce a)) => if c' = c then some a else none
    | (.resume c', .queue (.announce a)) => if c' = c then some a else none
    | _ => none

/-- The announcements of one path, as flags. -/
def flags (as : List Announce) (path : Str) : List Bool :=
  as.filterMap fun a => if a.path = path then some a.active else none

/-- A list of flags that alternates, beginning with `next`. -/
def Alternates (next : Bool) : List Bool → Prop
  | [] => True
  | b :: bs => b = next ∧ Alternates (!next) bs

/-- No path is published while it is published. -/
def Polite : Trace → Prop := fun tr =>
  ∀ before after path b o, tr = before ++ (.publish path b, o) :: after →
    ∀ t b', (published before)[t]? = some (path, b') → TakenBack before t

end Verif.Js.Publisher
