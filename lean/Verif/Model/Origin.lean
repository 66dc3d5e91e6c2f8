import Verif.Slots

/-!
# Model of `rs/moq/src/model/origin.rs`

One origin with any number of producer handles and consumers, the broadcasts announced through
it, and the tasks it spawns.  A broadcast is a number; the only thing that matters here is
whether it is closed (`BroadcastConsumer::closed`, see `Verif/Model/Broadcast.lean`), and that
never reverts.  A path is a list of characters (`str::strip_prefix` on UTF-8 strings is prefix
removal on characters).

Atomic steps.  `publish` holds the lock of the origin but visits the consumers one after the
other, each with its own lock; so it is a sequence of steps, during which every operation that
needs the lock of the origin is blocked.  `OriginConsumer::next` first looks into the queue and
then waits for a notification, in two steps.  `OriginConsumer::clone` takes two locks one after
the other, in two steps.
-/

set_option autoImplicit false

namespace Verif.Model.Origin

open Verif

/-- A path or a part of one. -/
abbrev Path := List Char

/-- `str::strip_prefix`. -/
def strip : Path → Path → Option Path
  | [], path => some path
  | _ :: _, [] => none
  | a :: pre, b :: path => if a = b then strip pre path else none

/-- What a consumer is doing. -/
inductive Phase where
  /-- between the two locks of `clone`, rs/moq/src/model/origin.rs:203-207 -/
  | cloning
  | idle
  /-- in `next`, after finding the queue empty, rs/moq/src/model/origin.rs:192 -/
  | waiting
  deriving DecidableEq

/-- An `OriginConsumer` with its `ConsumerState` and the notification channel of capacity one,
rs/moq/src/model/origin.rs:52-55 and 166-170. -/
structure Cons where
  pre : Path
  updates : List (Path × Nat)
  /-- the channel holds a notification -/
  token : Bool
  phase : Phase

/-- A `publish` in progress, rs/moq/src/model/origin.rs:14-29. -/
structure Pub where
  producer : Nat
  path : Path
  bc : Nat
  /-- the index of the loop -/
  i : Nat
  /-- line 19 was executed for this consumer and line 20 is next -/
  notify : Option Nat

/-- The state of an origin and of all its handles. -/
structure State where
  /-- `ProducerState::active`, rs/moq/src/model/origin.rs:9; at most one entry per path -/
  active : List (Path × Nat)
  /-- `ProducerState::consumers`, rs/moq/src/model/origin.rs:10, by the number of the consumer -/
  entries : List Nat
  consumers : Slots Cons
  producers : Slots Unit
  /-- the tasks spawned by `publish`, rs/moq/src/model/origin.rs:84-88; each holds the origin -/
  tasks : Slots (Path × Nat)
  /-- the broadcasts that are closed -/
  closed : List Nat
  /-- the lock of the origin, if it is held by `publish` -/
  pub : Option Pub

/-- Operations. -/
inductive Op where
  /-- `OriginProducer::publish` up to the lock -/
  | publishStart (p : Nat) (path : Path) (bc : Nat)
  /-- one more step of `publish` -/
  | publishStep
  /-- `OriginProducer::consume` -/
  | lookup (p : Nat) (path : Path)
  /-- `consume_prefix`; `order` is the order in which the hash map is iterated -/
  | consumePrefix (p : Nat) (pre : Path) (order : List (Path × Nat))
  /-- one call of `unused_inner` -/
  | unused (p : Nat)
  | cloneProducer (p : Nat)
  | dropProducer (p : Nat)
  /-- a broadcast is closed by its producer -/
  | close (bc : Nat)
  /-- a task spawned by `publish` is polled -/
  | task (k : Nat)
  /-- `next` looks into the queue -/
  | check (c : Nat)
  /-- `next` polls the notification channel -/
  | recv (c : Nat)
  /-- the future of `next` is dropped -/
  | cancel (c : Nat)
  /-- the first half of `clone` -/
  | cloneStart (c : Nat)
  /-- the second half of `clone`, for the new consumer -/
  | cloneFinish (c : Nat)
  | dropConsumer (c : Nat)
  deriving DecidableEq

/-- Outputs. -/
inductive Out where
  | ok
  | handle (id : Nat)
  | pending
  /-- the lock of the origin is taken -/
  | blocked
  /-- the end of `publish`, with its arguments and its result -/
  | published (path : Path) (bc : Nat) (unique : Bool)
  | found (bc : Nat)
  | notFound
  /-- a task removed what was published under this path when its broadcast closed -/
  | removed (path : Path) (bc : Nat)
  /-- `next` returns an announcement -/
  | item (suffix : Path) (bc : Nat)
  /-- `next` found the queue empty -/
  | empty
  /-- `next` was notified and looks again -/
  | woken
  /-- `next` returns `None` -/
  | ended
  | invalid
  deriving DecidableEq

/-- `OriginProducer::new`, rs/moq/src/model/origin.rs:75-77 -/
def init : State := ⟨[], [], [], [some ()], [], [], none⟩

/-- `HashMap::get`. -/
def get (m : List (Path × Nat)) (path : Path) : Option Nat :=
  (m.find? fun e => e.1 == path).map (·.2)

/-- `HashMap::remove`. -/
def remove (m : List (Path × Nat)) (path : Path) : List (Path × Nat) :=
  m.filter fun e => e.1 != path

/-- `HashMap::insert`. -/
def insert (m : List (Path × Nat)) (path : Path) (bc : Nat) : List (Path × Nat) :=
  (path, bc) :: remove m path

/-- `Vec::swap_remove`. -/
def swapRemove (l : List Nat) (i : Nat) : List Nat :=
  match l.getLast? with
  | some x => (l.set i x).dropLast
  | none => l

/-- The updates a consumer with this prefix gets for a list of broadcasts,
rs/moq/src/model/origin.rs:35-39 and 59-60. -/
def matching (pre : Path) (l : List (Path × Nat)) : List (Path × Nat) :=
  l.filterMap fun e => (strip pre e.1).map fun suffix => (suffix, e.2)

/-- `notify.try_send(())`, rs/moq/src/model/origin.rs:20: nothing changes if the channel is full
or its receiver is gone. -/
def wake (cs : Slots Cons) (c : Nat) : Slots Cons :=
  match cs.get c with
  | some k => cs.put c (some { k with token := true })
  | none => cs

/-- Something keeps the `ProducerState` alive. -/
def State.alive (s : State) : Bool := decide (0 < s.producers.count + s.tasks.count)

/-- One operation. -/
def step (s : State) : Op → Out × State
  | .publishStart p path bc =>
    match s.producers.get p, s.pub with
    | none, _ => (.invalid, s)
    | some _, some _ => (.blocked, s)
    | some _, none => (.ok, { s with pub := some ⟨p, path, bc, 0, none⟩ })
  | .publishStep =>
    match s.pub with
    | none => (.invalid, s)
    | some u =>
      match u.notify with
      /- rs/moq/src/model/origin.rs:20-22 -/
      | some c =>
        (.pending,
          { s with
            consumers := wake s.consumers c
            pub := some { u with i := u.i + 1, notify := none } })
      | none =>
        match s.entries[u.i]? with
        | some c =>
          match s.consumers.get c with
          /- rs/moq/src/model/origin.rs:24 -/
          | none => (.pending, { s with entries := swapRemove s.entries u.i })
          | some k =>
            /- rs/moq/src/model/origin.rs:19 and 58-65 -/
            match strip k.pre u.path with
            | some suffix =>
              (.pending,
                { s with
                  consumers :=
                    s.consumers.put c (some { k with updates := k.updates ++ [(suffix, u.bc)] })
                  pub := some { u with notify := some c } })
            | none => (.pending, { s with pub := some { u with i := u.i + 1 } })
        /- rs/moq/src/model/origin.rs:28 and 82-90 -/
        | none =>
          (.published u.path u.bc (get s.active u.path).isNone,
            { s with
              active := insert s.active u.path u.bc
              tasks := s.tasks.add (u.path, u.bc)
              pub := none })
  /- rs/moq/src/model/origin.rs:122-124 -/
  | .lookup p path =>
    match s.producers.get p, s.pub with
    | none, _ => (.invalid, s)
    | some _, some _ => (.blocked, s)
    | some _, none =>
      match get s.active path with
      | some bc => (.found bc, s)
      | none => (.notFound, s)
  /- rs/moq/src/model/origin.rs:132-137, 31-42 and 44-48 -/
  | .consumePrefix p pre order =>
    match s.producers.get p, s.pub with
    | none, _ => (.invalid, s)
    | some _, some _ => (.blocked, s)
    | some _, none =>
      if order.isPerm s.active then
        (.handle s.consumers.length,
          { s with
            consumers := s.consumers.add ⟨pre, matching pre order, false, .idle⟩
            entries := s.entries ++ [s.consumers.length] })
      else (.invalid, s)
  /- rs/moq/src/model/origin.rs:150-162; the channel that is waited on is not modelled -/
  | .unused p =>
    match s.producers.get p, s.pub with
    | none, _ => (.invalid, s)
    | some _, some _ => (.blocked, s)
    | some _, none =>
      let rest := (s.entries.reverse.dropWhile fun c => (s.consumers.get c).isNone).reverse
      (if rest = [] then .ok else .pending, { s with entries := rest })
  /- `#[derive(Clone)]`, rs/moq/src/model/origin.rs:69.  A producer inside `publish` is borrowed. -/
  | .cloneProducer p =>
    match s.producers.get p with
    | none => (.invalid, s)
    | some _ =>
      if s.pub.map (·.producer) = some p then (.invalid, s)
      else (.handle s.producers.length, { s with producers := s.producers.add () })
  | .dropProducer p =>
    match s.producers.get p with
    | none => (.invalid, s)
    | some _ =>
      if s.pub.map (·.producer) = some p then (.invalid, s)
      else (.ok, { s with producers := s.producers.put p none })
  | .close bc => (.ok, { s with closed := bc :: s.closed })
  /- rs/moq/src/model/origin.rs:85-88 -/
  | .task k =>
    match s.tasks.get k with
    | none => (.invalid, s)
    | some (path, bc) =>
      if bc ∈ s.closed then
        match s.pub with
        | some _ => (.blocked, s)
        | none =>
          (.removed path bc,
            { s with active := remove s.active path, tasks := s.tasks.put k none })
      else (.pending, s)
  /- rs/moq/src/model/origin.rs:184-190 -/
  | .check c =>
    match s.consumers.get c with
    | none => (.invalid, s)
    | some k =>
      if k.phase = .idle then
        match k.updates with
        | (suffix, bc) :: rest =>
          (.item suffix bc, { s with consumers := s.consumers.put c (some { k with updates := rest }) })
        | [] => (.empty, { s with consumers := s.consumers.put c (some { k with phase := .waiting }) })
      else (.invalid, s)
  /- rs/moq/src/model/origin.rs:192: a notification, or the end if no sender is left, or wait.
  The sender is in the list of the origin. -/
  | .recv c =>
    match s.consumers.get c with
    | none => (.invalid, s)
    | some k =>
      if k.phase = .waiting then
        if k.token then
          (.woken,
            { s with consumers := s.consumers.put c (some { k with token := false, phase := .idle }) })
        else if s.alive && decide (c ∈ s.entries) then (.pending, s)
        else (.ended, { s with consumers := s.consumers.put c (some { k with phase := .idle }) })
      else (.invalid, s)
  | .cancel c =>
    match s.consumers.get c with
    | none => (.invalid, s)
    | some k =>
      if k.phase = .waiting then
        (.ok, { s with consumers := s.consumers.put c (some { k with phase := .idle }) })
      else (.invalid, s)
  /- rs/moq/src/model/origin.rs:203 -/
  | .cloneStart c =>
    match s.consumers.get c with
    | none => (.invalid, s)
    | some k =>
      if k.phase = .idle then
        (.handle s.consumers.length,
          { s with consumers := s.consumers.add ⟨k.pre, k.updates, false, .cloning⟩ })
      else (.invalid, s)
  /- rs/moq/src/model/origin.rs:205-215 -/
  | .cloneFinish c =>
    match s.consumers.get c with
    | none => (.invalid, s)
    | some k =>
      if k.phase = .cloning then
        if s.alive then
          match s.pub with
          | some _ => (.blocked, s)
          | none =>
            (.ok,
              { s with
                consumers := s.consumers.put c (some { k with phase := .idle })
                entries := s.entries ++ [c] })
        else (.ok, { s with consumers := s.consumers.put c (some { k with phase := .idle }) })
      else (.invalid, s)
  | .dropConsumer c =>
    match s.consumers.get c with
    | none => (.invalid, s)
    | some k =>
      if k.phase = .idle then (.ok, { s with consumers := s.consumers.put c none })
      else (.invalid, s)

/-- The origin as a machine. -/
abbrev machine : Machine := ⟨State, Op, Out, init, step⟩

end Verif.Model.Origin
