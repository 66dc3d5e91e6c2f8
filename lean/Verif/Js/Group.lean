import Verif.Base

/-!
# Model of `js/moq/src/group.ts` on top of `js/moq/src/util/watch.ts`

The frames of a group in the browser.  `GroupProducer` holds a `WatchProducer` of the list of
frames; every `GroupConsumer` holds a `WatchConsumer` of it and the number of frames it has read.

JavaScript runs one piece of code at a time, and a pending `await` continues at some later time.
So a call of `nextFrame` is a step that returns or leaves the call pending; an event that settles the
promise the call waits for fixes what it will continue with (`Call.ready`); and the continuation is a
step of its own (`resume`), at any later time: other steps may come in between.  (The real order of
continuations is one of those.)

One consumer has at most one call of `nextFrame` pending, as in all callers.
-/

set_option autoImplicit false

namespace Verif.Js.Group

open Verif

/-- The promise `#closed` of a producer, js/moq/src/util/watch.ts:27: the first of `close` and `abort`
settles it. -/
inductive Status where
  | live
  | closed
  | aborted
  deriving DecidableEq, Repr

/-- What a promise was settled with. -/
inductive Settled (α : Type) where
  /-- `#next` was resolved by `update`, js/moq/src/util/watch.ts:70 -/
  | value (v : α)
  /-- `#closed` of the producer or of the consumer was resolved -/
  | undefined
  /-- `#closed` of the producer was rejected -/
  | rejected
  deriving DecidableEq, Repr

/-- A call of `when` or `next`. -/
inductive Call (α : Type) where
  /-- there is none -/
  | idle
  /-- it waits at `Promise.race`, js/moq/src/util/watch.ts:166 and 192 -/
  | waiting
  /-- the race is decided, the call has not continued -/
  | ready (s : Settled α)
  deriving DecidableEq, Repr

/-- The race a waiting call waits for is decided. -/
def Call.settle {α : Type} (c : Call α) (s : Settled α) : Call α :=
  match c with
  | .waiting => .ready s
  | c => c

/-- The consumer's own `#closed` is resolved, js/moq/src/util/watch.ts:208. -/
def Call.cancel {α : Type} (c : Call α) (overtakes : Bool) : Call α :=
  match c with
  | .waiting => .ready .undefined
  | .ready s => .ready (if overtakes then .undefined else s)
  | .idle => .idle

/-- A call begins to wait: `Promise.race([this.#watch.updated(), this.#closed.promise])`,
js/moq/src/util/watch.ts:166 and 192, with `updated`, 51-53.  The consumer's own promise is the one that
settles sooner if both are settled. -/
def wait {α : Type} (status : Status) (closed : Bool) : Call α :=
  if closed then .ready .undefined
  else
    match status with
    | .live => .waiting
    | .closed => .ready .undefined
    | .aborted => .ready .rejected

/-- `GroupConsumer`, js/moq/src/group.ts:66-83, with its `WatchConsumer`. -/
structure Handle where
  index : Nat
  closed : Bool
  call : Call (List Bytes)
  deriving DecidableEq, Repr

/-- A `GroupProducer` and its consumers. -/
structure State where
  frames : List Bytes
  status : Status
  handles : List Handle
  deriving DecidableEq, Repr

inductive Op where
  | write (b : Bytes)
  | close
  | abort
  /-- `GroupProducer.consume` and `GroupConsumer.clone`, js/moq/src/group.ts:56-58 and 105-107: both
  start at the first frame -/
  | consume
  | nextFrame (c : Nat)
  /-- the pending call of `nextFrame` continues -/
  | resume (c : Nat)
  /-- `overtakes`: a decision of the producer is still on its way through `updated`, which is an async
  function and so takes some turns longer than the consumer's own promise -/
  | closeHandle (c : Nat) (overtakes : Bool)
  deriving DecidableEq, Repr

inductive Out where
  | ok
  /-- `update` throws "closed" -/
  | threw
  | handle (c : Nat)
  | frame (b : Bytes)
  /-- the call returned undefined -/
  | undefined
  /-- the call threw the reason of `abort` -/
  | rejected
  | pending
  /-- not a call the model allows -/
  | invalid
  deriving DecidableEq, Repr

def init : State := ⟨[], .live, []⟩

/-- What happens to all waiting calls. -/
def settleAll (hs : List Handle) (s : Settled (List Bytes)) : List Handle :=
  hs.map fun h => { h with call := h.call.settle s }

/-- One look of `when`, js/moq/src/util/watch.ts:186-200, for the filter of
`GroupConsumer.nextFrame`, and the rest of `nextFrame`, js/moq/src/group.ts:91, on a list of
frames. -/
def look (status : Status) (frames : List Bytes) (h : Handle) : Out × Handle :=
  match frames[h.index]? with
  | some b => (.frame b, { h with index := h.index + 1, call := .idle })
  | none => (.pending, { h with call := wait status h.closed })

/-- `GroupConsumer.nextFrame`, js/moq/src/group.ts:89-92: `when`, js/moq/src/util/watch.ts:181-201.
The `await` of a promise that is settled already is no step of its own: nothing the call still uses can
change before it continues. -/
def nextFrame (s : State) (h : Handle) : Out × Handle :=
  if h.closed then (.undefined, h) else look s.status s.frames h

/-- The continuation of `nextFrame`, js/moq/src/util/watch.ts:193-200. -/
def resume (s : State) (h : Handle) : Out × Handle :=
  match h.call with
  | .ready (.value fs) => look s.status fs h
  | .ready .undefined => (.undefined, { h with call := .idle })
  | .ready .rejected => (.rejected, { h with call := .idle })
  | _ => (.invalid, h)

/-- A step on one consumer. -/
def onHandle (s : State) (c : Nat) (f : Handle → Out × Handle) : Out × State :=
  match s.handles[c]? with
  | some h => ((f h).1, { s with handles := s.handles.set c (f h).2 })
  | none => (.invalid, s)

/-- The methods of `GroupProducer` and `GroupConsumer`. -/
def step (s : State) : Op → Out × State
  /- `GroupProducer.writeFrame`, js/moq/src/group.ts:29-31, and `WatchProducer.update`,
  js/moq/src/util/watch.ts:55-72 -/
  | .write b =>
    if s.status = .live then
      (.ok, { s with
        frames := s.frames ++ [b]
        handles := settleAll s.handles (.value (s.frames ++ [b])) })
    else (.threw, s)
  /- `WatchProducer.close`, js/moq/src/util/watch.ts:74-81 -/
  | .close =>
    if s.status = .live then
      (.ok, { s with status := .closed, handles := settleAll s.handles .undefined })
    else (.ok, s)
  /- `WatchProducer.abort`, js/moq/src/util/watch.ts:83-90 -/
  | .abort =>
    if s.status = .live then
      (.ok, { s with status := .aborted, handles := settleAll s.handles .rejected })
    else (.ok, s)
  | .consume => (.handle s.handles.length, { s with handles := s.handles ++ [⟨0, false, .idle⟩] })
  | .nextFrame c => onHandle s c fun h =>
      if h.call = .idle then nextFrame s h else (.invalid, h)
  | .resume c => onHandle s c (resume s)
  /- `GroupConsumer.close`, js/moq/src/group.ts:97-99, and `WatchConsumer.close`,
  js/moq/src/util/watch.ts:207-213 -/
  | .closeHandle c overtakes => onHandle s c fun h =>
      (.ok, { h with closed := true, call := h.call.cancel overtakes })

/-- The machine of a group in the browser. -/
abbrev machine : Machine := { State := State, Op := Op, Out := Out, init := init, step := step }

/-! ## Vocabulary of histories -/

abbrev Trace := List (Op × Out)

/-- The frames written. -/
def written (tr : Trace) : List Bytes :=
  tr.filterMap fun e =>
    match e with
    | (.write b, .ok) => some b
    | _ => none

/-- The answer to a call of `nextFrame` of a consumer, or to its continuation. -/
def answer (c : Nat) : Op × Out → Option Out
  | (.nextFrame c', o) => if c' = c ∧ o ≠ .invalid then some o else none
  | (.resume c', o) => if c' = c ∧ o ≠ .invalid then some o else none
  | _ => none

/-- All of them. -/
def answers (tr : Trace) (c : Nat) : List Out := tr.filterMap (answer c)

/-- The frame in an answer. -/
def Out.frame? : Out → Option Bytes
  | .frame b => some b
  | _ => none

/-- The frames a consumer was given. -/
def got (tr : Trace) (c : Nat) : List Bytes := (answers tr c).filterMap Out.frame?

/-- How the group was ended, first come first served. -/
def ending (tr : Trace) : Option Op :=
  (tr.map (·.1)).find? fun op => op = .close ∨ op = .abort

/-- The consumer was closed. -/
def Closed (tr : Trace) (c : Nat) : Prop := ∃ o, (.closeHandle c o, .ok) ∈ tr

/-- The last answer of a call of this consumer: it waits if that is `pending`. -/
def Waits (tr : Trace) (c : Nat) : Prop := (answers tr c).getLast? = some .pending

end Verif.Js.Group
