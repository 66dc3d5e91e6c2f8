import Verif.Js.Group
import Verif.Js.Text

/-!
# Model of `js/moq/src/announced.ts` on top of `js/moq/src/util/watch.ts`

The queue of announcements in the browser.  `AnnouncedProducer` holds a `WatchProducer` of the list of
all announcements so far; every `AnnouncedConsumer` holds a `WatchConsumer` of it, a prefix and the
number of announcements it has looked at.

Calls, decisions and continuations are steps as in `Verif.Js.Group`.  The list is changed in place, so
a continuation sees the list as it is when it runs: the decision `value` carries no list.
-/

set_option autoImplicit false

namespace Verif.Js.Announced

open Verif Verif.Js.Group

/-- Paths and prefixes. -/
abbrev Str := JsString

/-- `Announce`, js/moq/src/announced.ts:8-11. -/
structure Announce where
  path : Str
  active : Bool
  deriving DecidableEq, Repr

/-- `AnnouncedConsumer`, js/moq/src/announced.ts:70-87, with its `WatchConsumer`. -/
structure Handle where
  pre : Str
  index : Nat
  closed : Bool
  call : Call Unit
  deriving DecidableEq, Repr

/-- An `AnnouncedProducer` and its consumers. -/
structure State where
  queue : List Announce
  status : Status
  handles : List Handle
  deriving DecidableEq, Repr

inductive Op where
  | write (a : Announce)
  | close
  | abort
  /-- `AnnouncedProducer.consume`, js/moq/src/announced.ts:60-62 -/
  | consume (pre : Str)
  /-- `AnnouncedConsumer.clone`, js/moq/src/announced.ts:131-133: starts at the first announcement -/
  | clone (c : Nat)
  | next (c : Nat)
  /-- the pending call of `next` continues -/
  | resume (c : Nat)
  /-- `overtakes` as in `Verif.Js.Group` -/
  | closeHandle (c : Nat) (overtakes : Bool)
  deriving DecidableEq, Repr

inductive Out where
  | ok
  /-- `update` throws "closed" -/
  | threw
  | handle (c : Nat)
  | announce (a : Announce)
  /-- the call returned undefined -/
  | undefined
  /-- the call threw the reason of `abort` -/
  | rejected
  | pending
  /-- not a call the model allows -/
  | invalid
  deriving DecidableEq, Repr

def init : State := ⟨[], .live, []⟩

/-- The body of the inner loop of `next`, js/moq/src/announced.ts:99-108: an announcement with the
prefix is returned without it. -/
def strip (pre : Str) (a : Announce) : Option Announce :=
  if pre.isPrefixOf a.path then some ⟨a.path.drop pre.length, a.active⟩ else none

/-- The inner loop of `next`, js/moq/src/announced.ts:98-109, over the announcements from `index` on:
the one to return and the new index. -/
def scan (pre : Str) (index : Nat) : List Announce → Option Announce × Nat
  | [] => (none, index)
  | a :: rest =>
    match strip pre a with
    | some b => (some b, index + 1)
    | none => scan pre (index + 1) rest

/-- The loop of `next` from the return of `when` on, js/moq/src/announced.ts:94-110.  When nothing in the
queue has the prefix, `when` is called again, js/moq/src/util/watch.ts:181-201: it returns undefined if
the consumer was closed meanwhile, and waits otherwise. -/
def look (s : State) (h : Handle) : Out × Handle :=
  match scan h.pre h.index (s.queue.drop h.index) with
  | (some a, i) => (.announce a, { h with index := i, call := .idle })
  | (none, i) =>
    if h.closed then (.undefined, { h with index := i, call := .idle })
    else (.pending, { h with index := i, call := wait s.status h.closed })

/-- `AnnouncedConsumer.next`, js/moq/src/announced.ts:93-109.  The first test of `when`, that the queue is
longer than `index`, is part of `look`: with no announcement left `scan` finds none. -/
def next (s : State) (h : Handle) : Out × Handle :=
  if h.closed then (.undefined, h) else look s h

/-- The continuation of `next`, js/moq/src/util/watch.ts:193-200 and js/moq/src/announced.ts:95-109. -/
def resume (s : State) (h : Handle) : Out × Handle :=
  match h.call with
  | .ready (.value _) => look s h
  | .ready .undefined => (.undefined, { h with call := .idle })
  | .ready .rejected => (.rejected, { h with call := .idle })
  | _ => (.invalid, h)

/-- What happens to all waiting calls. -/
def settleAll (hs : List Handle) (s : Settled Unit) : List Handle :=
  hs.map fun h => { h with call := h.call.settle s }

/-- A step on one consumer. -/
def onHandle (s : State) (c : Nat) (f : Handle → Out × Handle) : Out × State :=
  match s.handles[c]? with
  | some h => ((f h).1, { s with handles := s.handles.set c (f h).2 })
  | none => (.invalid, s)

/-- The methods of `AnnouncedProducer` and `AnnouncedConsumer`. -/
def step (s : State) : Op → Out × State
  /- `AnnouncedProducer.write`, js/moq/src/announced.ts:25-30, and `WatchProducer.update`,
  js/moq/src/util/watch.ts:55-72 -/
  | .write a =>
    if s.status = .live then
      (.ok, { s with queue := s.queue ++ [a], handles := settleAll s.handles (.value ()) })
    else (.threw, s)
  /- `WatchProducer.close`, js/moq/src/util/watch.ts:74-81 -/
  | .close =>
    if s.status = .live then
      (.ok, { s with status := .closed, handles := settleAll s.handles .undefined })
    else (.ok, s)
  /- `WatchProducer.abort`, js/moq/src/util/watch.ts:83-90 -/
  | .abort =>
    if s.status = .live then
      (.ok, { s with status := .aborted, handles := settleAll s.handles .rejected })
    else (.ok, s)
  | .consume pre =>
    (.handle s.handles.length, { s with handles := s.handles ++ [⟨pre, 0, false, .idle⟩] })
  | .clone c =>
    match s.handles[c]? with
    | some h =>
      (.handle s.handles.length, { s with handles := s.handles ++ [⟨h.pre, 0, false, .idle⟩] })
    | none => (.invalid, s)
  | .next c => onHandle s c fun h => if h.call = .idle then next s h else (.invalid, h)
  | .resume c => onHandle s c (resume s)
  /- `AnnouncedConsumer.close`, js/moq/src/announced.ts:114-116, and `WatchConsumer.close`,
  js/moq/src/util/watch.ts:207-213 -/
  | .closeHandle c overtakes => onHandle s c fun h =>
      (.ok, { h with closed := true, call := h.call.cancel overtakes })

/-- The machine of a queue of announcements in the browser. -/
abbrev machine : Machine := { State := State, Op := Op, Out := Out, init := init, step := step }

/-! ## Vocabulary of histories -/

abbrev Trace := List (Op × Out)

/-- The announcements written. -/
def written (tr : Trace) : List Announce :=
  tr.filterMap fun e =>
    match e with
    | (.write a, .ok) => some a
    | _ => none

/-- The answer to a call of `next` of a consumer, or to its continuation. -/
def answer (c : Nat) : Op × Out → Option Out
  | (.next c', o) => if c' = c ∧ o ≠ .invalid then some o else none
  | (.resume c', o) => if c' = c ∧ o ≠ .invalid then some o else none
  | _ => none

/-- All of them. -/
def answers (tr : Trace) (c : Nat) : List Out := tr.filterMap (answer c)

/-- The announcement in an answer. -/
def Out.announce? : Out → Option Announce
  | .announce a => some a
  | _ => none

/-- The announcements a consumer was given. -/
def got (tr : Trace) (c : Nat) : List Announce := (answers tr c).filterMap Out.announce?

/-- The prefixes of the consumers, in the order in which they were made. -/
def prefixes (tr : Trace) : List Str :=
  tr.foldl (fun ps e =>
    match e with
    | (.consume pre, .handle _) => ps ++ [pre]
    | (.clone c, .handle _) => ps ++ [ps[c]?.getD []]
    | _ => ps) []

/-- How the queue was ended, first come first served. -/
def ending (tr : Trace) : Option Op :=
  (tr.map (·.1)).find? fun op => op = .close ∨ op = .abort

/-- The consumer was closed. -/
def Closed (tr : Trace) (c : Nat) : Prop := ∃ o, (.closeHandle c o, .ok) ∈ tr

/-- The last answer of a call of this consumer: it waits if that is `pending`. -/
def Waits (tr : Trace) (c : Nat) : Prop := (answers tr c).getLast? = some .pending

/-- What is left of a path after a prefix. -/
def suffixOf : Str → Str → Option Str
  | [], path => some path
  | x :: pre, y :: path => if x = y then suffixOf pre path else none
  | _ :: _, [] => none

/-- What a consumer with a prefix is to be told about an announcement. -/
def told (pre : Str) (a : Announce) : Option Announce :=
  match suffixOf pre a.path with
  | some rest => some ⟨rest, a.active⟩
  | none => none

/-- And about a list of them. -/
def due (pre : Str) (as : List Announce) : List Announce := as.filterMap (told pre)

end Verif.Js.Announced
