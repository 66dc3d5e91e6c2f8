import Verif.Base

/-!
# Model of `unused` in `js/moq/src/util/watch.ts`

How a `WatchProducer` counts its consumers and tells that there is none.  Producers of broadcasts,
tracks and groups pass `unused` on.  The values that are watched are not part of this model.

`unused()` waits for the promise that is current when it is called; so a call is the number of that
promise, and `poll` asks whether it has settled.
-/

set_option autoImplicit false

namespace Verif.Js.Unused

open Verif

/-- A `Deferred`, js/moq/src/util/watch.ts:1-19: only the first settling counts. -/
inductive Promise where
  | pending
  | resolved
  | rejected
  deriving DecidableEq, Repr

/-- A promise is resolved or rejected. -/
def Promise.settle (p to : Promise) : Promise :=
  match p with
  | .pending => to
  | p => p

/-- The part of `WatchProducer`, js/moq/src/util/watch.ts:24-45, that counts consumers, its consumers
(whether each was closed, `#closed` of 129) and the calls of `unused`. -/
structure State where
  consumers : Int
  /-- all promises that were `#unused`; the last one is the current one -/
  promises : List Promise
  handles : List Bool
  calls : List Nat
  deriving DecidableEq, Repr

inductive Op where
  /-- `WatchProducer.consume`, also for `WatchConsumer.clone` -/
  | consume
  | closeHandle (c : Nat)
  | close
  | abort
  | unused
  /-- has the call of `unused` returned? -/
  | poll (k : Nat)
  deriving DecidableEq, Repr

inductive Out where
  | ok
  | handle (c : Nat)
  | call (k : Nat)
  | promise (p : Promise)
  | invalid
  deriving DecidableEq, Repr

/-- The constructor, js/moq/src/util/watch.ts:37-45: the first promise is resolved at once. -/
def init : State := ⟨0, [.resolved], [], []⟩

/-- The current promise is settled. -/
def settle (ps : List Promise) (to : Promise) : List Promise :=
  ps.modify (ps.length - 1) (·.settle to)

def step (s : State) : Op → Out × State
  /- js/moq/src/util/watch.ts:100-107 -/
  | .consume =>
    (.handle s.handles.length, { s with
      promises := if s.consumers = 0 then s.promises ++ [.pending] else s.promises
      consumers := s.consumers + 1
      handles := s.handles ++ [false] })
  /- `WatchConsumer.close`, js/moq/src/util/watch.ts:207-213, and `unsubscribe`, 109-115 -/
  | .closeHandle c =>
    if c < s.handles.length then
      (.ok, { s with
        consumers := s.consumers - 1
        promises := if s.consumers - 1 = 0 then settle s.promises .resolved else s.promises
        handles := s.handles.set c true })
    else (.invalid, s)
  /- js/moq/src/util/watch.ts:74-81 -/
  | .close => (.ok, { s with promises := settle s.promises .resolved })
  /- js/moq/src/util/watch.ts:83-90 -/
  | .abort => (.ok, { s with promises := settle s.promises .rejected })
  /- js/moq/src/util/watch.ts:96-98 -/
  | .unused => (.call s.calls.length, { s with calls := s.calls ++ [s.promises.length - 1] })
  | .poll k =>
    match s.calls[k]? with
    | some g => (.promise (s.promises[g]?.getD .pending), s)
    | none => (.invalid, s)

/-- The machine of one producer and the count of its consumers. -/
abbrev machine : Machine := { State := State, Op := Op, Out := Out, init := init, step := step }

/-! ## Vocabulary of histories -/

abbrev Trace := List (Op × Out)

/-- The consumer was made and not closed. -/
def Open (tr : Trace) (c : Nat) : Prop := (.consume, .handle c) ∈ tr ∧ (.closeHandle c, .ok) ∉ tr

/-- No consumer is closed twice. -/
def Tidy (tr : Trace) : Prop := ∀ c, tr.count (.closeHandle c, .ok) ≤ 1

/-- The producer was closed or aborted. -/
def Ended (tr : Trace) : Prop := (.close, .ok) ∈ tr ∨ (.abort, .ok) ∈ tr

/-- The call `k` of `unused` was made. -/
def Called (tr : Trace) (k : Nat) : Prop := (.unused, .call k) ∈ tr

/-- There was a moment since the call at which no consumer was open. -/
def Free (tr : Trace) (k : Nat) : Prop :=
  ∃ now later, tr = now ++ later ∧ Called now k ∧ ∀ c, ¬ Open now c

/-- The producer was closed or aborted after the call. -/
def EndedSince (tr : Trace) (k : Nat) : Prop :=
  ∃ before op after, tr = before ++ (op, .ok) :: after ∧ Called before k ∧ (op = .close ∨ op = .abort)

end Verif.Js.Unused
