import Verif.Model.Origin

/-!
# Specification vocabulary for origins

Everything here is defined from the history of calls and answers only, not from the state of
the model.
-/

set_option autoImplicit false

namespace Verif.Model.Origin.Spec

open Verif Verif.Model.Origin

/-- A history of calls and answers. -/
abbrev Trace := List (Op × Out)

/-- `path` without `pre`, if it begins with it. -/
def without (pre path : Path) : Option Path :=
  if pre <+: path then some (path.drop pre.length) else none

/-- The announcements for a consumer with this prefix. -/
def under (pre : Path) (l : List (Path × Nat)) : List (Path × Nat) :=
  l.filterMap fun e => (without pre e.1).map fun suffix => (suffix, e.2)

/-- What the history says about one consumer. -/
structure View where
  /-- its prefix -/
  pre : Path := []
  /-- the announcements it should receive, in order -/
  expected : List (Path × Nat) := []
  /-- the announcements it has received, in order -/
  delivered : List (Path × Nat) := []
  /-- it exists; a clone does not before the second half of `clone` -/
  exists' : Bool := false
  /-- no `publish` overlapped with the creation of it or of a consumer it was cloned from -/
  clean : Bool := true

/-- What the history says about the consumers, and whether a `publish` is in progress. -/
structure Book where
  view : Nat → View := fun _ => {}
  publishing : Bool := false

/-- The book after one more event.  A clone inherits from the original what it should receive
and what it has received. -/
def note (b : Book) : Op × Out → Book
  | (.consumePrefix _ pre order, .handle c) =>
    { b with view := fun x =>
        if x = c then { pre := pre, expected := under pre order, exists' := true } else b.view x }
  | (.publishStart _ path bc, .ok) =>
    { view := fun x =>
        if (b.view x).exists' then
          { b.view x with expected := (b.view x).expected ++ under (b.view x).pre [(path, bc)] }
        else { b.view x with clean := false }
      publishing := true }
  | (.publishStep, .published _ _ _) => { b with publishing := false }
  | (.cloneStart d, .handle c) =>
    { b with view := fun x =>
        if x = c then
          { b.view d with exists' := false, clean := (b.view d).clean && !b.publishing }
        else b.view x }
  | (.cloneFinish c, .ok) =>
    { b with view := fun x => if x = c then { b.view x with exists' := true } else b.view x }
  | (.check c, .item suffix bc) =>
    { b with view := fun x =>
        if x = c then { b.view x with delivered := (b.view x).delivered ++ [(suffix, bc)] }
        else b.view x }
  | _ => b

/-- The book of a history. -/
def book (tr : Trace) : Book := tr.foldl note {}

/-- The announcements consumer `c` should receive in total, in order: what was available when it
was created and what was published since, seen from its prefix. -/
def expected (tr : Trace) (c : Nat) : List (Path × Nat) := ((book tr).view c).expected

/-- The announcements consumer `c` has received, in order. -/
def delivered (tr : Trace) (c : Nat) : List (Path × Nat) := ((book tr).view c).delivered

/-- The prefix of consumer `c`. -/
def prefixOf (tr : Trace) (c : Nat) : Path := ((book tr).view c).pre

/-- No `publish` overlapped with a `clone` that led to consumer `c`. -/
def Clean (tr : Trace) (c : Nat) : Prop := ((book tr).view c).clean = true

/-- A `publish` has begun and not ended. -/
def Publishing (tr : Trace) : Prop := (book tr).publishing = true

/-- Consumer `c` was created. -/
def ConsumerMade (tr : Trace) (c : Nat) : Prop :=
  (∃ p pre order, (Op.consumePrefix p pre order, Out.handle c) ∈ tr) ∨
    ∃ d, (Op.cloneStart d, Out.handle c) ∈ tr

/-- Consumer `c` was dropped. -/
def ConsumerGone (tr : Trace) (c : Nat) : Prop := (Op.dropConsumer c, Out.ok) ∈ tr

/-- Consumer `c` exists and can be used. -/
def ConsumerAlive (tr : Trace) (c : Nat) : Prop :=
  ((book tr).view c).exists' = true ∧ ¬ ConsumerGone tr c

/-- Producer `p` was created: `0` comes with the origin, the others are clones. -/
def ProducerMade (tr : Trace) (p : Nat) : Prop :=
  p = 0 ∨ ∃ q, (Op.cloneProducer q, Out.handle p) ∈ tr

/-- Producer `p` was dropped. -/
def ProducerGone (tr : Trace) (p : Nat) : Prop := (Op.dropProducer p, Out.ok) ∈ tr

/-- Producer `p` exists. -/
def ProducerAlive (tr : Trace) (p : Nat) : Prop := ProducerMade tr p ∧ ¬ ProducerGone tr p

/-- The last thing that happened to a path: a broadcast was published there, or the task that
waits for the closure of a broadcast published there has run. -/
def lastAt (tr : Trace) (path : Path) : Option (Option Nat) :=
  (tr.filterMap fun
    | (.publishStep, .published q bc _) => if q = path then some (some bc) else none
    | (.task _, .removed q _) => if q = path then some none else none
    | _ => none).getLast?

/-- The broadcast available under a path according to `lastAt`. -/
def available (tr : Trace) (path : Path) : Option Nat := (lastAt tr path).join

/-- The publications that have ended, in order. -/
def published (tr : Trace) : List (Path × Nat) :=
  tr.filterMap fun
    | (.publishStep, .published q bc _) => some (q, bc)
    | _ => none

/-- Broadcast `bc` was closed. -/
def Closed (tr : Trace) (bc : Nat) : Prop := (Op.close bc, Out.ok) ∈ tr

/-- Consumer `c` is inside `next` and waits for a notification. -/
def waiting (tr : Trace) (c : Nat) : Bool :=
  tr.foldl (fun w e =>
    match e with
    | (.check d, .empty) => if d = c then true else w
    | (.recv d, .woken) => if d = c then false else w
    | (.recv d, .ended) => if d = c then false else w
    | (.cancel d, .ok) => if d = c then false else w
    | _ => w) false

/-- How many times consumer `c` was woken. -/
def wakeups (tr : Trace) (c : Nat) : Nat :=
  (tr.filterMap fun
    | (.recv d, .woken) => if d = c then some () else none
    | _ => none).length

/-- How many times this broadcast was published under this path. -/
def publications (tr : Trace) (path : Path) (bc : Nat) : Nat :=
  (tr.filterMap fun
    | (.publishStep, .published q b _) => if (q, b) = (path, bc) then some () else none
    | _ => none).length

/-- How many times the closure of this broadcast was processed for this path. -/
def removals (tr : Trace) (path : Path) (bc : Nat) : Nat :=
  (tr.filterMap fun
    | (.task _, .removed q b) => if (q, b) = (path, bc) then some () else none
    | _ => none).length

end Verif.Model.Origin.Spec
