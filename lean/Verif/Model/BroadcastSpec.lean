import Verif.Model.Broadcast

/-!
# Specification vocabulary for broadcasts

Everything here is defined from the history of calls and answers only, not from the state of
the model.
-/

set_option autoImplicit false

namespace Verif.Model.Broadcast.Spec

open Verif Verif.Session Verif.Model.Broadcast

/-- A history of calls and answers. -/
abbrev Trace := List (Op × Out)

/-- Producer `p` was created: `0` comes with the broadcast, the others are clones. -/
def ProducerMade (tr : Trace) (p : Nat) : Prop :=
  p = 0 ∨ ∃ q, (Op.cloneProducer q, Out.handle p) ∈ tr

/-- The drop of producer `p` has begun. -/
def DropBegun (tr : Trace) (p : Nat) : Prop :=
  (Op.dropProducer p, Out.ok) ∈ tr ∨ (Op.dropProducer p, Out.pending) ∈ tr

/-- The drop of producer `p` has ended. -/
def ProducerGone (tr : Trace) (p : Nat) : Prop :=
  (Op.dropProducer p, Out.ok) ∈ tr ∨ (Op.dropStep p, Out.ok) ∈ tr

/-- Producer `p` exists and is not being dropped. -/
def Live (tr : Trace) (p : Nat) : Prop := ProducerMade tr p ∧ ¬ DropBegun tr p

/-- Consumer `c` was created. -/
def ConsumerMade (tr : Trace) (c : Nat) : Prop :=
  (∃ p, (Op.consume p, Out.handle c) ∈ tr) ∨ (∃ d, (Op.cloneConsumer d, Out.handle c) ∈ tr)

/-- Consumer `c` was dropped. -/
def ConsumerGone (tr : Trace) (c : Nat) : Prop := (Op.dropConsumer c, Out.ok) ∈ tr

/-- Consumer `c` exists. -/
def ConsumerAlive (tr : Trace) (c : Nat) : Prop := ConsumerMade tr c ∧ ¬ ConsumerGone tr c

/-- The `unused()` future `f` was created, or dropped. -/
def UnusedMade (tr : Trace) (f : Nat) : Prop := ∃ p, (Op.unused p, Out.handle f) ∈ tr
def UnusedGone (tr : Trace) (f : Nat) : Prop := (Op.dropUnused f, Out.ok) ∈ tr

/-- The `closed()` future `f` was created, or dropped. -/
def ClosedMade (tr : Trace) (f : Nat) : Prop := ∃ c, (Op.closed c, Out.handle f) ∈ tr
def ClosedGone (tr : Trace) (f : Nat) : Prop := (Op.dropClosed f, Out.ok) ∈ tr

/-- Book-keeping of the tracks that exist and, among them, those made by a subscription. -/
def note (b : List Ref × List Ref) : Op × Out → List Ref × List Ref
  | (.newTrack _, .track t) => (b.1 ++ [t], b.2)
  | (.create _ _, .track t) => (b.1 ++ [t], b.2)
  | (.subscribe _ _, .track t) => if t ∈ b.1 then b else (b.1 ++ [t], b.2 ++ [t])
  | _ => b

/-- The tracks that were created, in order. -/
def made (tr : Trace) : List Ref := (tr.foldl note ([], [])).1

/-- The tracks that were created by a subscription, in order. -/
def requested (tr : Trace) : List Ref := (tr.foldl note ([], [])).2

/-- The tracks that were given to a producer asking for requests, in order. -/
def handed (tr : Trace) : List Ref :=
  tr.filterMap fun
    | (.request _, .track t) => some t
    | _ => none

/-- The track most recently inserted under, or returned for, a name. -/
def lastBound (tr : Trace) (name : String) : Option Ref :=
  (tr.filterMap fun
    | (.subscribe _ _, .track t) => if t.name = name then some t else none
    | (.create _ _, .track t) => if t.name = name then some t else none
    | (.insert _ t, .inserted _) => if t.name = name then some t else none
    | _ => none).getLast?

/-- The producer inserted or created a track with this name. -/
def Inserted (tr : Trace) (name : String) : Prop :=
  (∃ p o, (Op.create p name, Out.track o) ∈ tr) ∨
    ∃ p b t, (Op.insert p t, Out.inserted b) ∈ tr ∧ t.name = name

/-- How many times the clean-up of the broadcast was begun. -/
def cleanups (tr : Trace) : Nat :=
  (tr.filterMap fun
    | (.dropProducer p, .pending) => some p
    | _ => none).length

/-- The change of the number of producer handles of track `t` outside the broadcast, by one
event. -/
def holding (t : Nat) (n : Nat) : Op × Out → Nat
  | (.newTrack _, .track u) => if u.id = t then n + 1 else n
  | (.create _ _, .track u) => if u.id = t then n + 1 else n
  | (.request _, .track u) => if u.id = t then n + 1 else n
  | (.cloneTrack u, .ok) => if u = t then n + 1 else n
  | (.dropTrack u, .ok) => if u = t then n - 1 else n
  | (.finishTrack u, .ok) => if u = t then n - 1 else n
  | (.abortTrack u _, .ok) => if u = t then n - 1 else n
  | _ => n

/-- The number of producer handles of track `t` outside the broadcast: created, handed out or
cloned, and not yet dropped, finished or aborted. -/
def holders (tr : Trace) (t : Nat) : Nat := tr.foldl (holding t) 0

/-- How track `t` was closed last by one of its producers, if it was. -/
def lastClose (tr : Trace) (t : Nat) : Option (Except Error Unit) :=
  (tr.filterMap fun
    | (.finishTrack u, .ok) => if u = t then some (.ok ()) else none
    | (.abortTrack u e, .ok) => if u = t then some (.error e) else none
    | _ => none).getLast?

/-- How many times the broadcast began to wait for the end of track `t`: whenever it is handed
out, created or inserted. -/
def watches (tr : Trace) (t : Ref) : Nat :=
  (tr.filterMap fun
    | (.request _, .track u) => if u = t then some () else none
    | (.create _ _, .track u) => if u = t then some () else none
    | (.insert _ u, .inserted _) => if u = t then some () else none
    | _ => none).length

/-- How many times a clean-up task for track `t` ran to its end. -/
def ends (tr : Trace) (t : Ref) : Nat :=
  (tr.filterMap fun
    | (.cleanup _, .cleaned u) => if u = t then some () else none
    | _ => none).length

end Verif.Model.Broadcast.Spec
