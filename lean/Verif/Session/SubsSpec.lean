import Verif.Session.Subs

/-!
# Specification vocabulary for subscriptions

Everything here is defined from the history of calls and answers only.
-/

set_option autoImplicit false

namespace Verif.Session.Subs.Spec

open Verif Verif.Session Verif.Session.Subs
open Verif.Model (Track.Op Track.Out)

/-- A history of calls and answers. -/
abbrev Trace := List (Op × Out)

/-- The ids given to the subscriptions, in order. -/
def ids (tr : Trace) : List Nat :=
  tr.filterMap fun
    | (.request, .id i) => some i
    | _ => none

/-- Subscription `k` has registered its track. -/
def Started (tr : Trace) (k : Nat) : Prop := (Op.start k, Out.ok) ∈ tr

/-- Subscription `k` has closed its track. -/
def Closed (tr : Trace) (k : Nat) : Prop := ∃ r, (Op.close k r, Out.ok) ∈ tr

/-- Subscription `k` has unregistered its track. -/
def Removed (tr : Trace) (k : Nat) : Prop := (Op.remove k, Out.ok) ∈ tr

/-- Subscription `k` is registered under `id`. -/
def Registered (tr : Trace) (id k : Nat) : Prop :=
  (ids tr)[k]? = some id ∧ Started tr k ∧ ¬ Removed tr k

/-- What happened to the track of subscription `k`.  Producer 0 is the one of the task, producer 1
the clone in the table. -/
def trackTrace (k : Nat) (tr : Trace) : Model.Track.Spec.Trace :=
  tr.filterMap fun
    | (.start j, .ok) => if j = k then some (.cloneProducer 0, .handle 1) else none
    | (.close j r, .ok) => if j = k then some (closeOp r, .ok) else none
    | (.remove j, .ok) => if j = k then some (.dropProducer 1, .ok) else none
    | (.recvGroup _ sequence gid, .created j) =>
      if j = k then some (.insert 1 ⟨sequence, gid⟩, .inserted true) else none
    | (.recvGroup _ sequence gid, .old j) =>
      if j = k then some (.insert 1 ⟨sequence, gid⟩, .inserted false) else none
    | (.recvGroup _ sequence gid, .panic j) =>
      if j = k then some (.insert 1 ⟨sequence, gid⟩, .panic) else none
    | (.track j op, .track o) => if j = k then some (op, o) else none
    | _ => none

/-- The groups that were put in the track of subscription `k`. -/
def groups (k : Nat) (tr : Trace) : List Model.Track.Grp :=
  Model.Track.Spec.accepted (trackTrace k tr)

open Classical in
/-- The answer to a group for the track of subscription `k`. -/
noncomputable def offer (tr : Trace) (k sequence : Nat) : Out :=
  if Closed tr k then .panic k
  else if ∀ g ∈ groups k tr, g.seq < sequence then .created k
  else .old k

end Verif.Session.Subs.Spec
