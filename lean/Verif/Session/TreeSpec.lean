import Verif.Session.Tree

/-!
# Specification vocabulary for distributed tracks

Everything here is defined from the history of calls and answers only.
-/

set_option autoImplicit false

namespace Verif.Session.Tree.Spec

open Verif Verif.Session Verif.Session.Tree
open Verif.Model (Track.Op Track.Out Track.Grp)

/-- A history of calls and answers. -/
abbrev Trace := List (Op × Out)

/-- What happened to the track of node `n`.  The track of a node other than the origin has
producer 0 in the task of the subscription and producer 1 in the table. -/
def nodeTrace (n : Nat) (tr : Trace) : Model.Track.Spec.Trace :=
  tr.filterMap fun
    | (.user m op, .track o) => if m = n then some (op, o) else none
    | (.subscribe m how, .link i c) =>
      if m = n then some (how, .handle c)
      else if i + 1 = n then some (.cloneProducer 0, .handle 1)
      else none
    | (.serve _ .next, .serve m c (.started g _)) => if m = n then some (.next c, .group g) else none
    | (.arrive i _, .offered g o) => if i + 1 = n then some (.insert 1 g, o) else none
    | (.close i r, .ok) => if i + 1 = n then some (Subs.closeOp r, .ok) else none
    | (.remove i, .ok) => if i + 1 = n then some (.dropProducer 1, .ok) else none
    | _ => none

/-- Node `n` was made by a subscription to node `m`. -/
def Child (tr : Trace) (m n : Nat) : Prop :=
  ∃ how i c, (Op.subscribe m how, Out.link i c) ∈ tr ∧ n = i + 1

/-- The node exists. -/
def Node (tr : Trace) (n : Nat) : Prop := n = 0 ∨ ∃ m, Child tr m n

/-- The groups whose streams were begun on the link to node `n`, in order. -/
def begun (n : Nat) (tr : Trace) : List Track.Grp :=
  tr.filterMap fun
    | (.serve i .next, .serve _ _ (.started g _)) => if i + 1 = n then some g else none
    | _ => none

/-- The groups whose headers have arrived at node `n`, in the order of their arrival. -/
def arrived (n : Nat) (tr : Trace) : List Track.Grp :=
  tr.filterMap fun
    | (.arrive i _, .offered g _) => if i + 1 = n then some g else none
    | _ => none

end Verif.Session.Tree.Spec
