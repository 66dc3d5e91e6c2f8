import Verif.Hang.Latest

/-!
# Specification vocabulary for the readers that take one frame per group

Everything is defined from the history of calls and answers only.
-/

set_option autoImplicit false

namespace Verif.Hang.Latest.Spec

open Verif Verif.Hang.Latest
open Verif.Session (Error)
open Verif.Model (Track.Op Track.Out Track.State Track.Grp)

variable {V : Type}

/-- A history of calls and answers. -/
abbrev Trace (V : Type) := List (Op × Out V)

/-- The frames added to a group. -/
def framesOf (tr : Trace V) (gid : Nat) : List Bytes :=
  tr.filterMap fun
    | (.frame g b, .ok) => if g = gid then some b else none
    | _ => none

/-- The group was closed. -/
def Closed (tr : Trace V) (gid : Nat) (r : Except Error Unit) : Prop :=
  (Op.close gid r, Out.ok) ∈ tr

/-- The groups received by the reader, in order. -/
def received (tr : Trace V) : List Track.Grp :=
  tr.filterMap fun
    | (_, .received g) => some g
    | _ => none

/-- The groups about which `next` returned something, in order. -/
def reported (tr : Trace V) : List Track.Grp :=
  tr.filterMap fun
    | (_, .value g _) | (_, .bad g) | (_, .failed g _) | (_, .empty g) => some g
    | _ => none

/-- The values returned, with their groups, in order. -/
def values (tr : Trace V) : List (Track.Grp × V) :=
  tr.filterMap fun
    | (_, .value g v) => some (g, v)
    | _ => none

/-- What happened to the track. -/
def trackTrace (c : Nat) (tr : Trace V) : Model.Track.Spec.Trace :=
  tr.filterMap fun
    | (.track op, .track o) => some (op, o)
    | (_, .received g) => some (.next c, .group g)
    | _ => none

/-- There is something to say about a group: it has a frame, or it failed. -/
def Ready (tr : Trace V) (gid : Nat) : Prop :=
  framesOf tr gid ≠ [] ∨ ∃ e, Closed tr gid (.error e)

/-- The positions published, in order. -/
def published (tr : List (POp × POut)) : List Position :=
  tr.filterMap fun
    | (.publish p, .call _) => some p
    | _ => none

/-- No call of `update` is under way: every one that published has gone on. -/
def Quiet (tr : List (POp × POut)) : Prop :=
  ∀ p n, (POp.publish p, POut.call n) ∈ tr → (POp.remember n, POut.ok) ∈ tr

/-- Calls of `update` come one after the other: when one publishes, none is under way. -/
def Sequential (tr : List (POp × POut)) : Prop :=
  ∀ pre p o post, tr = pre ++ (POp.publish p, o) :: post → Quiet pre

end Verif.Hang.Latest.Spec
