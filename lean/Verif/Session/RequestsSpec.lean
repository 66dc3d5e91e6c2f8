import Verif.Session.Requests

/-!
# Specification vocabulary for subscribe requests

Everything here is defined from the history of calls and answers only.
-/

set_option autoImplicit false

namespace Verif.Session.Requests.Spec

open Verif Verif.Session Verif.Session.Requests

/-- A history of calls and answers. -/
abbrev Trace := List (Op × Out)

/-- What happened to the origin. -/
def originTrace (tr : Trace) : Model.Origin.Spec.Trace :=
  tr.filterMap fun
    | (.origin op, .origin o) => some (op, o)
    | _ => none

/-- What happened to broadcast `b`. -/
def bcTrace (b : Nat) (tr : Trace) : Model.Broadcast.Spec.Trace :=
  tr.filterMap fun
    | (.broadcast, .made i) => if i = b then some (.consume 0, .handle 0) else none
    | (.use i op _, .used o) => if i = b then some (op, o) else none
    | (.request _ name _, .ack i t _) => if i = b then some (.subscribe 0 name, .track t) else none
    | _ => none

/-- The priority that goes with the event if it returns track `t` of broadcast `b`. -/
def priorityIn (b t : Nat) : Op × Out → Option UInt8
  | (.use i (.newTrack _) p, .used (.track r)) => if i = b ∧ r.id = t then some p else none
  | (.use i (.create _ _) p, .used (.track r)) => if i = b ∧ r.id = t then some p else none
  | (.use i (.subscribe _ _) p, .used (.track r)) => if i = b ∧ r.id = t then some p else none
  | (.request _ _ p, .ack i r _) => if i = b ∧ r.id = t then some p else none
  | _ => none

/-- The priority of track `t` of broadcast `b`: the one given when it was first seen. -/
def priority (b t : Nat) (tr : Trace) : Option UInt8 := tr.findSome? (priorityIn b t)

end Verif.Session.Requests.Spec
