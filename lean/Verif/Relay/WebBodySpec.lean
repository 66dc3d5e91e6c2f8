import Verif.Relay.WebBody
import Verif.Model.GroupSpec

/-!
# Specification vocabulary for the response body of `/fetch`

Everything here is defined from the history of calls and answers only.
-/

set_option autoImplicit false

namespace Verif.Relay.WebBody.Spec

open Verif Verif.Session Verif.Model Verif.Relay.WebBody

/-- A history of calls and answers. -/
abbrev Trace := List (Op × Out)

/-- What the others did to the group and its frames. -/
def others (tr : Trace) : Group.Spec.Trace :=
  tr.filterMap fun
    | (.env op, .env o _) => some (op, o)
    | _ => none

/-- The pieces of the body sent so far. -/
def sent (tr : Trace) : List Bytes :=
  tr.filterMap fun
    | (.poll, .data b) => some b
    | _ => none

/-- There is a response. -/
def Responding (tr : Trace) : Prop := ∃ d, (Op.respond d, Out.ok) ∈ tr

/-- The answer of the body for the group's and a frame's answer to a reader. -/
def asBody : Group.Out → Out
  | .data b => .data b
  | .ended => .ended
  | .err e => .err e
  | .pending => .pending
  | _ => .invalid

/-- What the body has to answer: the next frame as a whole, or how the group ended. -/
noncomputable def due (tr : Trace) : Out :=
  match (Group.Spec.appended (others tr))[(sent tr).length]? with
  | some f => asBody (Group.Spec.wholeFrame (others tr) f)
  | none => asBody (Group.Spec.atEnd (others tr))

/-- The task was woken at some point of the history. -/
def Woken (tr : Trace) : Prop := ∃ op o, (Op.env op, Out.env o true) ∈ tr

end Verif.Relay.WebBody.Spec
