import Verif.Relay.Web
import Verif.Model.OriginSpec

/-!
# Specification vocabulary for the HTTP requests

Everything here is defined from the history of calls and answers only.
-/

set_option autoImplicit false

namespace Verif.Relay.Web.Spec

open Verif Verif.Relay.Web
open Verif.Model.Origin (Path)

/-- A history of calls and answers. -/
abbrev Trace := List (Op × Out)

/-- What was done to the origin. -/
def calls (tr : Trace) : Model.Origin.Spec.Trace :=
  tr.filterMap fun
    | (_, .did op o _) => some (op, o)
    | _ => none

/-- The publications that were begun. -/
def begun (tr : Model.Origin.Spec.Trace) : List (Path × Nat) :=
  tr.filterMap fun
    | (.publishStart _ path bc, .ok) => some (path, bc)
    | _ => none

/-- The text of some lines. -/
inductive Lines : List Path → Path → Prop
  | one (w : Path) : '\n' ∉ w → Lines [w] w
  | more {ws : List Path} {s : Path} (w : Path) : '\n' ∉ w → Lines ws s → Lines (w :: ws) (w ++ '\n' :: s)

end Verif.Relay.Web.Spec
