import Verif.Session.ServeLoop

/-!
# Specification vocabulary for the serve loop

Everything here is defined from the history of calls and answers only.
-/

set_option autoImplicit false

namespace Verif.Session.ServeLoop.Spec

open Verif Verif.Session Verif.Session.ServeLoop
open Verif.Model (Track.Op Track.Out Track.State Track.Grp)

/-- A history of calls and answers. -/
abbrev Trace := List (Op × Out)

/-- The groups whose futures were made, in order. -/
def started (tr : Trace) : List Track.Grp :=
  tr.filterMap fun
    | (_, .started g _) => some g
    | _ => none

/-- The groups whose futures completed. -/
def completed (tr : Trace) : List Track.Grp :=
  tr.filterMap fun
    | (_, .done g _) => some g
    | _ => none

/-- The groups whose futures were dropped. -/
def droppedBy : Out → List Track.Grp
  | .started _ ds | .done _ ds | .failed _ ds | .cancelled ds => ds
  | _ => []

def dropped (tr : Trace) : List Track.Grp := tr.flatMap fun e => droppedBy e.2

/-- The groups in flight: started, and neither completed nor dropped. -/
def inFlight (tr : Trace) : List Track.Grp :=
  (started tr).filter fun g => g ∉ completed tr ∧ g ∉ dropped tr

/-- The loop is over. -/
def Over (tr : Trace) : Prop := ∃ op o, (op, o) ∈ tr ∧
  (o = .finished ∨ (∃ e ds, o = .failed e ds) ∨ ∃ ds, o = .cancelled ds)

/-- What happened to the track. -/
def trackTrace (c : Nat) (tr : Trace) : Model.Track.Spec.Trace :=
  tr.filterMap fun
    | (.track op, .track o) => some (op, o)
    | (.next, .started g _) => some (.next c, .group g)
    | _ => none

end Verif.Session.ServeLoop.Spec
