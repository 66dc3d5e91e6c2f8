import Verif.Relay.Connection
import Verif.Model.OriginSpec

/-!
# What a history of a connection means
-/

set_option autoImplicit false

namespace Verif.Relay.Connection.Spec

open Verif Verif.Relay.Connection
open Verif.Model.Origin (Path)

/-- A history. -/
abbrev Trace := List (Op × Out)

/-- What happened to one origin. -/
def sub (w : Where) (tr : Trace) : Model.Origin.Spec.Trace :=
  tr.filterMap fun
    | (_, .did x op o) => if x = w then some (op, o) else none
    | _ => none

/-- A broadcast was published under this path in an origin, by anybody. -/
def Published (tr : Trace) (w : Where) (path : Path) (bc : Nat) : Prop :=
  ∃ op p, (op, Out.did w (.publishStart p path bc) .ok) ∈ tr

/-- The operation is one of the connection's own. -/
def Own : Op → Prop
  | .other _ _ => False
  | _ => True

/-- The connection itself published a broadcast under this path in an origin. -/
def OwnPublished (tr : Trace) (w : Where) (path : Path) (bc : Nat) : Prop :=
  ∃ op p, Own op ∧ (op, Out.did w (.publishStart p path bc) .ok) ∈ tr

/-- The consumer made by the `n`-th statement, and the origin it reads from. -/
def consumers (tr : Trace) : List (Where × Nat) :=
  tr.filterMap fun
    | (.run _ _ _, .did w (.consumePrefix _ _ _) (.handle c)) => some (w, c)
    | _ => none

/-- The publications of task `k`, in order. -/
def putBy (k : Nat) (tr : Trace) : List (Path × Nat) :=
  tr.filterMap fun
    | (.put j _, .did _ (.publishStart _ path bc) .ok) => if j = k then some (path, bc) else none
    | _ => none

end Verif.Relay.Connection.Spec
