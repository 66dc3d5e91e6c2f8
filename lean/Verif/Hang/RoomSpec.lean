import Verif.Hang.Room

/-!
# Vocabulary for the claims about rooms
-/

set_option autoImplicit false

namespace Verif.Hang.Room.Spec

open Verif

abbrev Trace := List (Op × Out)

/-- The publications: the name, the broadcast and the number of the task. -/
def publications (tr : Trace) : List (Name × Nat × Nat) :=
  tr.filterMap fun e =>
    match e with
    | (.publish name bc, .published _ k) => some (name, bc, k)
    | _ => none

/-- A broadcast has ended. -/
def Ended (tr : Trace) (bc : Nat) : Prop := (Op.close bc, Out.ok) ∈ tr

/-- The task of a publication has noticed that the broadcast ended. -/
def Noticed (tr : Trace) (k : Nat) : Prop := (Op.cleanup k, Out.ok) ∈ tr

/-- Whenever a name is published, all earlier broadcasts under this name have ended and that was
noticed. -/
def Alternating (tr : Trace) : Prop :=
  ∀ pre name bc o post, tr = pre ++ (Op.publish name bc, o) :: post →
    ∀ bc' k, (name, bc', k) ∈ publications pre → Noticed pre k

end Verif.Hang.Room.Spec
