import Verif.Hang.Catalog

/-!
# Specification vocabulary for the catalog

Everything here is defined from the history of calls and answers only.
-/

set_option autoImplicit false

namespace Verif.Hang.Catalog.Spec

open Verif Verif.Hang.Catalog

variable {Info : Type}

/-- A history of calls and answers. -/
abbrev Trace (Info : Type) := List (Op Info × Out Info)

/-- The tracks added: number, kind and description, in order. -/
def added (tr : Trace Info) : List (Nat × Kind × Info) :=
  tr.filterMap fun
    | (.add k info, .call n) => some (n, k, info)
    | _ => none

/-- The track of call `n` was closed. -/
def Closed (tr : Trace Info) (n : Nat) : Prop := (Op.close n, Out.ok) ∈ tr

/-- The entry of call `n` was removed by its task. -/
def removed (tr : Trace Info) : List Nat :=
  tr.filterMap fun
    | (.remove n, .ok) => some n
    | _ => none

/-- The tracks of a kind that are not removed yet, in the order of addition. -/
def listed (tr : Trace Info) (k : Kind) : List Info :=
  ((added tr).filter fun x => x.2.1 = k ∧ x.1 ∉ removed tr).map (·.2.2)

/-- The tracks that were added and not closed, in the order of addition. -/
def Live (tr : Trace Info) (k : Kind) (l : List Info) : Prop :=
  ∃ xs : List (Nat × Kind × Info), xs.Sublist (added tr) ∧ l = xs.map (·.2.2) ∧
    ∀ x ∈ added tr, x ∈ xs ↔ x.2.1 = k ∧ ¬ Closed tr x.1

/-- The catalog published last. -/
def lastPublished (tr : Trace Info) : Option (List Info × List Info) :=
  (tr.filterMap fun
    | (_, .published _ v a) => some (v, a)
    | _ => none).getLast?

/-- A catalog was published by the call itself, or by its task. -/
def Published (tr : Trace Info) (b : Bool) (n : Nat) : Prop :=
  ∃ v a, (Op.publish n, Out.published b v a) ∈ tr

/-- Nothing is in progress: every track added was published and, if it was closed, its task has run. -/
def Settled (tr : Trace Info) : Prop :=
  ∀ x ∈ added tr, Published tr true x.1 ∧ (Closed tr x.1 → Published tr false x.1)

/-- The descriptions of different tracks of a kind differ, and each is equal to itself. -/
def Distinct (eq : Info → Info → Bool) (tr : Trace Info) : Prop :=
  ∀ x ∈ added tr, ∀ y ∈ added tr, x.2.1 = y.2.1 → (eq x.2.2 y.2.2 = true ↔ x.1 = y.1)

end Verif.Hang.Catalog.Spec
