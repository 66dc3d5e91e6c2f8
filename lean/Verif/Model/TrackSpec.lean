import Verif.Model.Track

/-!
# Specification vocabulary for tracks

Everything here is defined from the history of calls and answers only, not from the state of
the model.
-/

set_option autoImplicit false

namespace Verif.Model.Track.Spec

open Verif Verif.Session Verif.Model.Track

/-- A history of calls and answers. -/
abbrev Trace := List (Op × Out)

/-- The groups accepted by the track, in order. -/
def accepted (tr : Trace) : List Grp :=
  tr.filterMap fun
    | (.insert _ g, .inserted true) => some g
    | (.appendFinish _ gid, .appended seq) => some ⟨seq, gid⟩
    | _ => none

/-- How the track was closed: the last `finish` or `abort`. -/
def closing (tr : Trace) : Option (Except Error Unit) :=
  (tr.filterMap fun
    | (.finish _, .ok) => some (.ok ())
    | (.abort _ e, .ok) => some (.error e)
    | _ => none).getLast?

/-- Producer `p` was created: `0` comes with the track, the others are clones. -/
def ProducerMade (tr : Trace) (p : Nat) : Prop :=
  p = 0 ∨ ∃ q, (Op.cloneProducer q, Out.handle p) ∈ tr

/-- Producer `p` was given up. -/
def ProducerGone (tr : Trace) (p : Nat) : Prop :=
  (Op.finish p, Out.ok) ∈ tr ∨ (∃ e, (Op.abort p e, Out.ok) ∈ tr) ∨ (Op.dropProducer p, Out.ok) ∈ tr

/-- The `unused()` future `f` was created. -/
def FutureMade (tr : Trace) (f : Nat) : Prop := ∃ p, (Op.unused p, Out.handle f) ∈ tr

/-- The `unused()` future `f` was dropped. -/
def FutureGone (tr : Trace) (f : Nat) : Prop := (Op.dropUnused f, Out.ok) ∈ tr

/-- Nobody can offer groups any more. -/
def Abandoned (tr : Trace) : Prop :=
  (∀ p, ProducerMade tr p → ProducerGone tr p) ∧ (∀ f, FutureMade tr f → FutureGone tr f)

/-- Consumer `c` exists. -/
def ConsumerAlive (tr : Trace) (c : Nat) : Prop :=
  ((∃ p, (Op.consume p, Out.handle c) ∈ tr) ∨ (∃ d, (Op.cloneConsumer d, Out.handle c) ∈ tr)) ∧
    (Op.dropConsumer c, Out.ok) ∉ tr

/-- The effect of one event on what every consumer has been given.  A clone inherits what the
original was given. -/
def give (got : Nat → List Grp) : Op × Out → Nat → List Grp
  | (.consume _, .handle id) => fun c => if c = id then [] else got c
  | (.cloneConsumer d, .handle id) => fun c => if c = id then got d else got c
  | (.next d, .group g) => fun c => if c = d then got d ++ [g] else got c
  | _ => got

/-- The groups consumer `c` (or the consumer it was cloned from) has been given, in order. -/
def received (tr : Trace) : Nat → List Grp := tr.foldl give fun _ => []

/-- Group `g` is newer than everything in `got`. -/
def NewerThan (g : Grp) (got : List Grp) : Prop := ∀ x ∈ got, x.seq < g.seq

open Classical in
/-- The answer to `next_group` by a consumer that was given `got`. -/
noncomputable def nextAnswer (tr : Trace) (got : List Grp) : Out :=
  match closing tr with
  | some (.ok _) => .ended
  | some (.error e) => .err e
  | none =>
    match (accepted tr).getLast? with
    | some g =>
      if NewerThan g got then .group g
      else if Abandoned tr then .err .cancel else .pending
    | none => if Abandoned tr then .err .cancel else .pending

open Classical in
/-- The answer of the `closed` notification. -/
noncomputable def closedAnswer (tr : Trace) : Out :=
  match closing tr with
  | some (.ok _) => .ended
  | some (.error e) => .err e
  | none => if Abandoned tr then .err .cancel else .pending

end Verif.Model.Track.Spec
