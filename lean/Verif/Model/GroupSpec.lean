import Verif.Model.Group
import Verif.Model.FrameSpec

/-!
# Specification vocabulary for groups

Everything here is defined from the history of calls and answers only, not from the state of
the model.
-/

namespace Verif.Model.Group.Spec

open Verif Verif.Session Verif.Model.Group

/-- A history of calls and answers. -/
abbrev Trace := List (Op × Out)

/-- The frames appended, in order. -/
def appended (tr : Trace) : List Nat :=
  tr.filterMap fun
    | (.appendFrame _ f, .ok) => some f
    | _ => none

/-- How the group was closed: the last `finish` or `abort`. -/
def closing (tr : Trace) : Option (Except Error Unit) :=
  (tr.filterMap fun
    | (.finish _, .ok) => some (.ok ())
    | (.abort _ e, .ok) => some (.error e)
    | _ => none).getLast?

/-- Producer `p` was created: `0` comes with the group, the others are clones. -/
def ProducerMade (tr : Trace) (p : Nat) : Prop :=
  p = 0 ∨ ∃ q, (Op.cloneProducer q, Out.handle p) ∈ tr

/-- Producer `p` was given up. -/
def ProducerGone (tr : Trace) (p : Nat) : Prop :=
  (Op.finish p, Out.ok) ∈ tr ∨ (∃ e, (Op.abort p e, Out.ok) ∈ tr) ∨ (Op.dropProducer p, Out.ok) ∈ tr

/-- The `unused()` future `f` was created. -/
def FutureMade (tr : Trace) (f : Nat) : Prop := ∃ p, (Op.unused p, Out.handle f) ∈ tr

/-- The `unused()` future `f` was dropped. -/
def FutureGone (tr : Trace) (f : Nat) : Prop := (Op.dropUnused f, Out.ok) ∈ tr

/-- Nobody can append any more. -/
def Abandoned (tr : Trace) : Prop :=
  (∀ p, ProducerMade tr p → ProducerGone tr p) ∧ (∀ f, FutureMade tr f → FutureGone tr f)

/-- Consumer `c` exists. -/
def ConsumerAlive (tr : Trace) (c : Nat) : Prop :=
  ((∃ p, (Op.consume p, Out.handle c) ∈ tr) ∨ (∃ d, (Op.cloneConsumer d, Out.handle c) ∈ tr)) ∧
    (Op.dropConsumer c, Out.ok) ∉ tr

/-- What happened to frame `f`: the operations on it and the readers of it handed out by the
group, which start at the beginning of the frame like those made by `consume`. -/
def frameTrace (f : Nat) (tr : Trace) : Frame.Spec.Trace :=
  tr.filterMap fun
    | (.frame g op, .frame o) => if g = f then some (op, o) else none
    | (.nextFrame _, .reader g id) => if g = f then some (.consume 0, .handle id) else none
    | _ => none

/-- What a group consumer was given: a reader of a frame, or a whole frame. -/
inductive Delivery where
  | reader (f : Nat)
  | whole (b : Bytes)

/-- The effect of one event on what every consumer has been given.  A clone inherits what the
original was given. -/
def give (got : Nat → List Delivery) : Op × Out → Nat → List Delivery
  | (.consume _, .handle id) => fun c => if c = id then [] else got c
  | (.cloneConsumer d, .handle id) => fun c => if c = id then got d else got c
  | (.nextFrame d, .reader f _) => fun c => if c = d then got d ++ [.reader f] else got c
  | (.readFrame d, .data b) => fun c => if c = d then got d ++ [.whole b] else got c
  | _ => got

/-- Everything consumer `c` (or the consumer it was cloned from) has been given, in order. -/
def received (tr : Trace) : Nat → List Delivery := tr.foldl give fun _ => []

/-- A delivery is correct for frame `f`: a reader of that frame, or all its bytes, after the
frame was finished or aborted (so that no byte is added later). -/
def Delivery.Correct (tr : Trace) (f : Nat) : Delivery → Prop
  | .reader g => g = f
  | .whole b => Frame.Spec.closing (frameTrace f tr) ≠ none ∧
      b = (Frame.Spec.written (frameTrace f tr)).flatten

open Classical in
/-- The answer when every appended frame has been given: the way the group was closed, `Cancel`
if it was abandoned without being closed, and otherwise the call waits. -/
noncomputable def atEnd (tr : Trace) : Out :=
  match closing tr with
  | some (.ok _) => .ended
  | some (.error e) => .err e
  | none => if Abandoned tr then .err .cancel else .pending

open Classical in
/-- The answer of a whole-frame read of frame `f`: its bytes if it is finished, its abort error,
`Cancel` if it was abandoned, otherwise the call waits. -/
noncomputable def wholeFrame (tr : Trace) (f : Nat) : Out :=
  match Frame.Spec.closing (frameTrace f tr) with
  | some (.ok _) => .data (Frame.Spec.written (frameTrace f tr)).flatten
  | some (.error e) => .err e
  | none => if Frame.Spec.Abandoned (frameTrace f tr) then .err .cancel else .pending

end Verif.Model.Group.Spec
