import Verif.Model.Frame

/-!
# Specification vocabulary for frames

Everything here is defined from the history of calls and answers only, not from the state of
the model.
-/

namespace Verif.Model.Frame.Spec

open Verif Verif.Session Verif.Model.Frame

/-- A history of calls and answers. -/
abbrev Trace := List (Op × Out)

/-- The chunks written, in order. -/
def written (tr : Trace) : List Bytes :=
  tr.filterMap fun
    | (.write _ b, .ok) => some b
    | _ => none

/-- How the frame was closed: the last `finish` or `abort`. -/
def closing (tr : Trace) : Option (Except Error Unit) :=
  (tr.filterMap fun
    | (.finish _, .ok) => some (.ok ())
    | (.abort _ e, .ok) => some (.error e)
    | _ => none).getLast?

/-- Producer `p` was created: `0` comes with the frame, the others are clones. -/
def ProducerMade (tr : Trace) (p : Nat) : Prop :=
  p = 0 ∨ ∃ q, (Op.cloneProducer q, Out.handle p) ∈ tr

/-- Producer `p` was given up: `finish` and `abort` take the producer, whether or not they
panic. -/
def ProducerGone (tr : Trace) (p : Nat) : Prop :=
  (Op.finish p, Out.ok) ∈ tr ∨ (Op.finish p, Out.panic) ∈ tr ∨ (∃ e, (Op.abort p e, Out.ok) ∈ tr) ∨
    (Op.dropProducer p, Out.ok) ∈ tr

/-- The effect of one event on the number of bytes offered through every producer.  A clone starts
from the count of the original; bytes that were refused count as well. -/
def offer (n : Nat → Nat) : Op × Out → Nat → Nat
  | (.cloneProducer q, .handle p) => fun r => if r = p then n q else n r
  | (.write p b, .ok) => fun r => if r = p then n p + b.length else n r
  | (.write p b, .panic) => fun r => if r = p then n p + b.length else n r
  | _ => n

/-- The number of bytes offered through producer `p` (and the producers it was cloned from, up to
then). -/
def offered (tr : Trace) : Nat → Nat := tr.foldl offer fun _ => 0

/-- The `unused()` future `f` was created. -/
def FutureMade (tr : Trace) (f : Nat) : Prop := ∃ p, (Op.unused p, Out.handle f) ∈ tr

/-- The `unused()` future `f` was dropped. -/
def FutureGone (tr : Trace) (f : Nat) : Prop := (Op.dropUnused f, Out.ok) ∈ tr

/-- Nobody can write any more: no producer and no `unused()` future (which keeps the channel
open) is left. -/
def Abandoned (tr : Trace) : Prop :=
  (∀ p, ProducerMade tr p → ProducerGone tr p) ∧ (∀ f, FutureMade tr f → FutureGone tr f)

/-- Consumer `c` exists. -/
def ConsumerAlive (tr : Trace) (c : Nat) : Prop :=
  ((∃ p, (Op.consume p, Out.handle c) ∈ tr) ∨ (∃ d, (Op.cloneConsumer d, Out.handle c) ∈ tr)) ∧
    (Op.dropConsumer c, Out.ok) ∉ tr

/-- What a consumer was given: one chunk, or everything that was left. -/
inductive Piece where
  | one (b : Bytes)
  | all (b : Bytes)

/-- The bytes of a piece. -/
def Piece.bytes : Piece → Bytes
  | .one b => b
  | .all b => b

/-- The effect of one event on what every consumer has been given.  A clone inherits what the
original was given. -/
def give (got : Nat → List Piece) : Op × Out → Nat → List Piece
  | (.consume _, .handle id) => fun c => if c = id then [] else got c
  | (.cloneConsumer d, .handle id) => fun c => if c = id then got d else got c
  | (.read d, .data b) => fun c => if c = d then got d ++ [.one b] else got c
  | (.readAll d, .data b) => fun c => if c = d then got d ++ [.all b] else got c
  | _ => got

/-- Everything consumer `c` (or the consumer it was cloned from) has been given, in order. -/
def received (tr : Trace) : Nat → List Piece := tr.foldl give fun _ => []

/-- Whether consumer `c` has read the rest of the frame at once. -/
def ReadRest (tr : Trace) (c : Nat) : Prop := ∃ b, Piece.all b ∈ received tr c

open Classical in
/-- The number of chunks consumer `c` has been given. -/
noncomputable def position (tr : Trace) (c : Nat) : Nat :=
  if ReadRest tr c then (written tr).length else (received tr c).length

/-- `Covers ps cs`: the pieces `ps` are the chunks `cs`, in order, each exactly once, where an
`all` piece may stand for any number of consecutive chunks. -/
inductive Covers : List Piece → List Bytes → Prop
  | nil : Covers [] []
  | one {ps cs} (b) : Covers ps cs → Covers (ps ++ [.one b]) (cs ++ [b])
  | all {ps cs} (xs) : Covers ps cs → Covers (ps ++ [.all xs.flatten]) (cs ++ xs)

open Classical in
/-- The answer when nothing is left to be given: the way the frame was closed, `Cancel` if it
was abandoned without being closed, and otherwise the call waits. -/
noncomputable def atEnd (tr : Trace) : Out :=
  match closing tr with
  | some (.ok _) => .ended
  | some (.error e) => .err e
  | none => if Abandoned tr then .err .cancel else .pending

end Verif.Model.Frame.Spec
