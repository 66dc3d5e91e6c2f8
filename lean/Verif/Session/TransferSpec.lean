import Verif.Session.Transfer

/-!
# Specification vocabulary for the transfer of groups
-/

set_option autoImplicit false

namespace Verif.Session.Transfer.Spec

open Verif Verif.Coding Verif.Message Verif.Session
open Verif.Model (Group.Op Group.Out)
open Verif.Model.Group.Spec (Trace appended frameTrace)

/-- The declared sizes of the frames, in order of their creation. -/
def sizes (tr : Trace) : List Nat :=
  tr.filterMap fun
    | (.newFrame size, .handle _) => some size
    | _ => none

/-- The frames of a group, in order: the declared size and all bytes written so far. -/
def contents (tr : Trace) : List (Nat × Bytes) :=
  (appended tr).map fun f =>
    ((sizes tr)[f]?.getD 0, (Model.Frame.Spec.written (frameTrace f tr)).flatten)

/-- The `k`-th frame of the group was finished. -/
def Finished (tr : Trace) (k : Nat) : Prop :=
  ∃ f, (appended tr)[k]? = some f ∧
    Model.Frame.Spec.closing (frameTrace f tr) = some (.ok ())

/-- No frame producer was cloned (compare C19). -/
def NoClones (tr : Trace) : Prop :=
  ∀ f p id, (Group.Op.frame f (.cloneProducer p), Group.Out.frame (.handle id)) ∉ tr

/-- `Reads bytes frames rest`: reading `bytes` gives these frames and leaves `rest`.  A frame is a
header with the size and then the payload; only the last frame may be incomplete. -/
inductive Reads (bytes : Bytes) : List (Nat × Bytes) → Bytes → Prop
  | nil : Reads bytes [] bytes
  | frame {frames m size payload rest} : Reads bytes frames m →
      (∀ e ∈ frames, e.2.length = e.1) →
      decodeFrame m = .ok (⟨size⟩, payload ++ rest) → payload.length ≤ size →
      Reads bytes (frames ++ [(size, payload)]) rest

/-- The bytes that represent a list of frames. -/
def WireOf (frames : List (Nat × Bytes)) (bytes : Bytes) : Prop :=
  match frames with
  | [] => bytes = []
  | (size, payload) :: frames =>
    ∃ header rest, wire (encodeFrame ⟨size⟩) = .ok header ∧ WireOf frames rest ∧
      bytes = header ++ payload ++ rest

/-- The stream is accepted as a group stream with message `g`; the rest is read through `r`. -/
def Accepts (stream : RecvStream) (g : Message.Group) (r : Reader) : Prop :=
  ∃ r', runData (Reader.new stream) = .group r' ∧ r'.decode decodeGroup = (.done (.ok g), r)

/-- What the network may deliver of what was sent: some of the bytes, in order, in non-empty
pieces.  It reports a clean end only after everything was delivered of a stream that was finished. -/
structure Delivers (x : Sending) (stream : RecvStream) : Prop where
  bytes : stream.chunks.flatten <+: x.sent
  pieces : ∀ c ∈ stream.chunks, c ≠ []
  fin : stream.ending = .fin → x.ending = .fin ∧ stream.chunks.flatten = x.sent

/-- The operation is one of those that the sender with consumer `c` makes: asking for the next
frame, or reading a frame. -/
def Own (c : Nat) (op : Group.Op) : Prop := op = .nextFrame c ∨ ∃ f id, op = .frame f (.read id)

/-- Several steps of the receiver. -/
def after : Nat → Receiving → Receiving
  | 0, x => x
  | n + 1, x => after n x.step.2

end Verif.Session.Transfer.Spec
