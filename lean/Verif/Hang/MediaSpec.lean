import Verif.Hang.Media

/-!
# Specification vocabulary for media tracks

Everything about the reader is defined from the history of calls and answers only.
-/

set_option autoImplicit false

namespace Verif.Hang.Media.Spec

open Verif Verif.Coding Verif.Hang.Media
open Verif.Session (Error)
open Verif.Model (Track.Op Track.Out Track.State Track.Grp)

/-- The timestamp and the payload in the bytes of a frame, if they are well formed. -/
def content (b : Bytes) : Option (Nat × Bytes) :=
  match decodeU64 b with
  | .ok x => some x
  | .error _ => none

/-- The media frames in a group: those that are well formed, in order; the first is the keyframe. -/
def media (bs : List Bytes) : List Frame :=
  (bs.filterMap content).mapIdx fun i x => ⟨x.1, i == 0, x.2⟩

/-- A history of calls and answers. -/
abbrev Trace := List (Op × Out)

/-- The frames added to a group. -/
def framesOf (tr : Trace) (gid : Nat) : List Bytes :=
  tr.filterMap fun
    | (.frame g b, .ok) => if g = gid then some b else none
    | _ => none

/-- The group was closed. -/
def Closed (tr : Trace) (gid : Nat) (r : Except Error Unit) : Prop := (Op.close gid r, Out.ok) ∈ tr

/-- The groups received by the reader, in order. -/
def received (tr : Trace) : List Track.Grp :=
  tr.filterMap fun
    | (_, .received g) => some g
    | (_, .ignored g) => some g
    | _ => none

/-- The frames returned, with their groups, in order. -/
def returned (tr : Trace) : List (Track.Grp × Frame) :=
  tr.filterMap fun
    | (_, .frame g f) => some (g, f)
    | _ => none

/-- The frames returned from one group. -/
def returnedOf (tr : Trace) (g : Track.Grp) : List Frame :=
  (returned tr).filterMap fun x => if x.1 = g then some x.2 else none

/-- The groups that the reader left because they ended. -/
def ended (tr : Trace) : List Track.Grp :=
  tr.filterMap fun
    | (_, .ended g) => some g
    | _ => none

/-- The groups that the reader skipped. -/
def skippedBy : Out → List Track.Grp
  | .skipped gs _ => gs
  | _ => []

def skipped (tr : Trace) : List Track.Grp := tr.flatMap fun e => skippedBy e.2

/-- The groups that the reader has not finished with. -/
def remaining (tr : Trace) : List Track.Grp :=
  (received tr).filter fun g => g ∉ ended tr ∧ g ∉ skipped tr

/-- The timestamp of the frame returned last, 0 if there is none. -/
def lastMicros (tr : Trace) : Nat :=
  match (returned tr).getLast? with
  | some x => x.2.micros
  | none => 0

/-- The latency last set, 0 at the start. -/
def latencyOf (tr : Trace) : Nat :=
  tr.foldl (fun l e => match e with
    | (.setLatency n, .ok) => n
    | _ => l) 0

/-- What happened to the track. -/
def trackTrace (c : Nat) (tr : Trace) : Model.Track.Spec.Trace :=
  tr.filterMap fun
    | (.track op, .track o) => some (op, o)
    | (_, .received g) => some (.next c, .group g)
    | (_, .ignored g) => some (.next c, .group g)
    | _ => none

/-! ## Writing -/

/-- The frames can be written: their timestamps fit into 62 bits. -/
def Writable (f : Input) : Prop := f.nanos / 1000 < 2 ^ 62

/-- A grouping of frames: a keyframe starts a group, another frame does not (except the first of
all). -/
structure Grouping (fs : List Input) (gs : List (List Input)) : Prop where
  all : gs.flatten = fs
  nonempty : ∀ g ∈ gs, g ≠ []
  tail : ∀ g ∈ gs, ∀ f ∈ g.tail, f.keyframe = false
  head : ∀ g ∈ gs.tail, ∀ f, g.head? = some f → f.keyframe = true

/-- What is read of a frame written: the flag is set for the first frame of a group. -/
def readBack (g : List Input) : List Frame :=
  g.mapIdx fun i f => ⟨f.nanos / 1000, i == 0, f.payload⟩

end Verif.Hang.Media.Spec
