import Verif.Base

/-!
# Model of `Video` of js/hang/src/watch/video.ts

The frames that wait to be shown: the decoder outputs them, the renderer asks for one at a time.
Frames are numbered in the order of output.  Times are integers in a common unit (the code divides
timestamps by 1000, to compare microseconds with milliseconds; here arithmetic is exact).

`close` disposes of the effect, but the decoder goes on: the function that `#init` returns to close it
(js/hang/src/watch/video.ts:245-248) is not called, as `effect` ignores the result (js/signals/src/index.ts:92-100).
So the decoder may output at any time.
-/

set_option autoImplicit false

namespace Verif.Js.Playback

open Verif

/-- A `VideoFrame`. -/
structure Frame where
  id : Nat
  timestamp : Int
  deriving DecidableEq, Repr

/-- js/hang/src/watch/video.ts:153-158. -/
structure State where
  current : Option Frame
  next : Option Frame
  ref : Option Int
  /-- the number of frames that were output -/
  count : Nat
  deriving DecidableEq, Repr

inductive Op where
  /-- the decoder outputs a frame -/
  | output (timestamp : Int)
  /-- the renderer asks for a frame -/
  | frame (now : Int)
  | close
  deriving DecidableEq, Repr

inductive Out where
  /-- `close` is called of these frames -/
  | shut (ids : List Nat)
  /-- `frame` returns nothing -/
  | nothing
  /-- `frame` closes these frames, and returns a frame and the lag -/
  | shown (ids : List Nat) (frame : Frame) (lag : Int)
  deriving DecidableEq, Repr

def init : State := ⟨none, none, none, 0⟩

/-- js/hang/src/watch/video.ts:192-206. -/
def output (s : State) (timestamp : Int) : Out × State :=
  let f : Frame := ⟨s.count, timestamp⟩
  let s := { s with count := s.count + 1 }
  match s.current, s.next with
  | none, _ => (.shut [], { s with current := some f })
  | some _, none => (.shut [], { s with next := some f })
  | some c, some n => (.shut [c.id], { s with
      current := some n
      next := some f })

/-- The reference: a value that is undefined or 0 is replaced, js/hang/src/watch/video.ts:256-259. -/
def newRef (ref : Option Int) (r : Int) : Int :=
  match ref with
  | none => r
  | some x => if x = 0 ∨ x < r then r else x

/-- `frame`, js/hang/src/watch/video.ts:252-277.  The loop goes around again at most once, as `next` is
then empty. -/
def frame (s : State) (now : Int) : Out × State :=
  match s.current with
  | none => (.nothing, s)
  | some c =>
    let r := newRef s.ref (c.timestamp - now)
    let lag := r - (c.timestamp - now)
    match s.next with
    | none => (.shown [] c lag, { s with ref := some r })
    | some n =>
      if lag ≤ n.timestamp - c.timestamp then (.shown [] c lag, { s with ref := some r })
      else
        let r' := newRef (some r) (n.timestamp - now)
        (.shown [c.id] n (r' - (n.timestamp - now)), { s with
          current := some n
          next := none
          ref := some r' })

/-- js/hang/src/watch/video.ts:279-285. -/
def close (s : State) : Out × State :=
  (.shut ((s.current.map (·.id)).toList ++ (s.next.map (·.id)).toList), { s with
    current := none
    next := none })

def step (s : State) : Op → Out × State
  | .output t => output s t
  | .frame now => frame s now
  | .close => close s

/-- The machine of the frames of a player. -/
abbrev machine : Machine := { State := State, Op := Op, Out := Out, init := init, step := step }

/-! ## Vocabulary of histories -/

abbrev Trace := List (Op × Out)

/-- The timestamps of the frames that were output, in order. -/
def outputs (tr : Trace) : List Int :=
  tr.filterMap fun e =>
    match e.1 with
    | .output t => some t
    | _ => none

/-- The frames that were closed, in order. -/
def shut (tr : Trace) : List Nat :=
  tr.flatMap fun e =>
    match e.2 with
    | .shut ids => ids
    | .nothing => []
    | .shown ids _ _ => ids

/-- The frames that were shown, in order. -/
def shown (tr : Trace) : List Frame :=
  tr.filterMap fun e =>
    match e.2 with
    | .shown _ f _ => some f
    | _ => none

/-- How early the frames were that `frame` looked at: the timestamp compared with the time. -/
def refs (tr : Trace) : List Int :=
  tr.foldl (fun (acc : List Int × List Int) e =>
    match e with
    | (.output t, _) => (acc.1 ++ [t], acc.2)
    | (.frame now, .shown ids f _) =>
      (acc.1, acc.2 ++ ids.map (fun i => (acc.1[i]?).getD 0 - now) ++ [f.timestamp - now])
    | _ => acc) ([], []) |>.2

end Verif.Js.Playback
