import Verif.Base

/-!
# Model of `Audio` of js/hang/src/watch/audio.ts

Decoded samples are played at times that fit their timestamps: `#emit`, `#createBuffer` and
`#scheduleBuffer`, for one `AudioContext`.  Samples, nodes and buffers are numbered.  Times are integers in
a common unit (the code uses seconds; here arithmetic is exact).

A node plays its buffer from the time it was started with; it ends afterwards, or when it is stopped,
and `onended` is called once, at any later time.
-/

set_option autoImplicit false

namespace Verif.Js.Schedule

open Verif

/-- An `AudioBufferSourceNode`. -/
structure Node where
  buffer : Nat
  sample : Nat
  timestamp : Int
  when_ : Int
  stopped : Bool
  /-- `onended` was called -/
  over : Bool
  deriving DecidableEq, Repr

/-- js/hang/src/watch/audio.ts:113-118. -/
structure State where
  /-- `currentTime` of the context -/
  now : Int
  ref : Option Int
  /-- all nodes that were made -/
  nodes : List Node
  /-- `#active` -/
  active : List Nat
  /-- all buffers that were made: the format, and the sample that was copied to it last -/
  buffers : List (Nat × Nat)
  /-- `#buffers` -/
  pool : List Nat
  /-- the number of samples so far -/
  samples : Nat
  deriving DecidableEq, Repr

inductive Op where
  | tick (d : Nat)
  /-- a sample, with its maximal latency (its duration and 50 ms) and its format -/
  | emit (timestamp : Int) (max : Nat) (format : Nat)
  /-- `onended` of a node is called -/
  | ended (k : Nat)
  /-- `enabled` is set to false -/
  | disable
  deriving DecidableEq, Repr

inductive Out where
  | ok
  /-- the sample is not played -/
  | dropped (sample : Nat)
  /-- a node plays the sample at this time -/
  | scheduled (k sample : Nat) (when_ : Int)
  /-- `onended` is through -/
  | done
  | invalid
  deriving DecidableEq, Repr

def init : State := ⟨0, none, [], [], [], [], 0⟩

/-- `stop` for all in `#active`, js/hang/src/watch/audio.ts:138-140 and 250-252. -/
def stopAll (s : State) : State :=
  { s with nodes := s.nodes.mapIdx fun k n => if k ∈ s.active then { n with stopped := true } else n }

/-- The loop of `#createBuffer`, js/hang/src/watch/audio.ts:266-277: buffers with another format are
discarded. -/
def reuse (buffers : List (Nat × Nat)) (format : Nat) : List Nat → Option Nat × List Nat
  | [] => (none, [])
  | b :: pool => if (buffers[b]?).map (·.1) = some format then (some b, pool) else reuse buffers format pool

/-- `#createBuffer`, js/hang/src/watch/audio.ts:263-292. -/
def createBuffer (s : State) (sample format : Nat) : Nat × State :=
  match reuse s.buffers format s.pool with
  | (some b, pool) => (b, { s with
      buffers := s.buffers.modify b fun x => (x.1, sample)
      pool := pool })
  | (none, pool) => (s.buffers.length, { s with
      buffers := s.buffers ++ [(format, sample)]
      pool := pool })

/-- `#scheduleBuffer`, js/hang/src/watch/audio.ts:294-318. -/
def schedule (s : State) (buffer sample : Nat) (timestamp when_ : Int) : Out × State :=
  (.scheduled s.nodes.length sample when_, { s with
    nodes := s.nodes ++ [⟨buffer, sample, timestamp, when_, false, false⟩]
    active := s.active ++ [s.nodes.length] })

/-- The reference: one that is undefined or 0 is replaced, js/hang/src/watch/audio.ts:232-234. -/
def reference (s : State) (timestamp : Int) (max : Nat) : Int :=
  match s.ref with
  | none => timestamp - s.now - max
  | some r => if r = 0 then timestamp - s.now - max else r

/-- `#emit`, js/hang/src/watch/audio.ts:217-261. -/
def emit (s : State) (timestamp : Int) (max : Nat) (format : Nat) : Out × State :=
  let sample := s.samples
  let r := reference s timestamp max
  let s := { s with
    samples := s.samples + 1
    ref := some r }
  let latency := timestamp - r - s.now
  if latency < 0 then (.dropped sample, s)
  else if max < latency then
    let s := stopAll { s with ref := some (timestamp - s.now - max) }
    let (b, s) := createBuffer s sample format
    schedule s b sample timestamp (s.now + max)
  else
    let (b, s) := createBuffer s sample format
    schedule s b sample timestamp (timestamp - r)

/-- `onended`, js/hang/src/watch/audio.ts:298-314. -/
def ended (s : State) (k : Nat) (n : Node) : Out × State :=
  let s := { s with
    nodes := s.nodes.set k { n with over := true }
    active := s.active.tail }
  match s.ref with
  | some r =>
    if r ≠ 0 ∧ s.now < n.timestamp - r then schedule s n.buffer n.sample n.timestamp (n.timestamp - r)
    else (.done, { s with pool := s.pool ++ [n.buffer] })
  | none => (.done, { s with pool := s.pool ++ [n.buffer] })

def step (s : State) : Op → Out × State
  | .tick d => (.ok, { s with now := s.now + d })
  | .emit t max format => emit s t max format
  | .ended k =>
    match s.nodes[k]? with
    | some n =>
      if n.over = false ∧ (n.stopped = true ∨ n.when_ ≤ s.now) then ended s k n else (.invalid, s)
    | none => (.invalid, s)
  | .disable => (.ok, stopAll s)

/-- The machine of a player of samples. -/
abbrev machine : Machine := { State := State, Op := Op, Out := Out, init := init, step := step }

/-- What a node plays: the format of its buffer, and the sample in it. -/
def plays (s : State) (k : Nat) : Option (Nat × Nat) :=
  (s.nodes[k]?).bind fun n => s.buffers[n.buffer]?

/-! ## Vocabulary of histories -/

abbrev Trace := List (Op × Out)

/-- The time. -/
def clock (tr : Trace) : Int :=
  tr.foldl (fun t e =>
    match e.1 with
    | .tick d => t + d
    | _ => t) 0

/-- The timestamps of the samples, in order. -/
def emitted (tr : Trace) : List Int :=
  tr.filterMap fun e =>
    match e.1 with
    | .emit t _ _ => some t
    | _ => none

/-- The formats of the samples, in order. -/
def formats (tr : Trace) : List Nat :=
  tr.filterMap fun e =>
    match e.1 with
    | .emit _ _ f => some f
    | _ => none

/-- The nodes that were started, in order: number, sample, and time. -/
def scheduled (tr : Trace) : List (Nat × Nat × Int) :=
  tr.filterMap fun e =>
    match e.2 with
    | .scheduled k i w => some (k, i, w)
    | _ => none

/-- The node is over. -/
def Over (tr : Trace) (k : Nat) : Prop := ∃ o, o ≠ .invalid ∧ (.ended k, o) ∈ tr

/-- The timestamp compared with the time it is played, for the new sample that was scheduled last. -/
def offset (tr : Trace) : Option Int :=
  tr.foldl (fun d e =>
    match e with
    | (.emit t _ _, .scheduled _ _ w) => some (t - w)
    | _ => d) none

end Verif.Js.Schedule
