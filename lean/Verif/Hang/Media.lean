import Verif.Coding.Model
import Verif.Session.ServeLoop

/-!
# Model of `rs/hang/src/model`: media frames, groups and tracks

Timestamps are in microseconds where they are on the wire and in nanoseconds where they are
`Duration`s.  The model of the writer has one track producer that is not cloned; `append_group`,
`create_frame` and the reading of a whole frame are used as the theorems about the `Track`, `Group`
and `Frame` models describe them (C21, C22, C25): a written frame is a list of bytes in its group.
-/

set_option autoImplicit false

namespace Verif.Hang.Media

open Verif Verif.Coding
open Verif.Session (Error)
open Verif.Session.ServeLoop (foreign)
open Verif.Model (Track.Op Track.Out Track.State Track.Grp Track.step)

/-! ## Writing -/

/-- A frame given to `write`, rs/hang/src/model/frame.rs:8-14.  The timestamp is a `Duration`, in
nanoseconds. -/
structure Input where
  nanos : Nat
  keyframe : Bool
  payload : Bytes
  deriving DecidableEq

/-- `timestamp.as_micros() as u64`, rs/hang/src/model/track.rs:21: the conversion truncates. -/
def Input.micros (f : Input) : Nat := f.nanos / 1000 % 2 ^ 64

/-- The bytes of a frame, rs/hang/src/model/track.rs:21-23 and 36-40. -/
def encode (f : Input) : Except Panic Bytes :=
  match wire (encodeU64 f.micros) with
  | .error p => .error p
  | .ok header => .ok (header ++ f.payload)

/-- A group that has been written. -/
structure Written where
  seq : Nat
  frames : List Bytes
  finished : Bool
  deriving DecidableEq

/-- `TrackProducer`, rs/hang/src/model/track.rs:9-13.  `groups` are the groups appended so far,
oldest first; if `open` then `self.group` is the last of them.  `next` is the sequence number of the
next appended group. -/
structure Writer where
  next : Nat
  groups : List Written
  isOpen : Bool

/-- Finish the last group, rs/hang/src/model/track.rs:26-28. -/
def finishLast : List Written → List Written
  | [] => []
  | [g] => [{ g with finished := true }]
  | g :: gs => g :: finishLast gs

/-- Add a frame to the last group. -/
def addLast (b : Bytes) : List Written → List Written
  | [] => []
  | [g] => [{ g with frames := g.frames ++ [b] }]
  | g :: gs => g :: addLast b gs

/-- `TrackProducer::write`, rs/hang/src/model/track.rs:20-43 -/
def write (w : Writer) (f : Input) : Except Panic Writer :=
  match encode f with
  | .error p => .error p
  | .ok b =>
    let w := if f.keyframe && w.isOpen then { w with groups := finishLast w.groups, isOpen := false } else w
    if w.isOpen then .ok { w with groups := addLast b w.groups }
    else if 2 ^ 64 ≤ w.next then .error .overflow
    else .ok { next := w.next + 1, groups := w.groups ++ [⟨w.next, [b], false⟩], isOpen := true }

/-- Several writes. -/
def writeAll (w : Writer) : List Input → Except Panic Writer
  | [] => .ok w
  | f :: fs =>
    match write w f with
    | .error p => .error p
    | .ok w => writeAll w fs

/-! ## Reading -/

/-- A frame that has been read, rs/hang/src/model/frame.rs:8-14 -/
structure Frame where
  micros : Nat
  keyframe : Bool
  payload : Bytes
  deriving DecidableEq

/-- What the group holds for its readers: complete frames, and how it ended.  A failure stands for
an aborted or abandoned group and for a frame that fails. -/
structure Content where
  frames : List Bytes
  closed : Option (Except Error Unit)

/-- `GroupConsumer`, rs/hang/src/model/group.rs:8-20.  `pos` is the number of frames taken from the
inner consumer. -/
structure RGroup where
  grp : Track.Grp
  pos : Nat
  index : Nat
  buffered : List Frame
  /-- `max_timestamp` in microseconds -/
  max : Option Nat

/-- `GroupConsumer::new`, rs/hang/src/model/group.rs:23-30 -/
def RGroup.new (g : Track.Grp) : RGroup := ⟨g, 0, 0, [], none⟩

/-- The errors of `read`, rs/hang/src/error.rs. -/
inductive ReadError where
  | moq (e : Error)
  | decode (e : DecodeError)
  deriving DecidableEq

/-- The result of polling `read_frame`. -/
inductive Poll where
  | frame (f : Frame)
  | ended
  | err (e : ReadError)
  | pending

/-- `read_frame_unbuffered`, rs/hang/src/model/group.rs:40-59 -/
def readUnbuffered (c : Content) (r : RGroup) : Poll × RGroup :=
  match c.frames[r.pos]? with
  | some bytes =>
    match decodeU64 bytes with
    | .error e => (.err (.decode e), { r with pos := r.pos + 1 })
    | .ok (micros, payload) =>
      (.frame ⟨micros, r.index == 0, payload⟩,
        { r with pos := r.pos + 1, index := r.index + 1, max := some (max (r.max.getD 0) micros) })
  | none =>
    match c.closed with
    | none => (.pending, r)
    | some (.ok _) => (.ended, r)
    | some (.error e) => (.err (.moq e), r)

/-- `read_frame`, rs/hang/src/model/group.rs:32-38 -/
def readFrame (c : Content) (r : RGroup) : Poll × RGroup :=
  match r.buffered with
  | f :: rest => (.frame f, { r with buffered := rest })
  | [] => readUnbuffered c r

/-- The maximum timestamp has reached the cutoff (in nanoseconds). -/
def RGroup.reached (r : RGroup) (cutoff : Nat) : Bool :=
  match r.max with
  | some m => decide (cutoff ≤ m * 1000)
  | none => false

/-- One round of the loop of `buffer_frames_until`, rs/hang/src/model/group.rs:65-76. -/
inductive Round where
  /-- the function returned -/
  | ready (r : RGroup)
  /-- the future is pending, for now or for ever -/
  | wait (r : RGroup)
  /-- the loop goes round again without yielding -/
  | again (r : RGroup)

def round (c : Content) (cutoff : Nat) (r : RGroup) : Round :=
  if r.reached cutoff then .ready r
  else
    match readFrame c r with
    | (.frame f, r) => .again { r with buffered := r.buffered ++ [f] }
    | (_, r) => .wait r

/-- The loop with at most `n` rounds. -/
def rounds (c : Content) (cutoff : Nat) : Nat → RGroup → Round
  | 0, r => .again r
  | n + 1, r =>
    match round c cutoff r with
    | .again r => rounds c cutoff n r
    | o => o

/-- One poll of `buffer_frames_until`; `none` means that the poll never returns.  See
`Props/Media.lean` for the agreement with `rounds`. -/
def pollBuffer (c : Content) (cutoff : Nat) (r : RGroup) : Option (Bool × RGroup) :=
  if r.reached cutoff then some (true, r)
  else if r.buffered ≠ [] then none
  else
    match readUnbuffered c r with
    | (.frame f, r) => if r.reached cutoff then some (true, { r with buffered := [f] }) else none
    | (_, r) => some (false, r)

/-- `TrackConsumer`, rs/hang/src/model/track.rs:56-70, with the track it reads and the contents of
all groups. -/
structure State where
  track : Track.State
  content : Nat → Content
  current : Option RGroup
  pending : List RGroup
  /-- `max_timestamp`, a timestamp read, in microseconds -/
  max : Nat
  /-- `latency` in nanoseconds -/
  latency : Nat
  /-- `read` is in a loop that never yields -/
  stuck : Bool

/-- Operations. -/
inductive Op where
  /-- somebody else uses the track, but not the consumer of the reader -/
  | track (op : Track.Op)
  /-- a complete frame is added to a group -/
  | frame (gid : Nat) (b : Bytes)
  /-- a group ends or fails -/
  | close (gid : Nat) (r : Except Error Unit)
  /-- `set_latency`, rs/hang/src/model/track.rs:149-151 -/
  | setLatency (nanos : Nat)
  /-- one poll of the `select!` in `read`, rs/hang/src/model/track.rs:84-146.  The futures of the
  pending groups in the given places are polled, in that order. -/
  | poll (order : List Nat)

/-- Outputs. -/
inductive Out where
  | ok
  | track (o : Track.Out)
  /-- `read` returned a frame; the group it is from is recorded -/
  | frame (g : Track.Grp) (f : Frame)
  /-- a new group was received -/
  | received (g : Track.Grp)
  /-- an old group was received and ignored -/
  | ignored (g : Track.Grp)
  /-- the current group ended, the reader moved on to the next one -/
  | ended (g : Track.Grp)
  /-- the current and other groups were skipped in favour of a later one -/
  | skipped (gs : List Track.Grp) (to : Track.Grp)
  /-- `read` returned `None` -/
  | finished
  /-- `read` returned an error -/
  | err (e : ReadError)
  | pending
  /-- the poll does not return -/
  | hangs
  /-- the addition of durations overflows -/
  | panic
  | invalid
  deriving DecidableEq

/-- `partition_point` and `insert`, rs/hang/src/model/track.rs:123-125.  The list is sorted, so
that the binary search finds the first group that is not older. -/
def insertSorted (r : RGroup) (l : List RGroup) : List RGroup :=
  l.takeWhile (fun x => x.grp.seq < r.grp.seq) ++ r :: l.dropWhile (fun x => x.grp.seq < r.grp.seq)

/-- Polling the futures of pending groups: `none` if one of the polls never returns; otherwise the
place of the first that is ready, and the groups. -/
def pollPending (content : Nat → Content) (cutoff : Nat) :
    List Nat → List RGroup → Option (Option Nat × List RGroup)
  | [], l => some (none, l)
  | i :: order, l =>
    match l[i]? with
    | none => pollPending content cutoff order l
    | some r =>
      match pollBuffer (content r.grp.gid) cutoff r with
      | none => none
      | some (true, r) => some (some i, l.set i r)
      | some (false, r) => pollPending content cutoff order (l.set i r)

/-- The largest `Duration` is below 2^64 seconds. -/
def durationBound : Nat := 2 ^ 64 * 1000000000

/-- The third branch of the `select!`, rs/hang/src/model/track.rs:130-144, after the second was not
ready; `trackEnded` if it was disabled. -/
def third (s : State) (trackEnded : Bool) (order : List Nat) : Out × State :=
  match pollPending s.content (s.max * 1000 + s.latency) order s.pending with
  | none => (.hangs, { s with stuck := true })
  | some (some i, l) =>
    match l[i]? with
    | some r =>
      (.skipped ((s.current.toList ++ l.take i).map (·.grp)) r.grp,
        { s with current := some r, pending := l.drop (i + 1) })
    | none => (.invalid, s)
  | some (none, l) =>
    if trackEnded && s.current.isNone && s.pending.isEmpty then (.finished, s)
    else (.pending, { s with pending := l })

/-- The second branch, rs/hang/src/model/track.rs:113-129, after the first was not ready. -/
def second (c : Nat) (s : State) (order : List Nat) : Out × State :=
  match Track.step s.track (.next c) with
  | (.group g, t) =>
    let s := { s with track := t }
    match s.current with
    | some r =>
      if g.seq < r.grp.seq then (.ignored g, s)
      else (.received g, { s with pending := insertSorted (RGroup.new g) s.pending })
    | none => (.received g, { s with current := some (RGroup.new g) })
  | (.err e, t) => (.err (.moq e), { s with track := t })
  | (.ended, t) => third { s with track := t } true order
  | (.pending, t) => third { s with track := t } false order
  | _ => (.invalid, s)

/-- The first branch, rs/hang/src/model/track.rs:97-112. -/
def first (c : Nat) (s : State) (order : List Nat) : Out × State :=
  match s.current with
  | none => second c s order
  | some r =>
    match readFrame (s.content r.grp.gid) r with
    | (.frame f, r) => (.frame r.grp f, { s with current := some r, max := f.micros })
    | (.ended, r) =>
      (.ended r.grp, { s with current := s.pending.head?, pending := s.pending.tail })
    | (.err e, r) => (.err e, { s with current := some r })
    | (.pending, _) => second c s order

/-- One operation of the reader with consumer `c`. -/
def step (c : Nat) (s : State) : Op → Out × State
  | .track op =>
    if foreign c op then
      (.track (Track.step s.track op).1, { s with track := (Track.step s.track op).2 })
    else (.invalid, s)
  | .frame gid b =>
    if (s.content gid).closed.isSome then (.invalid, s)
    else
      (.ok, { s with content := fun g =>
        if g = gid then { s.content gid with frames := (s.content gid).frames ++ [b] } else s.content g })
  | .close gid r =>
    if (s.content gid).closed.isSome then (.invalid, s)
    else
      (.ok, { s with content := fun g =>
        if g = gid then { s.content gid with closed := some r } else s.content g })
  | .setLatency n => if s.stuck || decide (durationBound ≤ n) then (.invalid, s) else (.ok, { s with latency := n })
  | .poll order =>
    if s.stuck then (.hangs, s)
    /- rs/hang/src/model/track.rs:85 -/
    else if durationBound ≤ s.max * 1000 + s.latency then (.panic, s)
    else first c s order

/-- The reader as a machine, started with the track in state `t` and its consumer `c`,
rs/hang/src/model/track.rs:72-81. -/
abbrev machine (t : Track.State) (c : Nat) : Machine :=
  ⟨State, Op, Out, ⟨t, fun _ => ⟨[], none⟩, none, [], 0, 0, false⟩, step c⟩

end Verif.Hang.Media
