import Verif.Hang.Media

/-!
# Model of the readers that take one frame per group

`CatalogConsumer::next`, rs/hang/src/catalog/root.rs:165-187, and `LocationConsumer::next`,
rs/hang/src/model/location.rs:40-61, each with the track it reads and the contents of all groups;
`LocationProducer`, rs/hang/src/model/location.rs:65-107, and the encoding of a position.

As in `Verif/Hang/Media.lean`, a group holds the frames that are complete, and how it ended.  What
is done with the bytes of a frame (JSON or three floats) is a parameter `parse`.
-/

set_option autoImplicit false

namespace Verif.Hang.Latest

open Verif
open Verif.Session (Error)
open Verif.Session.ServeLoop (foreign)
open Verif.Hang.Media (Content)
open Verif.Model (Track.Op Track.Out Track.State Track.Grp Track.step)

/-- Which reader. -/
inductive Kind where
  | catalog
  | location
  deriving DecidableEq

/-- The state.  `held` is `group`: for catalogs a field of the reader,
rs/hang/src/catalog/root.rs:157, for locations a variable of the future,
rs/hang/src/model/location.rs:41.  Nothing has been read from it: after its first frame it is
given up. -/
structure State where
  track : Track.State
  content : Nat → Content
  held : Option Track.Grp

/-- Operations. -/
inductive Op where
  /-- somebody else uses the track, but not the consumer of the reader -/
  | track (op : Track.Op)
  /-- a complete frame is added to a group -/
  | frame (gid : Nat) (b : Bytes)
  /-- a group ends or fails -/
  | close (gid : Nat) (r : Except Error Unit)
  /-- one poll of `next`.  The `select!` of the catalog reader polls its branches in a random order;
  `frameFirst` if the branch of the frame comes first. -/
  | poll (frameFirst : Bool)
  /-- the future of `next` is dropped -/
  | cancel

/-- Outputs. -/
inductive Out (V : Type) where
  | ok
  | track (o : Track.Out)
  /-- `next` returned a value; its group is recorded -/
  | value (g : Track.Grp) (v : V)
  /-- `next` returned an error because the frame is malformed -/
  | bad (g : Track.Grp)
  /-- `next` returned an error because the group failed -/
  | failed (g : Track.Grp) (e : Error)
  /-- `next` returned `EmptyGroup` -/
  | empty (g : Track.Grp)
  /-- a group was received, `next` goes on -/
  | received (g : Track.Grp)
  /-- `next` returned `None` -/
  | ended
  /-- `next` returned the error of the track -/
  | err (e : Error)
  | pending
  /-- the future was dropped, with what it held -/
  | cancelled (g : Option Track.Grp)
  | invalid
  deriving DecidableEq

variable {V : Type}

/-- `read_frame` of the group that is held, and what is made of its result; `none` if the future is
not ready, or if the branch is disabled.  rs/hang/src/catalog/root.rs:180-184 (a group that ended
without a frame disables the branch) and rs/hang/src/model/location.rs:46-60. -/
def frameBranch (k : Kind) (parse : Bytes → Option V) (s : State) : Option (Out V × State) :=
  match s.held with
  | none => none
  | some g =>
    match (s.content g.gid).frames with
    | b :: _ =>
      match parse b with
      | some v => some (.value g v, { s with held := none })
      | none => some (.bad g, { s with held := none })
    | [] =>
      match (s.content g.gid).closed, k with
      | none, _ => none
      | some (.error e), _ => some (.failed g e, { s with held := none })
      | some (.ok _), .catalog => none
      | some (.ok _), .location => some (.empty g, { s with held := none })

/-- `next_group`, rs/hang/src/catalog/root.rs:168-179 and rs/hang/src/model/location.rs:41-44;
`none` if the future is not ready. -/
def groupBranch (c : Nat) (s : State) : Option (Out V × State) :=
  match Track.step s.track (.next c) with
  | (.group g, t) => some (.received g, { s with track := t, held := some g })
  | (.ended, t) => some (.ended, { s with track := t })
  | (.err e, t) => some (.err e, { s with track := t })
  | (.pending, _) => none
  | _ => some (.invalid, s)

/-- One poll of `next`. -/
def poll (k : Kind) (parse : Bytes → Option V) (c : Nat) (s : State) (frameFirst : Bool) :
    Out V × State :=
  match k with
  | .catalog =>
    if frameFirst then
      ((frameBranch k parse s).orElse fun _ => groupBranch c s).getD (.pending, s)
    else ((groupBranch c s).orElse fun _ => frameBranch k parse s).getD (.pending, s)
  | .location =>
    if s.held.isSome then (frameBranch k parse s).getD (.pending, s)
    else (groupBranch c s).getD (.pending, s)

/-- One operation of the reader with consumer `c`. -/
def step (k : Kind) (parse : Bytes → Option V) (c : Nat) (s : State) : Op → Out V × State
  | .track op =>
    if foreign c op then
      (.track (Track.step s.track op).1, { s with track := (Track.step s.track op).2 })
    else (.invalid, s)
  | .frame gid b =>
    if (s.content gid).closed.isSome then (.invalid, s)
    else
      (.ok, { s with content := fun g =>
        if g = gid then { s.content gid with frames := (s.content gid).frames ++ [b] } else s.content g })
  | .close gid r =>
    if (s.content gid).closed.isSome then (.invalid, s)
    else
      (.ok, { s with content := fun g =>
        if g = gid then { s.content gid with closed := some r } else s.content g })
  | .poll frameFirst => poll k parse c s frameFirst
  | .cancel =>
    match k with
    | .catalog => (.cancelled none, s)
    | .location => (.cancelled s.held, { s with held := none })

/-- The reader as a machine, started with the track in state `t` and its consumer `c`,
rs/hang/src/catalog/root.rs:161-163 and rs/hang/src/model/location.rs:36-38. -/
abbrev machine (k : Kind) (parse : Bytes → Option V) (t : Track.State) (c : Nat) : Machine :=
  ⟨State, Op, Out V, ⟨t, fun _ => ⟨[], none⟩, none⟩, step k parse c⟩

/-! ## Positions -/

/-- `Position`, rs/hang/src/model/location.rs:11-19, with the bits of its floats. -/
structure Position where
  x : UInt32
  y : UInt32
  zoom : UInt32
  deriving DecidableEq

/-- `put_f32` of the `bytes` crate: the bits, most significant byte first. -/
def putF32 (n : UInt32) : Bytes :=
  [UInt8.ofNat (n.toNat / 16777216), UInt8.ofNat (n.toNat / 65536), UInt8.ofNat (n.toNat / 256),
    UInt8.ofNat n.toNat]

/-- `get_f32`: the value and the rest; it panics (`none`) if there are fewer than four bytes. -/
def getF32 : Bytes → Option (UInt32 × Bytes)
  | a :: b :: c :: d :: rest =>
    some (UInt32.ofNat (a.toNat * 16777216 + b.toNat * 65536 + c.toNat * 256 + d.toNat), rest)
  | _ => none

/-- The frame of a position, rs/hang/src/model/location.rs:84-88 -/
def Position.encode (p : Position) : Bytes := putF32 p.x ++ putF32 p.y ++ putF32 p.zoom

/-- What `next` makes of a frame, rs/hang/src/model/location.rs:51-60. -/
inductive Read where
  | ok (p : Position)
  | invalidFrame
  | panic
  deriving DecidableEq

/-- rs/hang/src/model/location.rs:51-60 -/
def Position.read (b : Bytes) : Read :=
  if b.length ≠ 12 then .invalidFrame
  else
    match getF32 b with
    | none => .panic
    | some (x, b) =>
      match getF32 b with
      | none => .panic
      | some (y, b) =>
        match getF32 b with
        | none => .panic
        | some (zoom, _) => .ok ⟨x, y, zoom⟩

/-- The same as a parser for the reader above. -/
def Position.parse (b : Bytes) : Option Position :=
  match Position.read b with
  | .ok p => some p
  | _ => none

/-! ## The producer of positions -/

/-- `LocationProducer` with its clones, rs/hang/src/model/location.rs:65-69.  `published` are the
positions in the groups of the track, oldest first: `append_group` numbers groups consecutively
(C25; its panic with concurrent clones is left out here).  `calls` are the calls of `update` that
have published but not yet set `latest`. -/
structure PState where
  published : List Position
  latest : Option Position
  calls : List (Option Position)

/-- Operations; the critical sections of `update`. -/
inductive POp where
  /-- rs/hang/src/model/location.rs:81-91 -/
  | publish (p : Position)
  /-- rs/hang/src/model/location.rs:93, in call `n` -/
  | remember (n : Nat)
  /-- `latest`, rs/hang/src/model/location.rs:76-78 -/
  | latest
  deriving DecidableEq

/-- Outputs. -/
inductive POut where
  | call (n : Nat)
  | ok
  | latest (p : Option Position)
  | invalid
  deriving DecidableEq

/-- One operation. -/
def pstep (s : PState) : POp → POut × PState
  | .publish p => (.call s.calls.length, { s with published := s.published ++ [p], calls := s.calls ++ [some p] })
  | .remember n =>
    match s.calls[n]? with
    | some (some p) => (.ok, { s with latest := some p, calls := s.calls.set n none })
    | _ => (.invalid, s)
  | .latest => (.latest s.latest, s)

/-- The producer as a machine. -/
abbrev pmachine : Machine := ⟨PState, POp, POut, ⟨[], none, []⟩, pstep⟩

end Verif.Hang.Latest
