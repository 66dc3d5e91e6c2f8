import Verif.Base

/-!
# Model of `rs/hang/src/model/broadcast.rs` and `rs/hang/src/catalog/root.rs`: the catalog of a broadcast

The state is the catalog behind its mutex and the calls of `add_video` and `add_audio` with the tasks
they spawn.  Every locking of the mutex is one step, so that the steps of calls from several clones and
of the tasks interleave in any order.  A published catalog is a new group of the catalog track with
one frame (`append_group`, C25; the mutex is held over it, so that groups are in the order of
publishing); for its form as JSON see `Verif.Hang.CatalogJson`.  `set_location` and `update` are not used by
the broadcast, whose catalog is private.
-/

set_option autoImplicit false

namespace Verif.Hang.Catalog

open Verif

inductive Kind where
  | video
  | audio
  deriving DecidableEq

/-- An entry of the catalog, with the number of the call that added it. -/
structure Entry (Info : Type) where
  call : Nat
  info : Info
  deriving DecidableEq

/-- Where a call of `add_video` or `add_audio` is, rs/hang/src/model/broadcast.rs:36-61. -/
inductive Stage where
  /-- added to the catalog, `publish` comes next -/
  | added
  /-- published; the task waits for the track to close -/
  | waiting
  /-- the task removed the entry, `publish` comes next -/
  | removed
  | done
  deriving DecidableEq

structure Call (Info : Type) where
  kind : Kind
  info : Info
  stage : Stage
  /-- the track was closed -/
  closed : Bool

/-- The catalog, rs/hang/src/catalog/root.rs:16-27, and the calls. -/
structure State (Info : Type) where
  video : List (Entry Info)
  audio : List (Entry Info)
  calls : List (Call Info)

inductive Op (Info : Type) where
  /-- the first part of `add_video` or `add_audio`, up to the unlocking in `CatalogProducer::add_*` -/
  | add (k : Kind) (info : Info)
  /-- the `publish` that comes next in call `n` or its task -/
  | publish (n : Nat)
  /-- the track of call `n` is closed -/
  | close (n : Nat)
  /-- the task of call `n` sees the closing and removes the entry -/
  | remove (n : Nat)
  deriving DecidableEq

inductive Out (Info : Type) where
  | call (n : Nat)
  | ok
  /-- a catalog was published, by the call itself (`true`) or by its task -/
  | published (added : Bool) (video audio : List Info)
  | invalid
  deriving DecidableEq

variable {Info : Type}

/-- `BroadcastProducer::new`, rs/hang/src/model/broadcast.rs:20-26 -/
def init : State Info := ⟨[], [], []⟩

/-- `retain(|v| v != video)`, rs/hang/src/catalog/root.rs:101-109.  The comparison `eq` is the derived
`PartialEq`, which is not an equivalence because it compares floats. -/
def retain (eq : Info → Info → Bool) (info : Info) (l : List (Entry Info)) : List (Entry Info) :=
  l.filter fun v => !eq v.info info

/-- Change the stage of call `n`. -/
def setStage (calls : List (Call Info)) (n : Nat) (x : Call Info) (st : Stage) : List (Call Info) :=
  calls.set n { x with stage := st }

def step (eq : Info → Info → Bool) (s : State Info) : Op Info → Out Info × State Info
  /- rs/hang/src/model/broadcast.rs:37-38 and 51-52, rs/hang/src/catalog/root.rs:86-94 -/
  | .add .video info =>
    (.call s.calls.length,
      { s with video := s.video ++ [⟨s.calls.length, info⟩], calls := s.calls ++ [⟨.video, info, .added, false⟩] })
  | .add .audio info =>
    (.call s.calls.length,
      { s with audio := s.audio ++ [⟨s.calls.length, info⟩], calls := s.calls ++ [⟨.audio, info, .added, false⟩] })
  /- rs/hang/src/model/broadcast.rs:39, 45, 53 and 59, rs/hang/src/catalog/root.rs:117-125 -/
  | .publish n =>
    match s.calls[n]? with
    | none => (.invalid, s)
    | some x =>
      match x.stage with
      | .added => (.published true (s.video.map (·.info)) (s.audio.map (·.info)),
          { s with calls := setStage s.calls n x .waiting })
      | .removed => (.published false (s.video.map (·.info)) (s.audio.map (·.info)),
          { s with calls := setStage s.calls n x .done })
      | _ => (.invalid, s)
  | .close n =>
    match s.calls[n]? with
    | none => (.invalid, s)
    | some x => if x.closed then (.invalid, s) else (.ok, { s with calls := s.calls.set n { x with closed := true } })
  /- rs/hang/src/model/broadcast.rs:43-44 and 57-58 -/
  | .remove n =>
    match s.calls[n]? with
    | none => (.invalid, s)
    | some x =>
      if x.stage = .waiting ∧ x.closed = true then
        match x.kind with
        | .video => (.ok, { s with video := retain eq x.info s.video, calls := setStage s.calls n x .removed })
        | .audio => (.ok, { s with audio := retain eq x.info s.audio, calls := setStage s.calls n x .removed })
      else (.invalid, s)

abbrev machine (eq : Info → Info → Bool) : Machine := ⟨State Info, Op Info, Out Info, init, step eq⟩

end Verif.Hang.Catalog
