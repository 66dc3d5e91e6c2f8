import Verif.Model.Origin
import Verif.Relay.Token

/-!
# Model of `rs/moq-relay/src/cluster.rs`

`get`, and which hosts a relay connects to.  A connection attempt is an output; how it ends is
up to the environment.  What a connection to another relay forwards (lines 179-185) is
`publish_all` in both directions, which is `publish_prefix` with the empty prefix, see
`Verif/Model/OriginForward.lean` and `Verif/Session/Remote.lean`.
-/

set_option autoImplicit false

namespace Verif.Relay.Cluster

open Verif Verif.Relay.Token

/-! ## Looking up a broadcast -/

/-- The result of `get`. -/
inductive Found where
  | local (bc : Nat)
  | remote (bc : Nat)
  | none
  /-- waits for the lock of an origin -/
  | blocked
  deriving DecidableEq

/-- `Cluster::get`, rs/moq-relay/src/cluster.rs:57-61.  The two origins are asked one after the
other; `l` is the state of `locals` at the first moment, `r` that of `remotes` at the second one.
The handles of the cluster are never dropped. -/
def get (l r : Model.Origin.State) (path : Model.Origin.Path) : Found :=
  match (Model.Origin.step l (.lookup 0 path)).1 with
  | .found bc => .local bc
  | .notFound =>
    match (Model.Origin.step r (.lookup 0 path)).1 with
    | .found bc => .remote bc
    | .notFound => .none
    | _ => .blocked
  | _ => .blocked

/-! ## Connecting to other relays -/

/-- `ClusterConfig`, rs/moq-relay/src/cluster.rs:12-31, where `token` is the content of the file. -/
structure Config where
  connect : Option Text
  token : Option Text
  advertise : Option Text
  pre : Option Text

/-- The prefix of the announcements, rs/moq-relay/src/cluster.rs:46 and 85 -/
def Config.dir (c : Config) : Text := c.pre.getD "internal/origins".toList

/-- The path of the URL, rs/moq-relay/src/cluster.rs:78-81 -/
def Config.path (c : Config) : Text :=
  match c.token with
  | some t => t ++ ".jwt".toList
  | none => []

/-- The host to connect to at first, rs/moq-relay/src/cluster.rs:64-69 -/
def Config.root (c : Config) : Option Text :=
  match c.connect with
  | some host => if some host ≠ c.advertise then some host else none
  | none => none

/-- Where a task of `run_remote` is. -/
inductive Phase where
  /-- at the head of the loop, rs/moq-relay/src/cluster.rs:148 -/
  | head
  /-- connecting or connected, rs/moq-relay/src/cluster.rs:152 -/
  | once
  /-- rs/moq-relay/src/cluster.rs:161 -/
  | sleeping
  | done
  deriving DecidableEq

/-- A task of `run_remote`, rs/moq-relay/src/cluster.rs:122-130 -/
structure Remote where
  node : Text
  bc : Nat
  phase : Phase

/-- The state. -/
structure State where
  /-- rs/moq-relay/src/cluster.rs:92 has not been reached -/
  fresh : Bool
  /-- the loop of lines 111-131 is running -/
  running : Bool
  remotes : List Remote
  /-- the announcements that were taken back -/
  closed : List Nat

/-- Operations. -/
inductive Op where
  /-- `run` -/
  | start
  /-- the connection to the root is established or fails, rs/moq-relay/src/cluster.rs:92-106 -/
  | rooted (ok : Bool)
  /-- `origins.next()` returns, rs/moq-relay/src/cluster.rs:111 -/
  | next (item : Option (Text × Nat))
  /-- an announcement is taken back -/
  | close (bc : Nat)
  /-- a task is polled -/
  | poll (k : Nat)
  /-- `run_remote_once` of a task ends; it never succeeds, rs/moq-relay/src/cluster.rs:187 -/
  | failed (k : Nat)
  deriving DecidableEq

/-- Outputs. -/
inductive Out where
  /-- connects to `https://{host}/{path}` -/
  | connect (host path : Text)
  /-- announces this path to the root, rs/moq-relay/src/cluster.rs:99-103, and asks for the
  announcements below a prefix, line 106 -/
  | announced (path : Option Text) (pre : Text)
  /-- runs as the root -/
  | root
  /-- an announcement of itself, rs/moq-relay/src/cluster.rs:112-115 -/
  | skipped
  /-- a task was spawned -/
  | spawned (k : Nat)
  | ok
  | pending
  | ended
  | invalid
  deriving DecidableEq

/-- The beginning. -/
def init : State := ⟨true, false, [], []⟩

/-- One operation. -/
def step (c : Config) (s : State) : Op → Out × State
  /- rs/moq-relay/src/cluster.rs:63-70, 89 and 92 -/
  | .start =>
    if s.fresh then
      match c.root with
      | some host => (.connect host c.path, { s with fresh := false })
      | none => (.root, { s with fresh := false })
    else (.invalid, s)
  /- rs/moq-relay/src/cluster.rs:92-106 -/
  | .rooted ok =>
    if s.fresh || s.running || c.root.isNone then (.invalid, s)
    else if ok then
      (.announced (c.advertise.map fun me => c.dir ++ '/' :: me) (c.dir ++ ['/']),
        { s with running := true })
    else (.ended, s)
  /- rs/moq-relay/src/cluster.rs:111-131 -/
  | .next item =>
    if s.running then
      match item with
      | none => (.ended, { s with running := false })
      | some (node, bc) =>
        if some node = c.advertise then (.skipped, s)
        else (.spawned s.remotes.length, { s with remotes := s.remotes ++ [⟨node, bc, .head⟩] })
    else (.invalid, s)
  | .close bc => (.ok, { s with closed := bc :: s.closed })
  /- rs/moq-relay/src/cluster.rs:148-153 and 161.  The select is biased: while connecting, too,
  a closed announcement ends the task. -/
  | .poll k =>
    match s.remotes[k]? with
    | none => (.invalid, s)
    | some t =>
      match t.phase with
      | .done => (.invalid, s)
      | .sleeping => (.ok, { s with remotes := s.remotes.set k { t with phase := .head } })
      | .head =>
        if t.bc ∈ s.closed then (.ended, { s with remotes := s.remotes.set k { t with phase := .done } })
        else
          (.connect t.node c.path, { s with remotes := s.remotes.set k { t with phase := .once } })
      | .once =>
        if t.bc ∈ s.closed then (.ended, { s with remotes := s.remotes.set k { t with phase := .done } })
        else (.pending, s)
  /- rs/moq-relay/src/cluster.rs:157-161 -/
  | .failed k =>
    match s.remotes[k]? with
    | none => (.invalid, s)
    | some t =>
      if t.phase = .once then
        (.ok, { s with remotes := s.remotes.set k { t with phase := .sleeping } })
      else (.invalid, s)

/-- The cluster part of a relay, as a machine. -/
abbrev machine (c : Config) : Machine := ⟨State, Op, Out, init, step c⟩

end Verif.Relay.Cluster
