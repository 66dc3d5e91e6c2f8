import Verif.Session.ServeLoop
import Verif.Session.Subs

/-!
# Model of a track that is distributed over the network

A track at its origin, and all its copies in the sessions that subscribe to it, directly or through
any number of relays.  The pieces are those of the other models: a subscription is served by the
loop of `Verif/Session/ServeLoop.lean` on the side of the publisher, and fills a track of its own on
the side of the subscriber (`Verif/Session/Subs.lean`), which can be subscribed to in turn.  What is
inside a group is the subject of `Verif/Session/Transfer.lean`.

The origin is node 0.  Every subscription makes a new node: link `i` fills node `i + 1`.  (A relay
shares one subscription among all who ask for the same track, C29: they subscribe to the node of
the relay.)
-/

set_option autoImplicit false

namespace Verif.Session.Tree

open Verif Verif.Session
open Verif.Model (Track.Op Track.Out Track.State Track.Grp Track.init Track.step)

/-- How far the subscriber's task is, rs/moq/src/session/subscriber.rs:144-147. -/
inductive Phase where
  /-- the track is in the table, line 155 -/
  | active
  /-- the track was closed, lines 171-184 -/
  | closed
  /-- the track is out of the table, line 146 -/
  | gone
  deriving DecidableEq

/-- One subscription. -/
structure Link where
  /-- the node that is subscribed to -/
  src : Nat
  /-- the consumer of its track that the publisher reads from -/
  consumer : Nat
  /-- the state of `Publisher::run_track`, see `ServeLoop.State` -/
  old : Option Track.Grp
  new : Option Track.Grp
  running : Bool
  /-- the groups whose streams were begun, and whether the subscriber has handled the header -/
  streams : List (Track.Grp × Bool)
  phase : Phase

/-- The state. -/
structure State where
  /-- the tracks of the nodes -/
  nodes : List Track.State
  links : List Link

/-- Operations. -/
inductive Op where
  /-- somebody uses the track of a node -/
  | user (n : Nat) (op : Track.Op)
  /-- somebody subscribes to the track of a node; `how` is the call that makes the consumer -/
  | subscribe (n : Nat) (how : Track.Op)
  /-- the publisher's loop of link `i` makes a step -/
  | serve (i : Nat) (op : ServeLoop.Op)
  /-- the subscriber of link `i` handles the header of stream `k` -/
  | arrive (i k : Nat)
  /-- the subscriber's task of link `i` closes its track -/
  | close (i : Nat) (r : Except Error Unit)
  /-- the subscriber's task of link `i` removes the track from the table -/
  | remove (i : Nat)

/-- Outputs. -/
inductive Out where
  | track (o : Track.Out)
  /-- the new link, and the consumer of the node it uses -/
  | link (i c : Nat)
  /-- what the loop did; `n` and `c` are the node and its consumer that the loop reads -/
  | serve (n c : Nat) (o : ServeLoop.Out)
  /-- the group was offered to the track of the subscriber, with this result -/
  | offered (g : Track.Grp) (o : Track.Out)
  /-- there is no such subscription (any more) -/
  | unknown
  | ok
  | invalid
  deriving DecidableEq

/-- The origin, `TrackProducer::new`, rs/moq/src/model/track.rs:57-62. -/
def init : State := ⟨[Track.init], []⟩

/-- Nobody else can use the consumers of the loops that run. -/
def free (links : List Link) (n : Nat) (op : Track.Op) : Bool :=
  links.all fun l => l.src != n || !l.running || ServeLoop.foreign l.consumer op

/-- A subscription starts: rs/moq/src/session/publisher.rs:140-151 on the side of the publisher, and
rs/moq/src/session/subscriber.rs:154-169 on the side of the subscriber.  The new track has two
producers, one in the task and one in the table (`Subs.step`). -/
def link (s : State) (n c : Nat) (t : Track.State) : Out × State :=
  (.link s.links.length c,
    { nodes := s.nodes.set n t ++ [(Track.step Track.init (.cloneProducer 0)).2]
      links := s.links ++ [⟨n, c, none, none, true, [], .active⟩] })

/-- One operation. -/
def step (s : State) : Op → Out × State
  /- The producers of a node other than the origin are only used by its subscription. -/
  | .user n op =>
    match s.nodes[n]? with
    | none => (.invalid, s)
    | some t =>
      if (n = 0 || Subs.byConsumer op) && free s.links n op then
        (.track (Track.step t op).1, { s with nodes := s.nodes.set n (Track.step t op).2 })
      else (.invalid, s)
  /- rs/moq/src/model/broadcast.rs:179-217: the consumer is made by the producer, or it is a clone of
  the one in the table of the broadcast, which is never read. -/
  | .subscribe n how =>
    match s.nodes[n]?, how with
    | some t, .consume p =>
      match Track.step t (.consume p) with
      | (.handle c, t') => link s n c t'
      | _ => (.invalid, s)
    | some t, .cloneConsumer d =>
      if t.consumers.get d = some none then
        match Track.step t (.cloneConsumer d) with
        | (.handle c, t') => link s n c t'
        | _ => (.invalid, s)
      else (.invalid, s)
    | _, _ => (.invalid, s)
  /- rs/moq/src/session/publisher.rs:157-235 -/
  | .serve i op =>
    match s.links[i]? with
    | none => (.invalid, s)
    | some l =>
      match s.nodes[l.src]?, op with
      | some _, .track _ => (.invalid, s)
      | some t, op =>
        let r := ServeLoop.step l.consumer ⟨t, l.old, l.new, l.running⟩ op
        (.serve l.src l.consumer r.1,
          { nodes := s.nodes.set l.src r.2.track
            links := s.links.set i
              { l with
                old := r.2.old
                new := r.2.new
                running := r.2.running
                streams := match r.1 with
                  | .started g _ => l.streams ++ [(g, false)]
                  | _ => l.streams } })
      | none, _ => (.invalid, s)
  /- rs/moq/src/session/subscriber.rs:210-223.  The header of a group whose number does not fit in
  62 bits cannot be written, see `Transfer.groupHeader`. -/
  | .arrive i k =>
    match s.links[i]? with
    | none => (.invalid, s)
    | some l =>
      match l.streams[k]?, s.nodes[i + 1]? with
      | some (g, false), some t =>
        if 2 ^ 62 ≤ g.seq then (.invalid, s)
        else
          let links := s.links.set i { l with streams := l.streams.set k (g, true) }
          if l.phase = .gone then (.unknown, { s with links := links })
          else
            (.offered g (Track.step t (.insert 1 g)).1,
              { nodes := s.nodes.set (i + 1) (Track.step t (.insert 1 g)).2, links := links })
      | _, _ => (.invalid, s)
  /- rs/moq/src/session/subscriber.rs:171-184 -/
  | .close i r =>
    match s.links[i]? with
    | none => (.invalid, s)
    | some l =>
      match s.nodes[i + 1]?, l.phase with
      | some t, .active =>
        (.ok,
          { nodes := s.nodes.set (i + 1) (Track.step t (Subs.closeOp r)).2
            links := s.links.set i { l with phase := .closed } })
      | _, _ => (.invalid, s)
  /- rs/moq/src/session/subscriber.rs:146 -/
  | .remove i =>
    match s.links[i]? with
    | none => (.invalid, s)
    | some l =>
      match s.nodes[i + 1]?, l.phase with
      | some t, .closed =>
        (.ok,
          { nodes := s.nodes.set (i + 1) (Track.step t (.dropProducer 1)).2
            links := s.links.set i { l with phase := .gone } })
      | _, _ => (.invalid, s)

/-- The distributed track as a machine. -/
abbrev machine : Machine := ⟨State, Op, Out, init, step⟩

end Verif.Session.Tree
