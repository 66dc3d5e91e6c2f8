import Verif.Relay.Auth

/-!
# Model of the main loop of the relay, rs/moq-relay/src/main.rs:40-61, with `Server::accept`,
rs/moq-native/src/server.rs:140-161

A connection is a number.  It waits at the endpoint (`queued`), its handshake is one of the futures in
`Server::accept` (`shaking`; the modelled parts of `accept_session` are in `Verif/Native/Tls.lean`), the
handshake is complete (`ready`, with the path of the URL, or without if it failed), or it has left
`Server::accept` (`over`).  `FuturesUnordered` may return any complete handshake first, so a poll names it.
What an admitted connection does is modelled in `Verif/Relay/Connection.lean`.
-/

set_option autoImplicit false

namespace Verif.Relay.Main

open Verif Verif.Relay.Token Verif.Relay.Auth

inductive Stage where
  | queued
  | shaking
  | ready (url : Option Text)
  | over
  deriving DecidableEq

/-- The state of the loop. -/
inductive Status where
  | running
  /-- `main` has returned -/
  | stopped
  /-- `main` has panicked -/
  | crashed
  deriving DecidableEq

structure State where
  conns : List Stage
  /-- `conn_id`, rs/moq-relay/src/main.rs:40 -/
  next : Nat
  status : Status
  /-- Ctrl-C was pressed -/
  signal : Bool
  /-- the endpoint is closed -/
  closed : Bool
  deriving DecidableEq

/-- The branches of `tokio::select!`, rs/moq-native/src/server.rs:142-159. -/
inductive Branch where
  | incoming
  | shaken (k : Nat)
  | signal
  deriving DecidableEq

inductive Op where
  /-- a connection arrives -/
  | arrive
  /-- the handshake of a connection completes or fails -/
  | shake (k : Nat) (url : Option Text)
  | press
  | closeEndpoint
  | poll (b : Branch)
  deriving DecidableEq

inductive Out where
  /-- the number of the new connection -/
  | arrived (k : Nat)
  | ok
  | pending
  /-- the handshake of this connection begins -/
  | started (k : Nat)
  /-- the handshake had failed: the connection is dropped -/
  | dropped (k : Nat)
  /-- the connection is run, with this id and token -/
  | admitted (k id : Nat) (p : Payload)
  /-- the connection is closed with code 1, "invalid token" -/
  | refused (k : Nat)
  | crashed
  | stopped
  | invalid
  deriving DecidableEq

/-- The connection that waits longest at the endpoint. -/
def firstQueued (cs : List Stage) : Option Nat := cs.findIdx? (· = .queued)

/-- The loop body for a connection with the given URL, rs/moq-relay/src/main.rs:42-61. -/
def admit (verify : Key → Text → Except Error Payload) (a : Auth) (k : Nat) (url : Text) (s : State) :
    Out × State :=
  match validate verify a url with
  | .ok p => (.admitted k s.next p, { s with next := s.next + 1 })
  | .refused _ => (.refused k, s)
  | .tokenRequired => (.refused k, s)
  | .panic _ => (.crashed, { s with status := .crashed })

def step (verify : Key → Text → Except Error Payload) (a : Auth) (s : State) : Op → Out × State
  | .arrive =>
    if s.closed then (.invalid, s)
    else (.arrived s.conns.length, { s with conns := s.conns ++ [.queued] })
  | .shake k url =>
    if s.conns[k]? = some .shaking then (.ok, { s with conns := s.conns.set k (.ready url) })
    else (.invalid, s)
  | .press => (.ok, { s with signal := true })
  | .closeEndpoint => (.ok, { s with closed := true })
  | .poll b =>
    if s.status ≠ .running then (.invalid, s)
    else
      match b with
      /- rs/moq-native/src/server.rs:143-146 -/
      | .incoming =>
        match firstQueued s.conns with
        | some k => (.started k, { s with conns := s.conns.set k .shaking })
        | none => if s.closed then (.stopped, { s with status := .stopped }) else (.pending, s)
      /- rs/moq-native/src/server.rs:147-151 -/
      | .shaken k =>
        match s.conns[k]? with
        | some (.ready none) => (.dropped k, { s with conns := s.conns.set k .over })
        | some (.ready (some url)) => admit verify a k url { s with conns := s.conns.set k .over }
        | _ => (.pending, s)
      /- rs/moq-native/src/server.rs:152-158 -/
      | .signal => if s.signal then (.stopped, { s with status := .stopped, closed := true }) else (.pending, s)

def init : State := ⟨[], 0, .running, false, false⟩

abbrev machine (verify : Key → Text → Except Error Payload) (a : Auth) : Machine :=
  ⟨State, Op, Out, init, step verify a⟩

end Verif.Relay.Main
