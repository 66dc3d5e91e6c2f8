import Verif.Native.Tls

/-!
# Model of the shared sessions of hang-wasm, rs/hang-wasm/src/connect.rs

All elements of a page share one map from URLs to sessions.  A task per entry connects, tells the result, and then waits for the session
to close.

What the model takes from elsewhere (part of the trusted base):
* `watch::channel`: `send` does nothing when there is no receiver; `closed` resolves when there is none; `wait_for` resolves with the
  current value if it satisfies the predicate, and fails if it does not and the sender is gone.
* `spawn_local` does not poll the task at once; a page has one thread, so that the map is never borrowed twice.
* Requests, connecting and the handshake end at any time, if ever; sessions close at any time.
* `hex::decode` and `str::trim` as in `Verif.Native.Tls`; `space` says what `trim` removes.

A session is named by the number of the task that made it.
-/

set_option autoImplicit false

namespace Verif.Wasm.Pool

open Verif

abbrev Text := List Char

/-- A URL; `host` stands for everything not listed, which no code here changes. -/
structure Url where
  scheme : Text
  host : Nat
  port : Option Nat
  path : Text
  deriving DecidableEq, Repr

/-- `ConnectError`, rs/hang-wasm/src/connect.rs:15-34; `InvalidUrl` does not occur. -/
inductive Failure where
  | scheme
  | moq
  | transport
  | fingerprint
  | http
  deriving DecidableEq, Repr

/-- What a task tells. -/
inductive Res where
  | session (n : Nat)
  | failed (e : Failure)
  deriving DecidableEq, Repr

/-- Where the task is. -/
inductive Phase where
  /-- not polled yet -/
  | start
  /-- line 98 -/
  | fetch
  /-- lines 104 and 108 -/
  | dial
  /-- line 113 -/
  | setup
  /-- lines 72-83 -/
  | watch
  | over
  deriving DecidableEq, Repr

/-- A task, its channel and its session. -/
structure Task where
  url : Url
  phase : Phase
  value : Option Res
  /-- the session is there and has not closed -/
  alive : Bool
  deriving DecidableEq, Repr

structure State where
  /-- `POOL`: which task each URL has -/
  pool : List (Url × Nat)
  tasks : List Task
  /-- every `Connect`: its task, unless it was dropped -/
  conns : List (Option Nat)
  deriving DecidableEq, Repr

inductive Op where
  /-- `Connect::new` -/
  | new (u : Url)
  | clone (c : Nat)
  | drop (c : Nat)
  /-- `established` is polled -/
  | poll (c : Nat)
  /-- the task is polled first -/
  | run (t : Nat)
  /-- the request is over -/
  | fetched (t : Nat) (body : Option Text)
  /-- connecting is over -/
  | dialled (t : Nat) (ok : Bool)
  /-- the handshake is over -/
  | setup (t : Nat) (ok : Bool)
  /-- the session closes -/
  | close (t : Nat)
  /-- the task notices it -/
  | notice (t : Nat)
  /-- the task notices that there are no receivers -/
  | idle (t : Nat)
  deriving DecidableEq, Repr

/-- What a task asks of the browser. -/
inductive Event where
  | fetch (u : Url)
  | dial (u : Url) (pin : Option Bytes)
  | close
  deriving DecidableEq, Repr

inductive Out where
  | did (l : List Event)
  /-- the number of the `Connect`, and of the task that was spawned -/
  | conn (c : Nat) (t : Option Nat)
  | result (r : Res)
  | waiting
  | panic
  | invalid
  deriving DecidableEq, Repr

def init : State := ⟨[], [], []⟩

def http : Text := ['h', 't', 't', 'p']

def https : Text := ['h', 't', 't', 'p', 's']

/-- `set_scheme("https")`, rs/hang-wasm/src/connect.rs:103; the default port is left out of a URL. -/
def secure (u : Url) : Url := { u with scheme := https, port := if u.port = some 443 then none else u.port }

/-- The URL of the fingerprint, rs/hang-wasm/src/connect.rs:118-119. -/
def certificate (u : Url) : Url := { u with path := "/certificate.sha256".toList }

def lookup (l : List (Url × Nat)) (u : Url) : Option Nat := (l.find? fun p => p.1 == u).map (·.2)

/-- Whether the channel has a receiver. -/
def watched (s : State) (t : Nat) : Bool := s.pool.any (fun p => p.2 == t) || s.conns.any fun c => c == some t

def set (s : State) (t : Nat) (x : Task) : State := { s with tasks := s.tasks.set t x }

/-- `Connect::new`, rs/hang-wasm/src/connect.rs:49-61, with `create`, rs/hang-wasm/src/connect.rs:63-88. -/
def new (s : State) (u : Url) : Out × State :=
  match lookup s.pool u with
  | some t => (.conn s.conns.length none, { s with conns := s.conns ++ [some t] })
  | none =>
    (.conn s.conns.length (some s.tasks.length),
      { pool := s.pool ++ [(u, s.tasks.length)]
        tasks := s.tasks ++ [⟨u, .start, none, false⟩]
        conns := s.conns ++ [some s.tasks.length] })

/-- `send`, rs/hang-wasm/src/connect.rs:69, and where the task goes on, rs/hang-wasm/src/connect.rs:71-84. -/
def tell (s : State) (t : Nat) (x : Task) (r : Res) : State :=
  let x := { x with value := if watched s t then some r else x.value }
  match r with
  | .session _ => set s t { x with phase := .watch, alive := true }
  | .failed _ => set s t { x with phase := .over }

/-- `run` until it waits, rs/hang-wasm/src/connect.rs:94-110. -/
def start (s : State) (t : Nat) (x : Task) : Out × State :=
  if x.url.scheme = http then (.did [.fetch (certificate x.url)], set s t { x with phase := .fetch })
  else if x.url.scheme = https then (.did [.dial x.url none], set s t { x with phase := .dial })
  else (.did [], tell s t x (.failed .scheme))

/-- The fingerprint, rs/hang-wasm/src/connect.rs:98-104 and 121-126. -/
def fetched (space : Char → Bool) (s : State) (t : Nat) (x : Task) (body : Option Text) : Out × State :=
  match body with
  | none => (.did [], tell s t x (.failed .http))
  | some b =>
    match Native.hexDecode (Native.trim space b) with
    | none => (.did [], tell s t x (.failed .fingerprint))
    | some f => (.did [.dial (secure x.url) (some f)], set s t { x with phase := .dial })

/-- An operation on a task in a phase. -/
def inPhase (s : State) (t : Nat) (p : Phase) (f : Task → Out × State) : Out × State :=
  match s.tasks[t]? with
  | some x => if x.phase = p then f x else (.invalid, s)
  | none => (.invalid, s)

/-- An operation on a `Connect` that was not dropped. -/
def onConn (s : State) (c : Nat) (f : Nat → Out × State) : Out × State :=
  match s.conns[c]? with
  | some (some t) => f t
  | _ => (.invalid, s)

/-- `established`, rs/hang-wasm/src/connect.rs:129-137. -/
def poll (s : State) (t : Nat) : Out :=
  match s.tasks[t]? with
  | some x =>
    match x.value with
    | some r => .result r
    | none => if x.phase = .over then .panic else .waiting
  | none => .invalid

def step (space : Char → Bool) (s : State) (op : Op) : Out × State :=
  match op with
  | .new u => new s u
  | .clone c => onConn s c fun t => (.conn s.conns.length none, { s with conns := s.conns ++ [some t] })
  | .drop c => onConn s c fun _ => (.did [], { s with conns := s.conns.set c none })
  | .poll c => onConn s c fun t => (poll s t, s)
  | .run t => inPhase s t .start (start s t)
  | .fetched t body => inPhase s t .fetch fun x => fetched space s t x body
  | .dialled t ok =>
    inPhase s t .dial fun x =>
      (.did [], if ok then set s t { x with phase := .setup } else tell s t x (.failed .transport))
  | .setup t ok => inPhase s t .setup fun x => (.did [], tell s t x (if ok then .session t else .failed .moq))
  | .close t =>
    inPhase s t .watch fun x => if x.alive then (.did [], set s t { x with alive := false }) else (.invalid, s)
  | .notice t =>
    inPhase s t .watch fun x =>
      if x.alive then (.invalid, s)
      else (.did [], { set s t { x with phase := .over } with pool := s.pool.filter fun p => p.1 != x.url })
  | .idle t =>
    inPhase s t .watch fun x =>
      if watched s t then (.invalid, s) else (.did [.close], set s t { x with phase := .over, alive := false })

/-- The machine of a page. -/
abbrev machine (space : Char → Bool) : Machine := { State := State, Op := Op, Out := Out, init := init, step := step space }

abbrev Trace := List (Op × Out)

end Verif.Wasm.Pool
