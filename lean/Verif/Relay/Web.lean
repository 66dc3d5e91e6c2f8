import Verif.Relay.Cluster

/-!
# Model of the HTTP requests of `rs/moq-relay/src/web.rs`

`/announced` and `/fetch`.  The body of a `/fetch` response is in `Verif/Relay/WebBody.lean`.

A path is the text that `axum` extracted from the URL (percent-decoded).  The handlers get nothing
but this path and the cluster (web.rs:43-65): there is no token and no other input.
-/

set_option autoImplicit false

namespace Verif.Relay.Web

open Verif
open Verif.Model.Origin (Path)

/-! ## Texts -/

/-- `str::split`. -/
def split (sep : Char) : Path → List Path
  | [] => [[]]
  | c :: s =>
    if c = sep then [] :: split sep s
    else
      match split sep s with
      | [] => [[c]]
      | w :: ws => (c :: w) :: ws

/-- `[S]::join`. -/
def join (sep : Char) : List Path → Path
  | [] => []
  | [w] => w
  | w :: v :: ws => w ++ sep :: join sep (v :: ws)

/-! ## `/fetch` -/

/-- The broadcast and the track, rs/moq-relay/src/web.rs:98-104; `none` is `BAD_REQUEST`. -/
def fetchPath (path : Path) : Option (Path × Path) :=
  let parts := split '/' path
  if parts.length < 2 then none
  else some (join '/' parts.dropLast, parts.getLast?.getD [])

/-- How `next_group` of the subscribed track ends, rs/moq-relay/src/web.rs:116-120 -/
inductive Next where
  | group (g : Nat)
  | ended
  | failed
  /-- it does not end (yet) -/
  | waits

/-- The response of `serve_fetch`. -/
inductive Response where
  | badRequest
  | notFound
  | internalError
  /-- the body is the group, see `Verif/Relay/WebBody.lean` -/
  | group (g : Nat)
  /-- no response (yet) -/
  | waits
  deriving DecidableEq

/-- `serve_fetch`, rs/moq-relay/src/web.rs:97-123.  `l` and `r` are the origins as in
`Cluster.get`; `next` is the first group of a track of a broadcast. -/
def serveFetch (l r : Model.Origin.State) (next : Nat → Path → Next) (path : Path) : Response :=
  match fetchPath path with
  | none => .badRequest
  | some (broadcast, track) =>
    let serve (bc : Nat) : Response :=
      match next bc track with
      | .group g => .group g
      | .ended => .notFound
      | .failed => .internalError
      | .waits => .waits
    match Cluster.get l r broadcast with
    | .local bc => serve bc
    | .remote bc => serve bc
    | .none => .notFound
    | .blocked => .waits

/-! ## `/announced` -/

/-- Where the loop of `serve_announced` over one origin is, rs/moq-relay/src/web.rs:85-87 or
89-91. -/
inductive Phase where
  /-- `next` looks into the queue -/
  | checking
  /-- `next` polls the notification channel -/
  | polling
  /-- the future was not ready and is dropped by `now_or_never` -/
  | leaving
  | done
  deriving DecidableEq

/-- The loop over one origin: its consumer, and `broadcasts`. -/
structure Req where
  c : Nat
  got : List Path
  phase : Phase

/-- One origin and the loop over it.  The two origins of `serve_announced` are independent of each
other, and the loops run one after the other. -/
structure State where
  o : Model.Origin.State
  req : Option Req

/-- Operations. -/
inductive Op where
  /-- somebody else uses the origin -/
  | other (op : Model.Origin.Op)
  /-- `consume_prefix`, rs/moq-relay/src/web.rs:80 or 81; `order` is the order of the hash map -/
  | request (p : Nat) (pre : Path) (order : List (Path × Nat))
  /-- one more step of the loop -/
  | turn
  deriving DecidableEq

/-- Outputs: what was done to the origin, and the list when the loop ends. -/
inductive Out where
  | did (op : Model.Origin.Op) (o : Model.Origin.Out) (list : Option (List Path))
  | invalid
  deriving DecidableEq

/-- The consumer of the request belongs to it. -/
def State.permitted (s : State) : Model.Origin.Op → Bool
  | .check c | .recv c | .cancel c | .cloneStart c | .dropConsumer c =>
    match s.req with
    | some q => c != q.c
    | none => true
  | _ => true

/-- One operation. -/
def step (s : State) : Op → Out × State
  | .other op =>
    if s.permitted op then
      (.did op (Model.Origin.step s.o op).1 none, { s with o := (Model.Origin.step s.o op).2 })
    else (.invalid, s)
  | .request p pre order =>
    match s.req with
    | some _ => (.invalid, s)
    | none =>
      let r := Model.Origin.step s.o (.consumePrefix p pre order)
      match r.1 with
      | .handle c =>
        (.did (.consumePrefix p pre order) r.1 none, { o := r.2, req := some ⟨c, [], .checking⟩ })
      | _ => (.did (.consumePrefix p pre order) r.1 none, { s with o := r.2 })
  | .turn =>
    match s.req with
    | none => (.invalid, s)
    | some q =>
      match q.phase with
      | .checking =>
        let r := Model.Origin.step s.o (.check q.c)
        match r.1 with
        | .item suffix _ =>
          (.did (.check q.c) r.1 none, { o := r.2, req := some { q with got := q.got ++ [suffix] } })
        | .empty => (.did (.check q.c) r.1 none, { o := r.2, req := some { q with phase := .polling } })
        | _ => (.did (.check q.c) r.1 none, { s with o := r.2 })
      | .polling =>
        let r := Model.Origin.step s.o (.recv q.c)
        match r.1 with
        | .woken => (.did (.recv q.c) r.1 none, { o := r.2, req := some { q with phase := .checking } })
        | .ended => (.did (.recv q.c) r.1 (some q.got), { o := r.2, req := some { q with phase := .done } })
        | _ => (.did (.recv q.c) r.1 none, { o := r.2, req := some { q with phase := .leaving } })
      | .leaving =>
        let r := Model.Origin.step s.o (.cancel q.c)
        (.did (.cancel q.c) r.1 (some q.got), { o := r.2, req := some { q with phase := .done } })
      | .done => (.invalid, s)

/-- An empty origin, no request. -/
def init : State := ⟨Model.Origin.init, none⟩

/-- The loop over one origin as a machine. -/
abbrev machine : Machine := ⟨State, Op, Out, init, step⟩

/-- The body of the response, rs/moq-relay/src/web.rs:83-93, from the lists of `locals` and
`remotes`. -/
def announcedBody (locals remotes : List Path) : Path := join '\n' (locals ++ remotes)

end Verif.Relay.Web
