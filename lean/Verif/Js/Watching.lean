import Verif.Base

/-!
# Model of watching a broadcast in `js/hang/src/watch/broadcast.ts`

The class `Broadcast` waits until a broadcast is announced, consumes it and subscribes to its catalog,
js/hang/src/watch/broadcast.ts:54-151, as long as `enabled` is set and there is a connection.

What the model takes from the platform (part of the trusted base):
* `announced.next()` and `Catalog.fetch` settle once, at any later time, if ever, and what awaits them continues at any
  time after that.  What they settle with is up to the network, also after the consumer was closed.
* Signals may be set together (`batch`).  An effect runs again if a signal that it read in its last run has another
  value, after its cleanup.  The three effects run in the order in which they were created; in another order an effect
  may run once more, but without calls, because `active` and the broadcast are unset as long as they are not there.

Connections, paths and catalogs are told apart by numbers.
-/

set_option autoImplicit false

namespace Verif.Js.Watching

open Verif

/-- The signals `enabled`, `connection.established` and `path`. -/
structure Sig where
  enabled : Bool
  conn : Option Nat
  path : Nat
  deriving DecidableEq, Repr

/-- What `announced.next()` settles with. -/
inductive Upd where
  /-- an announcement of the path itself -/
  | active (b : Bool)
  /-- an announcement of a longer path -/
  | suffix
  /-- `undefined`, or it is rejected -/
  | done
  deriving DecidableEq, Repr

/-- What `Catalog.fetch` settles with. -/
inductive Res where
  | update (v : Nat)
  /-- `undefined`, or it is rejected -/
  | done
  deriving DecidableEq, Repr

/-- Where an asynchronous loop is. -/
inductive Loop (α : Type) where
  | waiting
  /-- the promise is settled, the loop has not continued yet -/
  | ready (a : α)
  | over
  deriving DecidableEq, Repr

inductive Status where
  | offline
  | loading
  | live
  deriving DecidableEq, Repr

structure State where
  sig : Sig
  active : Bool
  catalog : Option Nat
  status : Status
  /-- is there a cleanup that unsets `active`? -/
  switched : Bool
  /-- the announcements, the broadcast and the catalog track that cleanups will close -/
  announced : Option Nat
  broadcast : Option Nat
  track : Option Nat
  /-- the loops of 88-103 and 133-150 -/
  loops : List (Loop Upd)
  runs : List (Loop Res)
  /-- how many broadcasts were consumed -/
  broadcasts : Nat
  closed : Bool

/-- Calls of the connection, of broadcasts and of consumers. -/
inductive Call where
  /-- `conn.announced(path)` -/
  | announced (i conn path : Nat)
  | closeAnnounced (i : Nat)
  /-- `conn.consume(path)` -/
  | consume (k conn path : Nat)
  | closeBroadcast (k : Nat)
  /-- `broadcast.subscribe("catalog.json", 0)` -/
  | subscribe (j k : Nat)
  | closeTrack (j : Nat)
  deriving DecidableEq, Repr

inductive Op where
  /-- signals are set -/
  | set (sig : Sig)
  /-- `announced.next()` settles -/
  | told (i : Nat) (u : Upd)
  /-- the loop continues -/
  | hear (i : Nat)
  /-- `Catalog.fetch` settles -/
  | fetched (j : Nat) (r : Res)
  /-- the loop continues -/
  | show (j : Nat)
  /-- `Broadcast.close` -/
  | close
  deriving DecidableEq, Repr

inductive Out where
  | ran (calls : List Call)
  | heard (u : Upd) (calls : List Call)
  /-- there is a catalog -/
  | shown (v : Nat)
  /-- the loop has ended -/
  | over
  | ok
  | invalid
  deriving DecidableEq, Repr

/-- js/hang/src/watch/broadcast.ts:34-69. -/
def init : State := ⟨⟨false, none, 0⟩, false, none, .offline, false, none, none, none, [], [], 0, false⟩

/-! ## `#runActive` -/

/-- js/hang/src/watch/broadcast.ts:76 and 86. -/
def cleanActive (s : State) : List Call × State :=
  let s' := { s with active := if s.switched then false else s.active, switched := false, announced := none }
  match s.announced with
  | some i => ([.closeAnnounced i], s')
  | none => ([], s')

/-- js/hang/src/watch/broadcast.ts:72-88. -/
def runActive (reload : Bool) (s : State) : List Call × State :=
  if s.sig.enabled = false then ([], s)
  else if reload = false then ([], { s with active := true, switched := true })
  else match s.sig.conn with
    | none => ([], s)
    | some c => ([.announced s.loops.length c s.sig.path],
        { s with loops := s.loops ++ [.waiting], announced := some s.loops.length })

/-- Has a signal that it read another value? -/
def readsActive (reload : Bool) (x y : Sig) : Bool :=
  y.enabled != x.enabled || (x.enabled && reload && (y.conn != x.conn || (x.conn.isSome && y.path != x.path)))

/-! ## `#runBroadcast` -/

/-- js/hang/src/watch/broadcast.ts:116 and 119. -/
def cleanBroadcast (s : State) : List Call × State :=
  match s.broadcast with
  | some k => ([.closeBroadcast k], { s with broadcast := none })
  | none => ([], s)

/-- js/hang/src/watch/broadcast.ts:107-118. -/
def runBroadcast (s : State) : List Call × State :=
  match s.sig.conn with
  | none => ([], s)
  | some c =>
    if s.sig.enabled = true ∧ s.active = true then
      ([.consume s.broadcasts c s.sig.path], { s with broadcast := some s.broadcasts, broadcasts := s.broadcasts + 1 })
    else ([], s)

/-- Has a signal that it read another value? -/
def readsBroadcast (x y : Sig) (a b : Bool) : Bool :=
  y.conn != x.conn || (x.conn.isSome && (y.enabled != x.enabled || (x.enabled && (y.path != x.path || b != a))))

/-! ## `#runCatalog` -/

/-- js/hang/src/watch/broadcast.ts:131. -/
def cleanCatalog (s : State) : List Call × State :=
  match s.track with
  | some j => ([.closeTrack j], { s with track := none })
  | none => ([], s)

/-- js/hang/src/watch/broadcast.ts:123-136. -/
def runCatalog (s : State) : List Call × State :=
  if s.sig.enabled = false then ([], s)
  else match s.broadcast with
    | none => ([], s)
    | some k => ([.subscribe s.runs.length k],
        { s with status := .loading, runs := s.runs ++ [.waiting], track := some s.runs.length })

/-- Has a signal that it read another value? -/
def readsCatalog (x y : Bool) (a b : Option Nat) : Bool := y != x || (x && b != a)

/-! ## Effects -/

/-- An effect runs again, if it has to. -/
def rerun (b : Bool) (clean run : State → List Call × State) (s : State) : List Call × State :=
  if b = true then
    let x := clean s
    let y := run x.2
    (x.1 ++ y.1, y.2)
  else ([], s)

/-- The effects after signals were set; `old` is the state before. -/
def settle (reload : Bool) (old s : State) : List Call × State :=
  let a := rerun (readsActive reload old.sig s.sig) cleanActive (runActive reload) s
  let b := rerun (readsBroadcast old.sig a.2.sig old.active a.2.active) cleanBroadcast runBroadcast a.2
  let c := rerun (readsCatalog old.sig.enabled b.2.sig.enabled old.broadcast b.2.broadcast) cleanCatalog runCatalog b.2
  (a.1 ++ b.1 ++ c.1, c.2)

/-- The effects, unless closed. -/
def effects (reload : Bool) (old s : State) : List Call × State :=
  if old.closed = true then ([], s) else settle reload old s

/-- The loop continues with an announcement, js/hang/src/watch/broadcast.ts:90-102. -/
def hear (reload : Bool) (s : State) (i : Nat) (u : Upd) : List Call × State :=
  match u with
  | .done => ([], { s with loops := s.loops.set i .over })
  | .suffix => ([], { s with loops := s.loops.set i .waiting })
  | .active b => effects reload s { s with loops := s.loops.set i .waiting, active := b }

/-- The loop continues with a catalog, js/hang/src/watch/broadcast.ts:136-149. -/
def shows (s : State) (j : Nat) (r : Res) : Out × State :=
  match r with
  | .update v => (.shown v, { s with runs := s.runs.set j .waiting, catalog := some v, status := .live })
  | .done => (.over, { s with runs := s.runs.set j .over, catalog := none, status := .offline })

def step (reload : Bool) (s : State) : Op → Out × State
  | .set sig =>
    let x := effects reload s { s with sig := sig }
    (.ran x.1, x.2)
  | .told i u =>
    match s.loops[i]? with
    | some .waiting => (.ok, { s with loops := s.loops.set i (.ready u) })
    | _ => (.invalid, s)
  | .hear i =>
    match s.loops[i]? with
    | some (.ready u) => let x := hear reload s i u; (.heard u x.1, x.2)
    | _ => (.invalid, s)
  | .fetched j r =>
    match s.runs[j]? with
    | some .waiting => (.ok, { s with runs := s.runs.set j (.ready r) })
    | _ => (.invalid, s)
  | .show j =>
    match s.runs[j]? with
    | some (.ready r) => shows s j r
    | _ => (.invalid, s)
  /- js/hang/src/watch/broadcast.ts:153-154: effects are disposed in reverse order -/
  | .close =>
    if s.closed = true then (.invalid, s)
    else
      let a := cleanCatalog s
      let b := cleanBroadcast a.2
      let c := cleanActive b.2
      (.ran (a.1 ++ b.1 ++ c.1), { c.2 with closed := true })

/-- The machine of watching; `reload` is fixed by the constructor. -/
abbrev machine (reload : Bool) : Machine :=
  { State := State, Op := Op, Out := Out, init := init, step := step reload }

/-! ## Vocabulary of histories -/

abbrev Trace := List (Op × Out)

def Out.calls : Out → List Call
  | .ran cs => cs
  | .heard _ cs => cs
  | _ => []

/-- All calls, in order. -/
def calls (tr : Trace) : List Call := tr.flatMap fun e => e.2.calls

/-- The signals, as they were set last. -/
def sig (tr : Trace) : Sig := tr.foldl (fun x e => match e.1 with | .set y => y | _ => x) init.sig

/-- `close()` was called. -/
def Closed (tr : Trace) : Prop := .close ∈ tr.map (·.1)

instance (tr : Trace) : Decidable (Closed tr) := inferInstanceAs (Decidable (_ ∈ _))

/-- What loop `i` heard last about the path. -/
def heardBy (tr : Trace) (i : Nat) : Option Bool :=
  tr.foldl (fun x e => match e with | (.hear j, .heard (.active b) _) => if j = i then some b else x | _ => x) none

/-- The catalog that loop `j` showed last. -/
def shownBy (tr : Trace) (j : Nat) : Option Nat :=
  tr.foldl (fun x e => match e with | (.show i, .shown v) => if i = j then some v else x | _ => x) none

/-- The loop of subscription `j` has ended. -/
def Over (tr : Trace) (j : Nat) : Prop := (.show j, .over) ∈ tr

instance (tr : Trace) (j : Nat) : Decidable (Over tr j) := inferInstanceAs (Decidable (_ ∈ _))

end Verif.Js.Watching
