import Verif.Base

/-!
# Model of `AudioEmitter` of js/hang/src/watch/audio.ts

The volume and the mute button of a player.  The signals of solid-js notify the effects that have read them: a notified
effect is queued unless it is queued already, and queued effects run one after the other, each to its end.  The order in
which the observers of one signal are notified is not fixed (`swap`).  Setting a signal to the value it has notifies
nobody.

`source.enabled` belongs to `Audio` and may be set by others too (`force`); a new root of the audio graph may appear at
any time (`root`).
-/

set_option autoImplicit false

namespace Verif.Js.Emitter

open Verif

/-- The effects of the constructor in their order. -/
inductive Effect where
  /-- js/hang/src/watch/audio.ts:46-56 -/
  | mute
  /-- js/hang/src/watch/audio.ts:59-62 -/
  | level
  /-- js/hang/src/watch/audio.ts:64-73 -/
  | node
  /-- js/hang/src/watch/audio.ts:75-81 -/
  | gain
  /-- js/hang/src/watch/audio.ts:83-85 -/
  | pause
  deriving DecidableEq, Repr

/-- js/hang/src/watch/audio.ts:22-37. -/
structure State where
  volume : Rat
  muted : Bool
  paused : Bool
  /-- `#unmuteVolume` -/
  unmute : Rat
  /-- `source.enabled` -/
  enabled : Bool
  /-- `source.root` -/
  root : Bool
  /-- the gain of the node in `#gain` -/
  gain : Option Rat
  /-- the gains of earlier nodes, which stay connected -/
  left : List Rat
  closed : Bool
  queue : List Effect
  deriving DecidableEq, Repr

inductive Op where
  | volume (v : Rat) (swap : Bool)
  | muted (b : Bool)
  | paused (b : Bool)
  /-- `source.enabled` is set by another -/
  | force (b : Bool)
  /-- `source.root` is set to a new root -/
  | root
  /-- the next effect runs -/
  | run (swap : Bool)
  | close
  deriving DecidableEq, Repr

/-- What the constructor is given, js/hang/src/watch/audio.ts:15-19. -/
structure Props where
  volume : Option Rat
  muted : Option Bool
  paused : Option Bool
  deriving DecidableEq, Repr

/-- The constructor, js/hang/src/watch/audio.ts:39-43; all effects are to run. -/
def init (p : Props) (enabled root : Bool) : State :=
  { volume := p.volume.getD (1 / 2), muted := p.muted.getD false, paused := p.paused.getD (p.muted.getD false),
    unmute := 1 / 2, enabled := enabled, root := root, gain := none, left := [], closed := false,
    queue := [.mute, .level, .node, .gain, .pause] }

/-- An effect is notified. -/
def notify (e : Effect) (s : State) : State :=
  if s.closed || s.queue.contains e then s else { s with queue := s.queue ++ [e] }

/-- `volume.set`; the gain is an observer only if there is a node. -/
def setVolume (v : Rat) (swap : Bool) (s : State) : State :=
  if s.volume = v then s
  else
    let s := { s with volume := v }
    match s.gain with
    | none => notify .level s
    | some _ => if swap then notify .level (notify .gain s) else notify .gain (notify .level s)

/-- `muted.set`. -/
def setMuted (b : Bool) (s : State) : State :=
  if s.muted = b then s else notify .mute { s with muted := b }

/-- `paused.set`. -/
def setPaused (b : Bool) (s : State) : State :=
  if s.paused = b then s else notify .pause { s with paused := b }

/-- An effect runs. -/
def perform (swap : Bool) : Effect → State → State
  | .mute, s =>
    if s.muted then
      let s := { s with unmute := if s.volume = 0 then 1 / 2 else s.volume }
      let s := setVolume 0 swap s
      { s with enabled := false }
    else
      let s := setVolume s.unmute swap s
      { s with enabled := true }
  | .level, s => setMuted (s.volume == 0) s
  | .node, s =>
    if s.root then
      notify .gain { s with gain := some s.volume, left := s.left ++ s.gain.toList }
    else s
  | .gain, s =>
    match s.gain with
    | none => s
    | some _ => { s with gain := some s.volume }
  | .pause, s => { s with enabled := !s.paused }

def step (s : State) : Op → State
  | .volume v swap => setVolume v swap s
  | .muted b => setMuted b s
  | .paused b => setPaused b s
  | .force b => { s with enabled := b }
  | .root => notify .node { s with root := true }
  | .run swap =>
    match s.queue with
    | [] => s
    | e :: q => perform swap e { s with queue := q }
  | .close => { s with closed := true, queue := [] }

/-- js/hang/src/watch/audio.ts:21-91. -/
def machine (p : Props) (enabled root : Bool) : Machine :=
  { State := State, Op := Op, Out := Unit, init := init p enabled root, step := fun s o => ((), step s o) }

end Verif.Js.Emitter
