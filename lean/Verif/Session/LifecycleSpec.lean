import Verif.Session.Lifecycle

/-!
# Vocabulary for the claims about established sessions
-/

set_option autoImplicit false

namespace Verif.Session.Lifecycle.Spec

open Verif Verif.Message

abbrev Trace := List (Op × Out)

/-- The bidirectional streams the peer opened, in order. -/
def openedBi (tr : Trace) : List RecvStream :=
  tr.filterMap fun e => match e with | (.openBi s, .ok) => some s | _ => none

/-- The unidirectional streams the peer opened, in order. -/
def openedUni (tr : Trace) : List RecvStream :=
  tr.filterMap fun e => match e with | (.openUni s, .ok) => some s | _ => none

/-- The tasks begun for bidirectional streams, in order. -/
def controls (tr : Trace) : List ControlDispatch :=
  tr.filterMap fun e => match e.2 with | .control d => some d | _ => none

/-- The tasks begun for unidirectional streams, in order. -/
def datas (tr : Trace) : List DataDispatch :=
  tr.filterMap fun e => match e.2 with | .data d => some d | _ => none

/-- The bytes that arrived on the session stream. -/
def received (tr : Trace) : Bytes :=
  tr.flatMap fun e => match e with | (.recv bytes, .ok) => bytes | _ => []

/-- The number of messages read from the session stream. -/
def infos (tr : Trace) : List SubscribeOk :=
  tr.filterMap fun e => match e.2 with | .info m => some m | _ => none

/-- Why a session may end, with the code and the error sent to the peer; without, if the peer is not
told because it is gone. -/
inductive Cause where
  | told (code : Nat) (e : Error)
  | gone

/-- The causes: `close`, the end of the session stream, and the loss of the session.  The codes are
those of the errors, rs/moq/src/error.rs. -/
def cause : Op × Out → Option Cause
  | (.close e, .ok) => match e.toCode with | .ok c => some (.told c e) | .error _ => none
  | (.fin, .ok) => some (.told 0 .cancel)
  | (.reset code, .ok) => some (.told 4 (.webTransport (.stream code)))
  | (.lose, .ok) => some .gone
  | _ => none

/-- All causes in an execution, oldest first. -/
def causes (tr : Trace) : List Cause := tr.filterMap cause

end Verif.Session.Lifecycle.Spec
