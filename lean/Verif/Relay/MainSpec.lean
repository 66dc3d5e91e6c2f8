import Verif.Relay.Main

/-!
# Vocabulary for the claims about the main loop of the relay
-/

set_option autoImplicit false

namespace Verif.Relay.Main.Spec

open Verif Verif.Relay.Token Verif.Relay.Auth

abbrev Trace := List (Op × Out)

/-- The number of connections that arrived. -/
def arrivals (tr : Trace) : Nat :=
  (tr.filter fun e => match e.2 with | .arrived _ => true | _ => false).length

/-- The connections whose handshake began, in this order. -/
def started (tr : Trace) : List Nat :=
  tr.filterMap fun e => match e.2 with | .started k => some k | _ => none

/-- The handshakes that completed or failed, with the URL. -/
def shaken (tr : Trace) : List (Nat × Option Text) :=
  tr.filterMap fun e => match e with | (.shake k url, .ok) => some (k, url) | _ => none

/-- What becomes of a connection. -/
inductive Fate where
  | dropped
  | refused
  | admitted (id : Nat) (p : Payload)
  deriving DecidableEq

/-- What became of the connections, in this order. -/
def fates (tr : Trace) : List (Nat × Fate) :=
  tr.filterMap fun e =>
    match e.2 with
    | .dropped k => some (k, .dropped)
    | .refused k => some (k, .refused)
    | .admitted k id p => some (k, .admitted id p)
    | _ => none

/-- The ids given to connections, in this order. -/
def ids (tr : Trace) : List Nat :=
  tr.filterMap fun e => match e.2 with | .admitted _ id _ => some id | _ => none

/-- Nobody asked the relay to stop. -/
def Undisturbed (tr : Trace) : Prop := ∀ o, (Op.press, o) ∉ tr ∧ (Op.closeEndpoint, o) ∉ tr

/-- What should become of a connection whose handshake ended like this. -/
def Deserved (verify : Key → Text → Except Error Payload) (a : Auth) : Option Text → Fate → Prop
  | none, f => f = .dropped
  | some url, .refused => (∃ e, validate verify a url = .refused e) ∨ validate verify a url = .tokenRequired
  | some url, .admitted _ p => validate verify a url = .ok p
  | some _, .dropped => False

end Verif.Relay.Main.Spec
