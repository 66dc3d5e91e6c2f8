import Verif.Js.Wire

/-!
# Model of the accept loops of `js/moq/src/connection.ts`

`Connection.#runBidis` and `#runUnis` accept the streams the peer opens one after the other.
`Stream.accept` and `Reader.accept` also read the first message of the stream, and the loops wait
for that before they accept another stream.
-/

set_option autoImplicit false

namespace Verif.Js

open Verif Verif.Coding

open Verif.Session (RecvStream StreamEnd TransportError)

/-- What has become of an accept loop. -/
inductive LoopState where
  /-- it waits for another stream -/
  | accepting
  /-- it waits for the first message of a stream -/
  | reading
  /-- it ended with an exception, which nobody handles (`#run` is not awaited,
  js/moq/src/connection.ts:45 and 123-129) -/
  | dead (e : JsError)
  deriving DecidableEq, Repr

/-- An accept loop, js/moq/src/connection.ts:177-193 (`d` is `acceptBi`) and 213-229 (`d` is
`acceptUni`), on the streams the peer has opened, in order.  The first component lists the streams
handed to a handler (`#runBidi`, `#runUni`, not awaited): the message, and the reader with the rest
of the stream. -/
def acceptLoop {α : Type} (d : Rd α) : List RecvStream → List (α × Reader) × LoopState
  | [] => ([], .accepting)
  | s :: streams =>
    match d ⟨[], s⟩ with
    | (.ok m, r) =>
      let (handled, state) := acceptLoop d streams
      ((m, r) :: handled, state)
    | (.thrown e, _) => ([], .dead e)
    | (.waiting, _) => ([], .reading)

end Verif.Js
