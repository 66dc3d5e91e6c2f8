import Verif.Message.Model

/-! # Model of `rs/moq/src/error.rs` -/

namespace Verif.Session

open Verif Verif.Coding Verif.Message

/-- `web_transport::Error` as far as the code looks at it: the session is gone
(`Error::Session`), or this stream was reset or stopped with a code. -/
inductive TransportError where
  | session
  | stream (code : Nat)
  deriving DecidableEq, Repr

/-- `Error`, rs/moq/src/error.rs:5-57. -/
inductive Error where
  | webTransport (e : TransportError)
  | decode (e : DecodeError)
  | version (client server : List Version)
  | requiredExtension (id : Nat)
  | unexpectedStream (kind : ControlType)
  | boundsExceeded
  | duplicate
  | cancel
  | timeout
  | old
  | app (code : Nat)
  | notFound
  | wrongSize
  | protocolViolation
  deriving DecidableEq, Repr

/-- `Error::to_code`, rs/moq/src/error.rs:61-78.  The code is a `u32`: adding 64 to an
application code overflows (a panic with overflow checks) for the 64 largest codes. -/
def Error.toCode : Error → Except Panic Nat
  | .cancel => .ok 0
  | .requiredExtension _ => .ok 1
  | .old => .ok 2
  | .timeout => .ok 3
  | .webTransport _ => .ok 4
  | .decode _ => .ok 5
  | .version _ _ => .ok 9
  | .unexpectedStream _ => .ok 10
  | .boundsExceeded => .ok 11
  | .duplicate => .ok 12
  | .notFound => .ok 13
  | .wrongSize => .ok 14
  | .protocolViolation => .ok 15
  | .app code => if code + 64 < 2 ^ 32 then .ok (code + 64) else .error .overflow

/-- `Error::to_code` in a build without overflow checks: the addition wraps. -/
def Error.toCodeWrapping (e : Error) : Nat :=
  match e with
  | .app code => (code + 64) % 2 ^ 32
  | e => match e.toCode with
    | .ok c => c
    | .error _ => 0

end Verif.Session
