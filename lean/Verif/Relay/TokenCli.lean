import Verif.Relay.Token

/-!
# Model of `moq-token`, rs/moq-token-cli/src/bin.rs

The program generates a key, signs a token and verifies a token.  Keys are in files.

A file is represented by the key that `Key::from_file` reads from it, if any; `serde_json` is assumed to read back the key that it has
written.  The arguments have been taken apart by `clap`, except for the times, which the program parses itself.  What is written to
standard output is the result; the payload is printed for people to read and is represented by itself.
-/

set_option autoImplicit false

namespace Verif.Relay.TokenCli

open Verif Verif.Relay.Token

/-- The value of decimal digits, after those of value `n`; `none` for anything else. -/
def digits (n : Nat) : Text → Option Nat
  | [] => some n
  | c :: cs => if '0' ≤ c ∧ c ≤ '9' then digits (10 * n + (c.toNat - '0'.toNat)) cs else none

/-- An optional sign and at least one digit. -/
def signed : Text → Option Int
  | [] => none
  | '-' :: cs => if cs = [] then none else (digits 0 cs).map fun n : Nat => -(n : Int)
  | '+' :: cs => if cs = [] then none else (digits 0 cs).map fun n : Nat => (n : Int)
  | cs => (digits 0 cs).map fun n : Nat => (n : Int)

/-- `str::parse::<i64>`: a number in range. -/
def parseI64 (s : Text) : Option Int :=
  (signed s).bind fun v => if -9223372036854775808 ≤ v ∧ v < 9223372036854775808 then some v else none

/-- `parse_unix_timestamp`, rs/moq-token-cli/src/bin.rs:110-115: `try_into` a `u64` fails for negative numbers. -/
def timestamp (s : Text) : Option Time :=
  match parseI64 s with
  | none => none
  | some v => if v < 0 then none else some (v * second)

/-- An optional argument that is a time; the outer `none` is an error of `clap`. -/
def timeArg : Option Text → Option (Option Time)
  | none => some none
  | some s => (timestamp s).map some

/-- The arguments of `sign`, rs/moq-token-cli/src/bin.rs:33-61. -/
structure Args where
  path : Text
  publish : Option Text
  publishForce : Option Text
  subscribe : Option Text
  expires : Option Text
  issued : Option Text

structure State where
  /-- the key that is read from a file; `none` if there is no such file, or it has no key -/
  files : Text → Option Key

inductive Op where
  /-- `generate`; `random` is what the random generator returns for a length, `writable` whether the file can be created -/
  | generate (file : Text) (alg : Algorithm) (id : Option Text) (random : Nat → Bytes) (writable : Bool)
  | sign (file : Text) (args : Args)
  /-- `verify`, at a time in seconds, with the given input -/
  | verify (file : Text) (now : Int) (input : Text)
  /-- somebody else writes or removes a file -/
  | store (file : Text) (k : Option Key)

inductive Out where
  /-- ended without error and without output -/
  | done
  /-- the text written to standard output -/
  | text (t : Text)
  | payload (p : Payload)
  /-- ended with an error -/
  | fail
  deriving DecidableEq

def init : State := ⟨fun _ => none⟩

def put (s : State) (file : Text) (k : Option Key) : State := ⟨fun f => if f = file then k else s.files f⟩

/-- `main`, rs/moq-token-cli/src/bin.rs:67-107. -/
def step (J : Jwt) (s : State) (op : Op) : Out × State :=
  match op with
  | .generate file alg id random writable =>
    if writable then (.done, put s file (some (Key.generate random alg id))) else (.fail, s)
  | .sign file a =>
    match timeArg a.expires, timeArg a.issued with
    | some expires, some issued =>
      match s.files file with
      | none => (.fail, s)
      | some k =>
        match k.sign J ⟨a.path, a.publish, a.publishForce, a.subscribe, expires, issued⟩ with
        | .error _ => (.fail, s)
        /- `println!` -/
        | .ok token => (.text (token ++ ['\n']), s)
    | _, _ => (.fail, s)
  | .verify file now input =>
    match s.files file with
    | none => (.fail, s)
    | some k =>
      match k.check J now input with
      | .error _ => (.fail, s)
      | .ok p => (.payload p, s)
  | .store file k => (.done, put s file k)

abbrev machine (J : Jwt) : Machine := { State := State, Op := Op, Out := Out, init := init, step := step J }

abbrev Trace := List (Op × Out)

end Verif.Relay.TokenCli
