import Verif.Relay.Token

/-!
# Model of `rs/moq-relay/src/auth.rs`

The configuration (lines 9-24 and 51-89) is already loaded: a root key and a table of keys per
directory, where a directory may be listed without a key.  `verify` stands for `Key::verify`,
modelled in `Verif/Relay/Token.lean`; the clock is part of it.  The input is `url.path()`, any
text.
-/

set_option autoImplicit false

namespace Verif.Relay.Auth

open Verif Verif.Relay.Token

/-- `Auth`, rs/moq-relay/src/auth.rs:45-48; `paths` has at most one entry per directory, of which
the first counts. -/
structure Auth where
  key : Option Key
  paths : List (Text × Option Key)

/-- The result of `validate`. -/
inductive Out where
  | ok (p : Payload)
  /-- the token is refused -/
  | refused (e : Error)
  /-- "token required" -/
  | tokenRequired
  | panic (p : Panic)
  deriving DecidableEq

/-- `HashMap::get`. -/
def lookup (m : List (Text × Option Key)) (dir : Text) : Option (Option Key) :=
  (m.find? fun e => e.1 == dir).map (·.2)

/-- `str::strip_suffix`. -/
def stripSuffix (suffix s : Text) : Option Text :=
  if suffix.isSuffixOf s then some (s.take (s.length - suffix.length)) else none

/-- ".jwt" -/
def extension : Text := ['.', 'j', 'w', 't']

/-- `Auth::validate`, rs/moq-relay/src/auth.rs:92-122 -/
def validate (verify : Key → Text → Except Error Payload) (a : Auth) (url : Text) : Out :=
  let path := url.dropWhile (· == '/')
  let (pre, suffix) := (rsplitOnce '/' path).getD ([], path)
  let auth := (lookup a.paths pre).getD a.key
  match stripSuffix extension suffix with
  | some token =>
    match auth with
    | none => .panic .unwrapNone
    | some key =>
      match verify key token with
      | .error e => .refused e
      | .ok p => .ok { p with path := pre ++ p.path }
  | none =>
    match auth with
    | some _ => .tokenRequired
    | none => .ok { path := path, publish := some [], subscribe := some [] }

/-- `parse_key_val`, rs/moq-relay/src/auth.rs:33-43: `none` is the error; a map with one entry. -/
def parseKeyVal (s : Text) : Option (List (Text × Text)) :=
  if s = [] then some []
  else if '=' ∈ s then some [(s.takeWhile (· != '='), (s.dropWhile (· != '=')).tail)]
  else none

/-- `Auth::new`, rs/moq-relay/src/auth.rs:51-89: `load` is `Key::from_file`.  The table of paths
is visited in the given order.  `none` is an error. -/
def loadKey (load : Text → Option Key) (file : Text) : Option Key :=
  match load file with
  | none => none
  | some k => if KeyOperation.verify ∈ k.operations then some k else none

/-- The loop of `Auth::new`, rs/moq-relay/src/auth.rs:69-83. -/
def loadPaths (load : Text → Option Key) :
    List (Text × Text) → Option (List (Text × Option Key))
  | [] => some []
  | (path, file) :: rest =>
    match (if file = [] then some none else (loadKey load file).map some), loadPaths load rest with
    | some k, some m => some ((path, k) :: m)
    | _, _ => none

/-- `Auth::new`, rs/moq-relay/src/auth.rs:51-89. -/
def Auth.new (load : Text → Option Key) (key : Option Text) (paths : List (Text × Text)) :
    Option Auth :=
  match
    (match key with
      | none => some none
      | some [] => some none
      | some file => (loadKey load file).map some), loadPaths load paths with
  | some k, some m => some ⟨k, m⟩
  | _, _ => none

end Verif.Relay.Auth
