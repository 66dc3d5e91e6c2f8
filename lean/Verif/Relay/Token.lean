import Verif.Base

/-!
# Model of `rs/moq-token`

Keys, the claims of a token, signing and verifying.  The crates `jsonwebtoken` (9.3.1),
`serde_json` and `serde_with` are not part of the repository.  What they do is a parameter `Jwt`
of the model: the serialisation of header and claims into a segment of a token, its inverse, and
the keyed hash.  How `jsonwebtoken` puts these together (three segments separated by dots, the
hash taken over the first two, the algorithm in the header compared with the expected one, `exp`
compared with the clock with 60 seconds leeway) is modelled; it is part of the trusted base.
-/

set_option autoImplicit false

namespace Verif.Relay.Token

open Verif

/-- Text. -/
abbrev Text := List Char

/-- `Algorithm`, rs/moq-token/src/algorithm.rs:10-14 -/
inductive Algorithm where
  | hs256
  | hs384
  | hs512
  deriving DecidableEq, Repr

/-- `KeyOperation`, rs/moq-token/src/key.rs:11-16 -/
inductive KeyOperation where
  | sign
  | verify
  | decrypt
  | encrypt
  deriving DecidableEq, Repr

/-- `Key`, rs/moq-token/src/key.rs:21-45.  The set of operations is a list.  The two cached
values are functions of the secret (lines 84 and 106), so they are left out. -/
structure Key where
  algorithm : Algorithm
  operations : List KeyOperation
  secret : Bytes
  kid : Option Text
  deriving DecidableEq

/-- `SystemTime`, in nanoseconds since the epoch (1970), possibly negative. -/
abbrev Time := Int

/-- A second. -/
def second : Int := 1000000000

/-- `Payload`, rs/moq-token/src/payload.rs:8-40. -/
structure Payload where
  path : Text := []
  publish : Option Text := none
  publishForce : Option Text := none
  subscribe : Option Text := none
  expires : Option Time := none
  issued : Option Time := none
  deriving DecidableEq

/-- The claims as they are written: times in seconds. -/
structure Claims where
  path : Text := []
  publish : Option Text := none
  publishForce : Option Text := none
  subscribe : Option Text := none
  exp : Option Int := none
  iat : Option Int := none
  deriving DecidableEq

/-- `TimestampSeconds<i64>` of `serde_with`: rounds to the nearest second, half a second away
from the epoch. -/
def seconds (t : Time) : Int :=
  if 0 ≤ t then (t + second / 2) / second else -((-t + second / 2) / second)

/-- `Serialize for Payload`, rs/moq-token/src/payload.rs:4-40. -/
def toClaims (p : Payload) : Claims :=
  ⟨p.path, p.publish, p.publishForce, p.subscribe, p.expires.map seconds, p.issued.map seconds⟩

/-- `Deserialize for Payload`, rs/moq-token/src/payload.rs:4-40. -/
def ofClaims (c : Claims) : Payload :=
  ⟨c.path, c.publish, c.publishForce, c.subscribe, c.exp.map (· * second), c.iat.map (· * second)⟩

/-- `jsonwebtoken::Header`, as far as it is used. -/
structure Header where
  alg : Algorithm
  kid : Option Text
  deriving DecidableEq

/-- The library: how headers, claims and hashes become segments of a token, and what is read
back.  The readers are partial: a segment may be malformed, or a header may name an unknown
algorithm. -/
structure Jwt where
  writeHeader : Header → Text
  readHeader : Text → Option Header
  writeClaims : Claims → Text
  readClaims : Text → Option Claims
  /-- the keyed hash (HMAC) of a text, as a segment -/
  mac : Algorithm → Bytes → Text → Text

/-- What is assumed about the library: reading inverts writing, and segments have no dots (they
are in base 64). -/
structure Jwt.Sound (J : Jwt) : Prop where
  header : ∀ h, J.readHeader (J.writeHeader h) = some h
  claims : ∀ c, J.readClaims (J.writeClaims c) = some c
  header_dot : ∀ h, '.' ∉ J.writeHeader h
  claims_dot : ∀ c, '.' ∉ J.writeClaims c
  mac_dot : ∀ a s m, '.' ∉ J.mac a s m

/-- Why a token is refused or not made. -/
inductive Error where
  /-- rs/moq-token/src/key.rs:81 and 103 -/
  | unsupported
  /-- the token is malformed -/
  | invalidToken
  | invalidAlgorithm
  | invalidSignature
  | expired
  deriving DecidableEq, Repr

/-- `str::rsplit_once`: splits at the last occurrence. -/
def rsplitOnce (c : Char) (s : Text) : Option (Text × Text) :=
  if c ∈ s then
    some ((s.reverse.dropWhile (· != c)).tail.reverse, (s.reverse.takeWhile (· != c)).reverse)
  else none

/-- The leeway of `jsonwebtoken::Validation::new`, in seconds. -/
def leeway : Int := 60

/-- `jsonwebtoken::decode` with the validation of rs/moq-token/src/key.rs:94-97.  `now` is the
clock in seconds. -/
def decode (J : Jwt) (alg : Algorithm) (secret : Bytes) (now : Int) (token : Text) :
    Except Error Claims :=
  match rsplitOnce '.' token with
  | none => .error .invalidToken
  | some (message, signature) =>
    match rsplitOnce '.' message with
    | none => .error .invalidToken
    | some (header, claims) =>
      if '.' ∈ header then .error .invalidToken
      else
        match J.readHeader header with
        | none => .error .invalidToken
        | some h =>
          if h.alg ≠ alg then .error .invalidAlgorithm
          else if signature ≠ J.mac alg secret message then .error .invalidSignature
          else
            match J.readClaims claims with
            | none => .error .invalidToken
            | some c =>
              match c.exp with
              | none => .ok c
              | some exp => if exp < now - leeway then .error .expired else .ok c

/-- `jsonwebtoken::encode`. -/
def encode (J : Jwt) (h : Header) (c : Claims) (secret : Bytes) : Text :=
  let message := J.writeHeader h ++ '.' :: J.writeClaims c
  message ++ '.' :: J.mac h.alg secret message

/-- `Key::verify`, rs/moq-token/src/key.rs:79-99 -/
def Key.check (J : Jwt) (k : Key) (now : Int) (token : Text) : Except Error Payload :=
  if KeyOperation.verify ∈ k.operations then
    (decode J k.algorithm k.secret now token).map ofClaims
  else .error .unsupported

/-- `Key::sign`, rs/moq-token/src/key.rs:101-120 -/
def Key.sign (J : Jwt) (k : Key) (p : Payload) : Except Error Text :=
  if KeyOperation.sign ∈ k.operations then
    .ok (encode J ⟨k.algorithm, k.kid⟩ (toClaims p) k.secret)
  else .error .unsupported

/-- The length of a generated secret, rs/moq-token/src/key.rs:124-127 -/
def secretLength : Algorithm → Nat
  | .hs256 => 32
  | .hs384 => 48
  | .hs512 => 64

/-- `Key::generate`, rs/moq-token/src/key.rs:123-148; `random` is what the random generator
returns for a length. -/
def Key.generate (random : Nat → Bytes) (algorithm : Algorithm) (id : Option Text) : Key :=
  ⟨algorithm, [.sign, .verify], random (secretLength algorithm), id⟩

/-- `FromStr for Algorithm`, rs/moq-token/src/algorithm.rs:26-37 -/
def Algorithm.parse (s : String) : Option Algorithm :=
  if s = "HS256" then some .hs256
  else if s = "HS384" then some .hs384
  else if s = "HS512" then some .hs512
  else none

/-- `Display for Algorithm`, rs/moq-token/src/algorithm.rs:39-47 -/
def Algorithm.display : Algorithm → String
  | .hs256 => "HS256"
  | .hs384 => "HS384"
  | .hs512 => "HS512"

end Verif.Relay.Token
