import Verif.Base

/-!
# Model of `rs/moq-native`: how a client and a server agree on certificate and protocol

`Client::connect` (rs/moq-native/src/client.rs:135-196), the certificate verifiers (lines 199-296),
and `ServeCerts`, `accept_session` (rs/moq-native/src/server.rs:140-207 and 218-317), with the
fingerprint that the relay hands out over HTTP (rs/moq-relay/src/web.rs:38-43).

A certificate is its DER encoding.  Parameters stand for what other crates do: `Env.hash` is
SHA-256, `Env.names` parses a certificate (`webpki`) and tells the host names it is valid for,
`Env.dns` tells whether a text is a valid DNS name, `Env.trusted` is the verification against the
root certificates, `Env.space` tells the characters that `str::trim` removes.
-/

set_option autoImplicit false

namespace Verif.Native

open Verif

/-- Texts. -/
abbrev Text := List Char

/-- What other crates do. -/
structure Env where
  hash : Bytes → Bytes
  names : Bytes → Option (Text → Bool)
  dns : Text → Bool
  trusted : Bytes → Text → Bool
  space : Char → Bool

/-! ## Hexadecimal, the `hex` crate -/

/-- A lower-case digit. -/
def hexDigit (n : Nat) : Char := "0123456789abcdef".toList.getD n '0'

/-- `hex::encode`. -/
def hexEncode : Bytes → Text
  | [] => []
  | b :: bs => hexDigit (b.toNat / 16) :: hexDigit (b.toNat % 16) :: hexEncode bs

/-- The value of a digit, of either case. -/
def hexValue (c : Char) : Option Nat :=
  if '0'.toNat ≤ c.toNat ∧ c.toNat ≤ '9'.toNat then some (c.toNat - '0'.toNat)
  else if 'a'.toNat ≤ c.toNat ∧ c.toNat ≤ 'f'.toNat then some (c.toNat - 'a'.toNat + 10)
  else if 'A'.toNat ≤ c.toNat ∧ c.toNat ≤ 'F'.toNat then some (c.toNat - 'A'.toNat + 10)
  else none

/-- `hex::decode`; `none` is an odd length or another character. -/
def hexDecode : Text → Option Bytes
  | [] => some []
  | [_] => none
  | c :: d :: rest =>
    match hexValue c, hexValue d, hexDecode rest with
    | some x, some y, some bs => some (UInt8.ofNat (16 * x + y) :: bs)
    | _, _, _ => none

/-- `str::trim`. -/
def trim (space : Char → Bool) (s : Text) : Text :=
  ((s.dropWhile space).reverse.dropWhile space).reverse

/-! ## The server -/

/-- `ServerTlsCert::parse`, rs/moq-native/src/server.rs:29-35: the files of the chain and of the
key; `split_once` cuts at the first colon. -/
def parseCert (s : Text) : Option (Text × Text) :=
  if ':' ∈ s then some (s.takeWhile (· != ':'), (s.dropWhile (· != ':')).tail) else none

/-- The result of `resolve`. -/
inductive Resolved where
  | cert (c : Bytes)
  | none
  | panic (p : Panic)
  deriving DecidableEq

/-- The loop of `best_certificate`, rs/moq-native/src/server.rs:290-299; the certificates were
loaded without being parsed (lines 225-248). -/
def search (e : Env) (name : Text) : List Bytes → Resolved
  | [] => .none
  | c :: cs =>
    match e.names c with
    | none => .panic .unwrapNone
    | some valid => if valid name then .cert c else search e name cs

/-- `best_certificate`, rs/moq-native/src/server.rs:286-302 -/
def best (e : Env) (certs : List Bytes) (sni : Option Text) : Resolved :=
  match sni with
  | none => .none
  | some name => if e.dns name then search e name certs else .none

/-- `resolve`, rs/moq-native/src/server.rs:306-316 -/
def resolve (e : Env) (certs : List Bytes) (sni : Option Text) : Resolved :=
  match best e certs sni with
  | .cert c => .cert c
  | .panic p => .panic p
  | .none =>
    match certs with
    | [] => .none
    | c :: _ => .cert c

/-- `fingerprints`, rs/moq-native/src/server.rs:274-283 -/
def fingerprints (e : Env) (certs : List Bytes) : List Text :=
  certs.map fun c => hexEncode (e.hash c)

/-- What the relay serves as `/certificate.sha256`, rs/moq-relay/src/web.rs:38-43; `none` is the
panic "missing certificate". -/
def served (e : Env) (certs : List Bytes) : Option Text := (fingerprints e certs).head?

/-- "h3", the ALPN of WebTransport -/
def webTransportAlpn : Text := ['h', '3']

/-- `moq_lite::ALPN`, rs/moq/src/lib.rs:46 and rs/moq/src/message/versions.rs:50-51 -/
def moqAlpn : Text := ['m', 'o', 'q', 'l', '-', '0', '0']

/-- How a server treats a connection with this ALPN, rs/moq-native/src/server.rs:184-204. -/
inductive Accepted where
  /-- waits for the CONNECT request -/
  | webTransport
  /-- the QUIC connection itself, with the URL `moql://` and the host name -/
  | raw
  /-- "unsupported ALPN" -/
  | unsupported
  deriving DecidableEq

/-- rs/moq-native/src/server.rs:184-204 -/
def accept (alpn : Text) : Accepted :=
  if alpn = webTransportAlpn then .webTransport
  else if alpn = moqAlpn then .raw
  else .unsupported

/-! ## The client -/

/-- The verifier of the server certificate. -/
inductive Verifier where
  /-- against the roots -/
  | roots
  /-- `NoCertificateVerification` -/
  | off
  /-- `FingerprintVerifier` -/
  | fingerprint (f : Bytes)
  deriving DecidableEq

/-- `verify_server_cert`, rs/moq-native/src/client.rs:203-212 and 251-265 -/
def Verifier.verify (e : Env) (v : Verifier) (cert : Bytes) (host : Text) : Bool :=
  match v with
  | .roots => e.trusted cert host
  | .off => true
  | .fingerprint f => e.hash cert == f

/-- The parts of a URL that are used. -/
structure Url where
  scheme : Text
  host : Option Text
  port : Option Nat
  deriving DecidableEq

/-- Why `connect` failed. -/
inductive Failure where
  | host
  | lookup
  | fetch
  | fingerprint
  | scheme
  | connect
  | session
  deriving DecidableEq

/-- The result of `connect`. -/
inductive Connected where
  /-- a WebTransport session -/
  | webTransport (v : Verifier)
  /-- a session on the QUIC connection itself -/
  | raw (v : Verifier)
  | failed (f : Failure)
  /-- `unreachable!()` -/
  | panic
  deriving DecidableEq

/-- The network as a client sees it. -/
structure Net where
  /-- a host and port can be looked up -/
  lookup : Text → Nat → Bool
  /-- the text of `/certificate.sha256`, if the request succeeds -/
  fetch : Url → Option Text
  /-- the certificate of the server that answers with this ALPN, if it does -/
  server : Text → Nat → Text → Option Bytes
  /-- the CONNECT request succeeds -/
  request : Url → Bool

/-- "http" -/
def http : Text := ['h', 't', 't', 'p']

/-- "https" -/
def https : Text := ['h', 't', 't', 'p', 's']

/-- "moql" -/
def moql : Text := ['m', 'o', 'q', 'l']

/-- Lines 148-168: for "http" the fingerprint is fetched and the scheme changed. -/
def prepare (e : Env) (n : Net) (v : Verifier) (url : Url) : Except Failure (Verifier × Url) :=
  if url.scheme = http then
    match n.fetch url with
    | none => .error .fetch
    | some text =>
      match hexDecode (trim e.space text) with
      | none => .error .fingerprint
      | some f => .ok (.fingerprint f, { url with scheme := https })
  else .ok (v, url)

/-- Lines 170-174. -/
def alpn (url : Url) : Option Text :=
  if url.scheme = https then some webTransportAlpn
  else if url.scheme = moql then some moqAlpn
  else none

/-- Lines 189-193. -/
def session (n : Net) (v : Verifier) (url : Url) : Connected :=
  if url.scheme = https then
    if n.request url then .webTransport v else .failed .session
  else if url.scheme = moqAlpn then .raw v
  else .panic

/-- `Client::connect`, rs/moq-native/src/client.rs:135-196; `v` is the configured verifier, lines
99-111. -/
def connect (e : Env) (n : Net) (v : Verifier) (url : Url) : Connected :=
  match url.host with
  | none => .failed .host
  | some host =>
    let port := url.port.getD 443
    if n.lookup host port then
      match prepare e n v url with
      | .error f => .failed f
      | .ok (v, url) =>
        match alpn url with
        | none => .failed .scheme
        | some a =>
          match n.server host port a with
          | none => .failed .connect
          | some cert => if v.verify e cert host then session n v url else .failed .connect
    else .failed .lookup

end Verif.Native
