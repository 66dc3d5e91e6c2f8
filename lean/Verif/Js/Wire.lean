import Verif.Js.Text
import Verif.Session.Reader

/-!
# Model of `js/moq/src/wire` and of the handshake in `js/moq/src/connection.ts`

The browser's implementation of the protocol: readers and writers on streams, and the messages.

An async method is a function on the reader's state that returns, throws or is still waiting.
JavaScript numbers are modelled where they are non-negative integers (`Nat`); a `bigint` is a
`Nat` too.  The platform's `ReadableStream` is modelled like the transport stream of the Rust
reader (`Session.RecvStream`): the bytes in order, in pieces, then an end.
-/

set_option autoImplicit false

namespace Verif.Js

open Verif Verif.Coding

open Verif.Session (RecvStream StreamEnd TransportError)

/-- The exceptions thrown while reading or writing messages. -/
inductive JsError where
  /-- "unexpected end of stream", stream.ts:118 -/
  | endOfStream
  /-- the platform's `read()` rejected: the stream was reset or the session lost -/
  | transport (e : TransportError)
  /-- "value larger than 53-bits" (reading), stream.ts:164, and "overflow, value larger than
  53-bits" (writing), stream.ts:267 and 363 -/
  | tooLarge
  /-- "duplicate parameter id", session.ts:58 -/
  | duplicate
  /-- "unknown stream type", stream.ts:45 and 229 -/
  | unknownType (n : Nat)
  /-- "unsupported server version", js/moq/src/connection.ts:94 -/
  | unsupportedVersion (n : Nat)
  deriving DecidableEq, Repr

/-- `MAX_U6`, js/moq/src/wire/stream.ts:3. -/
def MAX_U6 : Nat := 2 ^ 6 - 1

/-- `MAX_U14`, js/moq/src/wire/stream.ts:4. -/
def MAX_U14 : Nat := 2 ^ 14 - 1

/-- `MAX_U30`, js/moq/src/wire/stream.ts:5. -/
def MAX_U30 : Nat := 2 ^ 30 - 1

/-- `MAX_U53` (`Number.MAX_SAFE_INTEGER`), js/moq/src/wire/stream.ts:7. -/
def MAX_U53 : Nat := 2 ^ 53 - 1

/-! ## Reader -/

/-- `Reader`, js/moq/src/wire/stream.ts:82-91.  `#buffer` is a view of an array buffer that ends
where the array buffer ends (`#fill` always makes a fresh one), so a view is its bytes. -/
structure Reader where
  buffer : Bytes
  stream : RecvStream
  deriving DecidableEq, Repr

/-- The result of an async method. -/
inductive Res (α : Type) where
  | ok (a : α)
  | thrown (e : JsError)
  | waiting
  deriving DecidableEq, Repr

/-- An async method of the reader. -/
def Rd (α : Type) : Type := Reader → Res α × Reader

namespace Rd

@[inline] def pure {α : Type} (a : α) : Rd α := fun r => (.ok a, r)

/-- `await`: an exception ends the method, waiting makes it wait. -/
@[inline] def bind {α β : Type} (d : Rd α) (f : α → Rd β) : Rd β := fun r =>
  match d r with
  | (.ok a, r') => f a r'
  | (.thrown e, r') => (.thrown e, r')
  | (.waiting, r') => (.waiting, r')

@[inline] def throw {α : Type} (e : JsError) : Rd α := fun r => (.thrown e, r)

instance : Monad Rd where
  pure := Rd.pure
  bind := Rd.bind

end Rd

/-- The result of the platform's `read()` once no piece is left: `none` is `done`. -/
def endResult : StreamEnd → Res (Option Bytes)
  | .fin => .ok none
  | .failed e => .thrown (.transport e)
  | .idle => .waiting

/-- `Reader.#fill`, js/moq/src/wire/stream.ts:94-112. -/
def fill : Rd Bool := fun r =>
  match r.stream.chunks with
  | c :: chunks =>
    (.ok true, { buffer := r.buffer ++ c, stream := { r.stream with chunks := chunks } })
  | [] =>
    match endResult r.stream.ending with
    | .ok _ => (.ok false, r)
    | .thrown e => (.thrown e, r)
    | .waiting => (.waiting, r)

/-- The loop of `Reader.#fillTo`, js/moq/src/wire/stream.ts:115-121, by recursion on the pieces
`#fill` gets. -/
def fillToLoop (size : Nat) (ending : StreamEnd) : List Bytes → Bytes → Res Unit × Reader
  | chunks, buffer =>
    if buffer.length < size then
      match chunks with
      | [] =>
        match endResult ending with
        | .ok _ => (.thrown .endOfStream, ⟨buffer, ⟨[], ending⟩⟩)
        | .thrown e => (.thrown e, ⟨buffer, ⟨[], ending⟩⟩)
        | .waiting => (.waiting, ⟨buffer, ⟨[], ending⟩⟩)
      | c :: chunks => fillToLoop size ending chunks (buffer ++ c)
    else (.ok (), ⟨buffer, ⟨chunks, ending⟩⟩)

/-- `Reader.#fillTo`, js/moq/src/wire/stream.ts:115-121. -/
def fillTo (size : Nat) : Rd Unit := fun r =>
  fillToLoop size r.stream.ending r.stream.chunks r.buffer

/-- `Reader.#slice`, js/moq/src/wire/stream.ts:124-129. -/
def slice (size : Nat) : Rd Bytes := fun r =>
  (.ok (r.buffer.take size), { r with buffer := r.buffer.drop size })

/-- `Reader.read`, js/moq/src/wire/stream.ts:131-136. -/
def read (size : Nat) : Rd Bytes :=
  if size = 0 then Rd.pure [] else Rd.bind (fillTo size) fun _ => slice size

/-- `Reader.u8`, js/moq/src/wire/stream.ts:155-158. -/
def readU8 : Rd Nat :=
  Rd.bind (fillTo 1) fun _ => Rd.bind (slice 1) fun b => Rd.pure (b.headD 0).toNat

/-- `this.#buffer[0]`. -/
def peek : Rd Nat := fun r => (.ok (r.buffer.headD 0).toNat, r)

/-- `Reader.u62`, js/moq/src/wire/stream.ts:171-198.  `getInt16` is signed, but its sign is
above the mask. -/
def readU62 : Rd Nat :=
  Rd.bind (fillTo 1) fun _ =>
  Rd.bind peek fun first =>
  let size := (first &&& 0xc0) >>> 6
  if size = 0 then Rd.bind (slice 1) fun b => Rd.pure (fromBE b &&& 0x3f)
  else if size = 1 then
    Rd.bind (fillTo 2) fun _ => Rd.bind (slice 2) fun b => Rd.pure (fromBE b &&& 0x3fff)
  else if size = 2 then
    Rd.bind (fillTo 4) fun _ => Rd.bind (slice 4) fun b => Rd.pure (fromBE b &&& 0x3fffffff)
  else
    Rd.bind (fillTo 8) fun _ => Rd.bind (slice 8) fun b =>
      Rd.pure (fromBE b &&& 0x3fffffffffffffff)

/-- `Reader.u53`, js/moq/src/wire/stream.ts:161-168. -/
def readU53 : Rd Nat :=
  Rd.bind readU62 fun v => if MAX_U53 < v then Rd.throw .tooLarge else Rd.pure v

/-- `Reader.string`, js/moq/src/wire/stream.ts:145-153 (no caller gives `maxLength`). -/
def readString (L : Lossy) : Rd JsString :=
  Rd.bind readU53 fun length => Rd.bind (read length) fun b => Rd.pure (textDecode L b)

/-- `Reader.done`, js/moq/src/wire/stream.ts:201-204. -/
def done : Rd Bool := fun r =>
  if 0 < r.buffer.length then (.ok false, r)
  else (Rd.bind fill fun filled => Rd.pure (!filled)) r

/-! ## Writer -/

/-- What a method of the writer does: the bytes it hands to the stream, and the exception it then
throws, if any. -/
structure Wr where
  bytes : Bytes
  thrown : Option JsError
  deriving DecidableEq, Repr

/-- Nothing written. -/
def Wr.nil : Wr := ⟨[], none⟩

/-- Two calls one after the other. -/
def Wr.seq (a b : Wr) : Wr :=
  match a.thrown with
  | some e => ⟨a.bytes, some e⟩
  | none => ⟨a.bytes ++ b.bytes, b.thrown⟩

infixr:65 " ⨟ " => Wr.seq

/-- `Writer.write`, js/moq/src/wire/stream.ts:286-288. -/
def write (b : Bytes) : Wr := ⟨b, none⟩

/-- `setUint8`, `setUint16`, `setUint32` and `setUint64`, js/moq/src/wire/stream.ts:324-334, 343-348
and 382-387: the low bytes of the value, most significant first. -/
def setUint (k : Nat) (v : Nat) : Bytes := toBE k v

/-- `setVint53`, js/moq/src/wire/stream.ts:350-364 (the exception in the last line).  `|` on
numbers gives a signed 32-bit integer, of which `setUint16` and `setUint32` take the low bits. -/
def setVint53 (v : Nat) : Wr :=
  if v ≤ MAX_U6 then write (setUint 1 v)
  else if v ≤ MAX_U14 then write (setUint 2 (v ||| 0x4000))
  else if v ≤ MAX_U30 then write (setUint 4 (v ||| 0x80000000))
  else if v ≤ MAX_U53 then write (setUint 8 (v ||| 0xc000000000000000))
  else ⟨[], some .tooLarge⟩

/-- `setVint62`, js/moq/src/wire/stream.ts:366-380: note the two strict comparisons and the
missing upper bound. -/
def setVint62 (v : Nat) : Wr :=
  if v < MAX_U6 then write (setUint 1 v)
  else if v < MAX_U14 then write (setUint 2 (v ||| 0x4000))
  else if v ≤ MAX_U30 then write (setUint 4 (v ||| 0x80000000))
  else write (setUint 8 (v ||| 0xc000000000000000))

/-- `Writer.u8`, js/moq/src/wire/stream.ts:248-250. -/
def writeU8 (v : Nat) : Wr := write (setUint 1 v)

/-- `Writer.u53`, js/moq/src/wire/stream.ts:262-271. -/
def writeU53 (v : Nat) : Wr := if MAX_U53 < v then ⟨[], some .tooLarge⟩ else setVint53 v

/-- `Writer.u62`, js/moq/src/wire/stream.ts:273-284. -/
def writeU62 (v : Nat) : Wr := setVint62 v

/-- `Writer.string`, js/moq/src/wire/stream.ts:290-294. -/
def writeString (s : JsString) : Wr :=
  writeU53 (textEncode s).length ⨟ write (textEncode s)

/-! ## Announcements, js/moq/src/wire/announce.ts -/

/-- `Announce`, js/moq/src/wire/announce.ts:3-10. -/
structure Announce where
  suffix : JsString
  active : Bool
  deriving DecidableEq, Repr

/-- `Announce.encode`, js/moq/src/wire/announce.ts:12-15. -/
def Announce.encode (m : Announce) : Wr :=
  writeU53 (if m.active then 1 else 0) ⨟ writeString m.suffix

/-- `Announce.decode`, js/moq/src/wire/announce.ts:17-21. -/
def Announce.decode (L : Lossy) : Rd Announce :=
  Rd.bind readU53 fun a => Rd.bind (readString L) fun s => Rd.pure ⟨s, a == 1⟩

/-- `Announce.decode_maybe`, js/moq/src/wire/announce.ts:23-26, and the other `decode_maybe`
methods, which are alike (subscribe.ts:19-22, session.ts:137-140). -/
def decodeMaybe {α : Type} (d : Rd α) : Rd (Option α) :=
  Rd.bind done fun b => if b then Rd.pure none else Rd.bind d fun a => Rd.pure (some a)

/-- `AnnounceInterest`, js/moq/src/wire/announce.ts:29-35. -/
structure AnnounceInterest where
  «prefix» : JsString
  deriving DecidableEq, Repr

/-- `AnnounceInterest.encode`, js/moq/src/wire/announce.ts:37-39. -/
def AnnounceInterest.encode (m : AnnounceInterest) : Wr := writeString m.prefix

/-- `AnnounceInterest.decode`, js/moq/src/wire/announce.ts:41-44. -/
def AnnounceInterest.decode (L : Lossy) : Rd AnnounceInterest :=
  Rd.bind (readString L) fun s => Rd.pure ⟨s⟩

/-! ## Groups and frames, js/moq/src/wire/group.ts -/

/-- `Group`, js/moq/src/wire/group.ts:3-12. -/
structure Group where
  subscribe : Nat
  sequence : Nat
  deriving DecidableEq, Repr

/-- `Group.encode`, js/moq/src/wire/group.ts:14-17. -/
def Group.encode (m : Group) : Wr := writeU62 m.subscribe ⨟ writeU53 m.sequence

/-- `Group.decode`, js/moq/src/wire/group.ts:19-21. -/
def Group.decode : Rd Group :=
  Rd.bind readU62 fun a => Rd.bind readU53 fun b => Rd.pure ⟨a, b⟩

/-- `Frame.encode`, js/moq/src/wire/group.ts:53-56, also written out in `Publisher.#runGroup`,
js/moq/src/publisher.ts:182-183. -/
def encodeFrame (payload : Bytes) : Wr := writeU53 payload.length ⨟ write payload

/-- `Frame.decode`, js/moq/src/wire/group.ts:58-62, also written out in `Subscriber.runGroup`,
js/moq/src/subscriber.ts:172-173. -/
def decodeFrame : Rd Bytes := Rd.bind readU53 fun size => read size

/-! ## Subscriptions, js/moq/src/wire/subscribe.ts -/

/-- `Subscribe`, js/moq/src/wire/subscribe.ts:25-37. -/
structure Subscribe where
  id : Nat
  broadcast : JsString
  track : JsString
  priority : Nat
  deriving DecidableEq, Repr

/-- `SubscribeUpdate.encode`, js/moq/src/wire/subscribe.ts:10-12, and `SubscribeOk.encode`,
62-64. -/
def encodePriority (priority : Nat) : Wr := writeU53 priority

/-- `SubscribeUpdate.decode`, js/moq/src/wire/subscribe.ts:14-17, and `SubscribeOk.decode`,
66-69. -/
def decodePriority : Rd Nat := readU53

/-- `Subscribe.encode`, js/moq/src/wire/subscribe.ts:39-44. -/
def Subscribe.encode (m : Subscribe) : Wr :=
  writeU62 m.id ⨟ writeString m.broadcast ⨟ writeString m.track ⨟ encodePriority m.priority

/-- `Subscribe.decode`, js/moq/src/wire/subscribe.ts:46-52. -/
def Subscribe.decode (L : Lossy) : Rd Subscribe :=
  Rd.bind readU62 fun id => Rd.bind (readString L) fun b => Rd.bind (readString L) fun t =>
    Rd.bind decodePriority fun p => Rd.pure ⟨id, b, t, p⟩

/-! ## Sessions, js/moq/src/wire/session.ts -/

/-- `Version.LITE_00`, js/moq/src/wire/session.ts:13. -/
def Version.LITE_00 : Nat := 0xff0dad00

/-- `CURRENT_VERSION`, js/moq/src/wire/session.ts:16. -/
def CURRENT_VERSION : Nat := Version.LITE_00

/-- `Extensions`, js/moq/src/wire/session.ts:18-37: a `Map`, iterated in insertion order. -/
abbrev Extensions := List (Nat × Bytes)

/-- The loop of `Extensions.encode`, js/moq/src/wire/session.ts:41-45. -/
def encodeEntries : Extensions → Wr
  | [] => Wr.nil
  | e :: es => (writeU62 e.1 ⨟ writeU53 e.2.length ⨟ write e.2) ⨟ encodeEntries es

/-- `Extensions.encode`, js/moq/src/wire/session.ts:39-46. -/
def encodeExtensions (m : Extensions) : Wr := writeU53 m.length ⨟ encodeEntries m

/-- The loop of `Extensions.decode`, js/moq/src/wire/session.ts:52-62. -/
def decodeEntries : Nat → Extensions → Rd Extensions
  | 0, map => Rd.pure map
  | n + 1, map =>
    Rd.bind readU62 fun id => Rd.bind readU53 fun size => Rd.bind (read size) fun value =>
      if map.any (fun e => e.1 == id) then Rd.throw .duplicate
      else decodeEntries n (map ++ [(id, value)])

/-- `Extensions.decode`, js/moq/src/wire/session.ts:48-65. -/
def decodeExtensions : Rd Extensions := Rd.bind readU53 fun count => decodeEntries count []

/-- `SessionClient`, js/moq/src/wire/session.ts:68-77. -/
structure SessionClient where
  versions : List Nat
  extensions : Extensions
  deriving DecidableEq, Repr

/-- The loop of `SessionClient.encode`, js/moq/src/wire/session.ts:81-83. -/
def encodeVersions : List Nat → Wr
  | [] => Wr.nil
  | v :: vs => writeU53 v ⨟ encodeVersions vs

/-- `SessionClient.encode`, js/moq/src/wire/session.ts:79-86. -/
def SessionClient.encode (m : SessionClient) : Wr :=
  writeU53 m.versions.length ⨟ encodeVersions m.versions ⨟ encodeExtensions m.extensions

/-- The loop of `SessionClient.decode`, js/moq/src/wire/session.ts:91-93. -/
def decodeVersions : Nat → List Nat → Rd (List Nat)
  | 0, vs => Rd.pure vs
  | n + 1, vs => Rd.bind readU53 fun v => decodeVersions n (vs ++ [v])

/-- `SessionClient.decode`, js/moq/src/wire/session.ts:88-97. -/
def SessionClient.decode : Rd SessionClient :=
  Rd.bind readU53 fun count => Rd.bind (decodeVersions count []) fun vs =>
    Rd.bind decodeExtensions fun es => Rd.pure ⟨vs, es⟩

/-- `SessionServer`, js/moq/src/wire/session.ts:100-107. -/
structure SessionServer where
  version : Nat
  extensions : Extensions
  deriving DecidableEq, Repr

/-- `SessionServer.encode`, js/moq/src/wire/session.ts:109-112. -/
def SessionServer.encode (m : SessionServer) : Wr :=
  writeU53 m.version ⨟ encodeExtensions m.extensions

/-- `SessionServer.decode`, js/moq/src/wire/session.ts:114-118. -/
def SessionServer.decode : Rd SessionServer :=
  Rd.bind readU53 fun v => Rd.bind decodeExtensions fun es => Rd.pure ⟨v, es⟩

/-- `SessionInfo.encode`, js/moq/src/wire/session.ts:128-130. -/
def encodeSessionInfo (bitrate : Nat) : Wr := writeU53 bitrate

/-- `SessionInfo.decode`, js/moq/src/wire/session.ts:132-135. -/
def decodeSessionInfo : Rd Nat := readU53

/-! ## Streams, js/moq/src/wire/stream.ts -/

/-- `StreamBi`, js/moq/src/wire/stream.ts:12. -/
inductive StreamBi where
  | session (m : SessionClient)
  | announce (m : AnnounceInterest)
  | subscribe (m : Subscribe)
  deriving DecidableEq, Repr

/-- `Stream.accept`, js/moq/src/wire/stream.ts:27-49, on the accepted stream. -/
def acceptBi (L : Lossy) : Rd StreamBi :=
  Rd.bind readU8 fun typ =>
    if typ = 0 then Rd.bind SessionClient.decode fun m => Rd.pure (.session m)
    else if typ = 1 then Rd.bind (AnnounceInterest.decode L) fun m => Rd.pure (.announce m)
    else if typ = 2 then Rd.bind (Subscribe.decode L) fun m => Rd.pure (.subscribe m)
    else Rd.throw (.unknownType typ)

/-- `Stream.open`, js/moq/src/wire/stream.ts:51-67: what is written on the new stream. -/
def openBi : StreamBi → Wr
  | .session m => writeU8 0 ⨟ m.encode
  | .announce m => writeU8 1 ⨟ m.encode
  | .subscribe m => writeU8 2 ⨟ m.encode

/-- `Reader.accept`, js/moq/src/wire/stream.ts:214-233, on the accepted stream. -/
def acceptUni : Rd Group :=
  Rd.bind readU8 fun typ => if typ = 0 then Group.decode else Rd.throw (.unknownType typ)

/-- `Writer.open`, js/moq/src/wire/stream.ts:308-321: what is written on the new stream. -/
def openUni (m : Group) : Wr := writeU8 0 ⨟ m.encode

/-! ## Handshake, js/moq/src/connection.ts -/

/-- What `Connection.connect` sends, js/moq/src/connection.ts:89-90. -/
def connectRequest : Wr := openBi (.session ⟨[CURRENT_VERSION], []⟩)

/-- What `Connection.connect` does with the answer, js/moq/src/connection.ts:92-95. -/
def connectAnswer : Rd Unit :=
  Rd.bind SessionServer.decode fun server =>
    if server.version ≠ CURRENT_VERSION then Rd.throw (.unsupportedVersion server.version)
    else Rd.pure ()

end Verif.Js
