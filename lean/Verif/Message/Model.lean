import Verif.Coding.Model

/-!
# Model of `rs/moq/src/message`

One structure, encoder and decoder per message type.
-/

namespace Verif.Message

open Verif Verif.Coding

/-! ## Announce -/

/-- `AnnounceStatus`, rs/moq/src/message/announce.rs:71-77. -/
inductive AnnounceStatus where
  | ended
  | active
  deriving DecidableEq, Repr

/-- `Decode for AnnounceStatus`, rs/moq/src/message/announce.rs:79-88. -/
def decodeAnnounceStatus : Dec AnnounceStatus := do
  let status ← decodeU8
  if status = 0 then pure .ended
  else if status = 1 then pure .active
  else Dec.fail .invalidValue

/-- `Encode for AnnounceStatus`, rs/moq/src/message/announce.rs:90-94, with the
discriminants of lines 75-76. -/
def encodeAnnounceStatus : AnnounceStatus → Enc
  | .ended => encodeU8 0
  | .active => encodeU8 1

/-- `Announce`, rs/moq/src/message/announce.rs:5-12. -/
inductive Announce where
  | active (suffix : String)
  | ended (suffix : String)
  deriving DecidableEq, Repr

/-- `Announce::suffix`, rs/moq/src/message/announce.rs:14-21. -/
def Announce.suffix : Announce → String
  | .active s => s
  | .ended s => s

/-- `Decode for Announce`, rs/moq/src/message/announce.rs:23-34. -/
def decodeAnnounce : Dec Announce := do
  match ← decodeAnnounceStatus with
  | .active => let s ← decodeString; pure (.active s)
  | .ended => let s ← decodeString; pure (.ended s)

/-- `Encode for Announce`, rs/moq/src/message/announce.rs:36-49. -/
def encodeAnnounce : Announce → Enc
  | .active suffix => encodeAnnounceStatus .active ⨾ encodeString suffix
  | .ended suffix => encodeAnnounceStatus .ended ⨾ encodeString suffix

/-- `AnnounceRequest`, rs/moq/src/message/announce.rs:51-56. -/
structure AnnounceRequest where
  «prefix» : String
  deriving DecidableEq, Repr

/-- `Decode for AnnounceRequest`, rs/moq/src/message/announce.rs:58-63. -/
def decodeAnnounceRequest : Dec AnnounceRequest := do
  let p ← decodeString
  pure ⟨p⟩

/-- `Encode for AnnounceRequest`, rs/moq/src/message/announce.rs:65-69. -/
def encodeAnnounceRequest (m : AnnounceRequest) : Enc := encodeString m.prefix

/-! ## Extensions -/

/-- `Extensions`, rs/moq/src/message/extensions.rs:10-11: a hash map.  The model is an
association list in which the order stands for the (arbitrary) iteration order of the
hash map; as a map it is `Extensions.lookup`. -/
abbrev Extensions := List (Nat × Bytes)

/-- `HashMap::get` on the association list. -/
def Extensions.lookup (m : Extensions) (k : Nat) : Option Bytes :=
  (m.find? (fun e => e.1 == k)).map (·.2)

/-- The loop of `Decode for Extensions`, rs/moq/src/message/extensions.rs:19-27, with the
map built so far.  A new entry is put at the end; the position is not observable. -/
def decodeExtensionsLoop : Nat → Extensions → Dec Extensions
  | 0, map => Dec.pure map
  | n + 1, map =>
    Dec.bind decodeU64 fun kind =>
      if (Extensions.lookup map kind).isSome then Dec.fail .duplicateParameter
      else
        Dec.bind (decodeVec decodeU8) fun data =>
          decodeExtensionsLoop n (map ++ [(kind, data)])

/-- `Decode for Extensions`, rs/moq/src/message/extensions.rs:13-31. -/
def decodeExtensions : Dec Extensions :=
  Dec.bind decodeU64 fun count => decodeExtensionsLoop count []

/-- One parameter, rs/moq/src/message/extensions.rs:38-39. -/
def encodeParam (e : Nat × Bytes) : Enc := encodeU64 e.1 ⨾ encodeVec encodeU8 e.2

/-- `Encode for Extensions`, rs/moq/src/message/extensions.rs:33-42, iterating in the
order of the list. -/
def encodeExtensions (m : Extensions) : Enc :=
  encodeU64 m.length ⨾ encodeItems encodeParam m

/-- `Extensions::get`, rs/moq/src/message/extensions.rs:45-53, for an extension with the
given id and decoder. -/
def Extensions.get {α} (id : Nat) (d : Dec α) (m : Extensions) :
    Except DecodeError (Option α) :=
  match Extensions.lookup m id with
  | some payload =>
    match d payload with
    | .ok (a, _) => .ok (some a)
    | .error e => .error e
  | none => .ok none

/-- `HashMap::insert` on the association list. -/
def Extensions.insert (m : Extensions) (k : Nat) (v : Bytes) : Extensions :=
  m.filter (fun e => e.1 != k) ++ [(k, v)]

/-- `Extensions::set`, rs/moq/src/message/extensions.rs:55-59, for an extension with the
given id and encoder. -/
def Extensions.set {α} (id : Nat) (enc : α → Enc) (m : Extensions) (e : α) :
    Except Panic Extensions :=
  match wire (enc e) with
  | .ok value => .ok (Extensions.insert m id value)
  | .error p => .error p

/-! ## Frame, Group, SessionInfo -/

/-- `Frame`, rs/moq/src/message/frame.rs:3-6. -/
structure Frame where
  size : Nat
  deriving DecidableEq, Repr

/-- `Decode for Frame`, rs/moq/src/message/frame.rs:8-12. -/
def decodeFrame : Dec Frame := do
  let size ← decodeU64
  pure ⟨size⟩

/-- `Encode for Frame`, rs/moq/src/message/frame.rs:14-18. -/
def encodeFrame (m : Frame) : Enc := encodeU64 m.size

/-- `Group`, rs/moq/src/message/group.rs:3-10. -/
structure Group where
  subscribe : Nat
  sequence : Nat
  deriving DecidableEq, Repr

/-- `Decode for Group`, rs/moq/src/message/group.rs:12-19. -/
def decodeGroup : Dec Group := do
  let subscribe ← decodeU64
  let sequence ← decodeU64
  pure ⟨subscribe, sequence⟩

/-- `Encode for Group`, rs/moq/src/message/group.rs:21-26. -/
def encodeGroup (m : Group) : Enc := encodeU64 m.subscribe ⨾ encodeU64 m.sequence

/-- `SessionInfo`, rs/moq/src/message/session.rs:3-6. -/
structure SessionInfo where
  bitrate : Option Nat
  deriving DecidableEq, Repr

/-- `Decode for SessionInfo`, rs/moq/src/message/session.rs:8-17. -/
def decodeSessionInfo : Dec SessionInfo := do
  let b ← decodeU64
  match b with
  | 0 => pure ⟨none⟩
  | b + 1 => pure ⟨some (b + 1)⟩

/-- `Encode for SessionInfo`, rs/moq/src/message/session.rs:19-23. -/
def encodeSessionInfo (m : SessionInfo) : Enc :=
  encodeU64 (match m.bitrate with | some b => b | none => 0)

/-! ## Versions and setup -/

/-- `Version`, rs/moq/src/message/versions.rs:5-7. -/
abbrev Version := Nat

/-- `Version::LITE_00`, rs/moq/src/message/versions.rs:40. -/
def Version.LITE_00 : Version := 0xff0dad00

/-- `Version::CURRENT`, rs/moq/src/message/versions.rs:42. -/
def Version.CURRENT : Version := Version.LITE_00

/-- `Decode for Version`, rs/moq/src/message/versions.rs:66-72. -/
def decodeVersion : Dec Version := decodeU64

/-- `Encode for Version`, rs/moq/src/message/versions.rs:74-78. -/
def encodeVersion (v : Version) : Enc := encodeU64 v

/-- `Decode for Versions`, rs/moq/src/message/versions.rs:90-103. -/
def decodeVersions : Dec (List Version) := do
  let count ← decodeU64
  decodeN decodeVersion count

/-- `Encode for Versions`, rs/moq/src/message/versions.rs:105-114. -/
def encodeVersions (vs : List Version) : Enc :=
  encodeU64 vs.length ⨾ encodeItems encodeVersion vs

/-- `ClientSetup`, rs/moq/src/message/setup.rs:4-12. -/
structure ClientSetup where
  versions : List Version
  extensions : Extensions
  deriving DecidableEq, Repr

/-- `Decode for ClientSetup`, rs/moq/src/message/setup.rs:14-22. -/
def decodeClientSetup : Dec ClientSetup := do
  let versions ← decodeVersions
  let extensions ← decodeExtensions
  pure ⟨versions, extensions⟩

/-- `Encode for ClientSetup`, rs/moq/src/message/setup.rs:24-30. -/
def encodeClientSetup (m : ClientSetup) : Enc :=
  encodeVersions m.versions ⨾ encodeExtensions m.extensions

/-- `ServerSetup`, rs/moq/src/message/setup.rs:32-40. -/
structure ServerSetup where
  version : Version
  extensions : Extensions
  deriving DecidableEq, Repr

/-- `Decode for ServerSetup`, rs/moq/src/message/setup.rs:42-50. -/
def decodeServerSetup : Dec ServerSetup := do
  let version ← decodeVersion
  let extensions ← decodeExtensions
  pure ⟨version, extensions⟩

/-- `Encode for ServerSetup`, rs/moq/src/message/setup.rs:52-57. -/
def encodeServerSetup (m : ServerSetup) : Enc :=
  encodeVersion m.version ⨾ encodeExtensions m.extensions

/-! ## Stream types -/

/-- `ControlType`, rs/moq/src/message/stream.rs:3-8. -/
inductive ControlType where
  | session
  | announce
  | subscribe
  deriving DecidableEq, Repr

/-- `Decode for ControlType`, rs/moq/src/message/stream.rs:10-20. -/
def decodeControlType : Dec ControlType := do
  let t ← decodeU64
  match t with
  | 0 => pure .session
  | 1 => pure .announce
  | 2 => pure .subscribe
  | _ => Dec.fail .invalidValue

/-- `Encode for ControlType`, rs/moq/src/message/stream.rs:22-31. -/
def encodeControlType : ControlType → Enc
  | .session => encodeU64 0
  | .announce => encodeU64 1
  | .subscribe => encodeU64 2

/-- `DataType`, rs/moq/src/message/stream.rs:33-36. -/
inductive DataType where
  | group
  deriving DecidableEq, Repr

/-- `Decode for DataType`, rs/moq/src/message/stream.rs:38-46. -/
def decodeDataType : Dec DataType := do
  let t ← decodeU64
  match t with
  | 0 => pure .group
  | _ => Dec.fail .invalidValue

/-- `Encode for DataType`, rs/moq/src/message/stream.rs:48-55. -/
def encodeDataType : DataType → Enc
  | .group => encodeU64 0

/-! ## Subscribe -/

/-- `Subscribe`, rs/moq/src/message/subscribe.rs:3-12. -/
structure Subscribe where
  id : Nat
  broadcast : String
  track : String
  priority : UInt8
  deriving DecidableEq, Repr

/-- `Decode for Subscribe`, rs/moq/src/message/subscribe.rs:14-28. -/
def decodeSubscribe : Dec Subscribe := do
  let id ← decodeU64
  let broadcast ← decodeString
  let track ← decodeString
  let priority ← decodeU8
  pure ⟨id, broadcast, track, priority⟩

/-- `Encode for Subscribe`, rs/moq/src/message/subscribe.rs:30-37. -/
def encodeSubscribe (m : Subscribe) : Enc :=
  encodeU64 m.id ⨾ encodeString m.broadcast ⨾ encodeString m.track ⨾ encodeU8 m.priority

/-- `SubscribeOk`, rs/moq/src/message/subscribe.rs:39-42. -/
structure SubscribeOk where
  priority : UInt8
  deriving DecidableEq, Repr

/-- `Encode for SubscribeOk`, rs/moq/src/message/subscribe.rs:44-48. -/
def encodeSubscribeOk (m : SubscribeOk) : Enc := encodeU8 m.priority

/-- `Decode for SubscribeOk`, rs/moq/src/message/subscribe.rs:50-55. -/
def decodeSubscribeOk : Dec SubscribeOk := do
  let priority ← decodeU8
  pure ⟨priority⟩

end Verif.Message
