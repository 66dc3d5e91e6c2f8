import Verif.Base

/-!
# Model of `rs/hang/src/cmaf/import.rs`: importing fragmented MP4

The decoder of boxes, `mp4_atom::Any::decode_maybe`, is a parameter: it answers that it needs more
bytes, that the bytes are invalid, or a box and the number of its bytes.  What is done with a box is a
parameter of the splitting (`parse`, `read_from`), and `extract` is modelled for the contents of the
boxes that it uses.  The creation of the catalog from the `moov` box is in Verif/Hang/Init.lean.

Arithmetic is checked: an overflow is a panic.
-/

set_option autoImplicit false

namespace Verif.Hang.Import

open Verif

/-! ## Splitting the input into boxes -/

/-- The answer of `decode_maybe`. -/
inductive Decoded (Atom Err : Type) where
  | more
  | invalid (e : Err)
  /-- a box, and the number of bytes it takes -/
  | atom (a : Atom) (size : Nat)

variable {Atom Err σ : Type}

/-- The decoder and the processing of a box, rs/hang/src/cmaf/import.rs:354-384, which may fail after
having changed the state. -/
structure Params (Atom Err σ : Type) where
  decode : Bytes → Decoded Atom Err
  process : σ → Atom → Nat → Option Err × σ

/-- `parse_inner`, rs/hang/src/cmaf/import.rs:59-76: the error if there is one, the bytes that remain,
and the state.  A box of no bytes would be decoded again and again; the loop is cut off there, after
at most as many rounds as there are bytes. -/
def parseLoop (P : Params Atom Err σ) : Nat → σ → Bytes → Option Err × Bytes × σ
  | 0, s, data => (none, data, s)
  | fuel + 1, s, data =>
    match P.decode data with
    | .invalid e => (some e, data, s)
    | .more => (none, data, s)
    | .atom a n =>
      match P.process s a n with
      | (some e, s) => (some e, data, s)
      | (none, s) => parseLoop P fuel s (data.drop n)

def parseInner (P : Params Atom Err σ) (s : σ) (data : Bytes) : Option Err × Bytes × σ :=
  parseLoop P (data.length + 1) s data

/-- `Import::parse`, rs/hang/src/cmaf/import.rs:45-57, with the buffer.  After an error the buffer is
empty: it was taken, or it was empty before. -/
def parse (P : Params Atom Err σ) (x : Bytes × σ) (data : Bytes) : Option Err × Bytes × σ :=
  match parseInner P x.2 (x.1 ++ data) with
  | (some e, _, s) => (some e, [], s)
  | (none, rest, s) => (none, rest, s)

/-- Several pieces, until the first error. -/
def feed (P : Params Atom Err σ) (x : Bytes × σ) : List Bytes → Option Err × Bytes × σ
  | [] => (none, x)
  | d :: ds =>
    match parse P x d with
    | (some e, x) => (some e, x)
    | (none, x) => feed P x ds

/-- `Import::read_from`, rs/hang/src/cmaf/import.rs:339-352, for the pieces that `read_buf` appends to
the buffer, each not empty.  The result `none` is the error `TrailingData`. -/
def readFrom (P : Params Atom Err σ) (x : Bytes × σ) : List Bytes → Option (Option Err) × σ
  | [] => (if x.1 = [] then some none else none, x.2)
  | d :: ds =>
    match parseInner P x.2 (x.1 ++ d) with
    | (some e, _, s) => (some (some e), s)
    | (none, rest, s) => readFrom P (rest, s) ds

/-! ## Extracting the samples of a fragment -/

inductive Handler where
  | video
  | audio
  deriving DecidableEq

/-- What is used of a `trak` box. -/
structure Trak where
  trackId : Nat
  handler : Handler
  /-- `u32` -/
  timescale : Nat

/-- What is used of a `trex` box. -/
structure Trex where
  trackId : Nat
  duration : Nat
  size : Nat
  flags : Nat

/-- What is used of the `moov` box. -/
structure Moov where
  trak : List Trak
  mvex : Option (List Trex)

/-- An entry of a `trun` box; all fields are 32 bits. -/
structure Entry where
  flags : Option Nat
  duration : Option Nat
  size : Option Nat
  cts : Option Int

structure Trun where
  dataOffset : Option Int
  entries : List Entry

/-- What is used of a `traf` box. -/
structure Traf where
  trackId : Nat
  flags : Option Nat
  duration : Option Nat
  size : Option Nat
  /-- `u64` -/
  baseDataOffset : Option Nat
  /-- `u64` -/
  tfdt : Option Nat
  trun : Option Trun

inductive Error where
  | missingMoov
  | missingMoof
  | missingTrun
  | missingTfdt
  | unknownTrack
  | invalidOffset
  deriving DecidableEq

inductive Fault where
  | overflow
  | divideByZero
  /-- `timestamp - *prev` of durations -/
  | negativeDuration
  /-- the encoding of the timestamp in `TrackProducer::write` -/
  | timestampTooLarge
  deriving DecidableEq

/-- How `extract` ends. -/
inductive End where
  | ok
  | err (e : Error)
  | panic (f : Fault)
  deriving DecidableEq

/-- A frame written, with its place in the data. -/
structure Frame where
  trackId : Nat
  micros : Nat
  keyframe : Bool
  offset : Nat
  payload : Bytes
  deriving DecidableEq

/-- The state during `extract`: the frames written so far and `last_keyframe` in microseconds. -/
structure St where
  frames : List Frame
  last : Nat → Option Nat

/-- `dts as i64` -/
def toI64 (n : Nat) : Int := if n < 2 ^ 63 then n else n - 2 ^ 64

/-- `as u64` -/
def toU64 (i : Int) : Nat := if i < 0 then (i + 2 ^ 64).toNat else i.toNat

/-- The timestamp, rs/hang/src/cmaf/import.rs:450-451 -/
def timestamp (dts : Nat) (cts : Int) (timescale : Nat) : Except Fault Nat :=
  let sum := toI64 dts + cts
  if sum < -2 ^ 63 ∨ 2 ^ 63 ≤ sum then .error .overflow
  else if 2 ^ 64 ≤ 1000000 * toU64 sum then .error .overflow
  else if timescale = 0 then .error .divideByZero
  else .ok (1000000 * toU64 sum / timescale)

/-- Clear `last_keyframe` for the audio tracks, rs/hang/src/cmaf/import.rs:463-466 -/
def clearAudio (moov : Moov) (last : Nat → Option Nat) : Nat → Option Nat := fun t =>
  if moov.trak.any (fun k => k.handler = .audio && k.trackId = t) then none else last t

/-- Whether a sample is a keyframe, rs/hang/src/cmaf/import.rs:457-478; the result has the changed
`last_keyframe`. -/
def keyframeOf (moov : Moov) (trak : Trak) (trackId flags micros : Nat) (last : Nat → Option Nat) :
    Except Fault (Bool × (Nat → Option Nat)) :=
  match trak.handler with
  | .video =>
    if flags / 2 ^ 24 % 4 = 2 ∧ flags / 2 ^ 16 % 2 ≠ 1 then .ok (true, clearAudio moov last)
    else .ok (false, last)
  | .audio =>
    match last trackId with
    | some prev =>
      if micros < prev then .error .negativeDuration else .ok (decide (10000000 < micros - prev), last)
    | none => .ok (true, last)

/-- The size of a sample, rs/hang/src/cmaf/import.rs:446-448 -/
def sizeOf (traf : Traf) (dSize : Nat) (e : Entry) : Nat := e.size.getD (traf.size.getD dSize)

/-- One sample, rs/hang/src/cmaf/import.rs:438-494. -/
def sample (moov : Moov) (trak : Trak) (trex : Trex) (traf : Traf) (mdat : Bytes) (dts offset : Nat)
    (s : St) (e : Entry) : End × Nat × Nat × St :=
  let flags := e.flags.getD (traf.flags.getD trex.flags)
  let duration := e.duration.getD (traf.duration.getD trex.duration)
  let size := sizeOf traf trex.size e
  match timestamp dts (e.cts.getD 0) trak.timescale with
  | .error f => (.panic f, dts, offset, s)
  | .ok micros =>
    if 2 ^ 64 ≤ offset + size then (.panic .overflow, dts, offset, s)
    else if mdat.length < offset + size then (.err .invalidOffset, dts, offset, s)
    else
      match keyframeOf moov trak traf.trackId flags micros s.last with
      | .error f => (.panic f, dts, offset, s)
      | .ok (keyframe, last) =>
        let last := if keyframe then fun t => if t = traf.trackId then some micros else last t else last
        if 2 ^ 62 ≤ micros then (.panic .timestampTooLarge, dts, offset, { s with last := last })
        else
          let frames := s.frames ++ [⟨traf.trackId, micros, keyframe, offset, (mdat.drop offset).take size⟩]
          if 2 ^ 64 ≤ dts + duration then (.panic .overflow, dts, offset, ⟨frames, last⟩)
          else (.ok, dts + duration, offset + size, ⟨frames, last⟩)

/-- The loop over the samples, rs/hang/src/cmaf/import.rs:438-502. -/
def samples (moov : Moov) (trak : Trak) (trex : Trex) (traf : Traf) (mdat : Bytes) :
    Nat → Nat → St → List Entry → End × St
  | _, _, s, [] => (.ok, s)
  | dts, offset, s, e :: es =>
    match sample moov trak trex traf mdat dts offset s e with
    | (.ok, dts, offset, s) => samples moov trak trex traf mdat dts offset s es
    | (o, _, _, s) => (o, s)

/-- Where the samples of a `traf` begin in the data, rs/hang/src/cmaf/import.rs:425-436.  On targets
with 64 bits `as usize` keeps the value, and the `try_into` fails exactly for negative numbers. -/
def startOf (traf : Traf) (trun : Trun) (moofSize headerSize : Nat) : Except End Nat :=
  let base := traf.baseDataOffset.getD 0
  match trun.dataOffset with
  | none => .ok base
  | some d =>
    if d < 0 then .error (.err .invalidOffset)
    else if d.toNat < moofSize then .error (.err .invalidOffset)
    else if d.toNat < moofSize + headerSize then .error (.panic .overflow)
    else if 2 ^ 64 ≤ base + (d.toNat - moofSize - headerSize) then .error (.panic .overflow)
    else .ok (base + (d.toNat - moofSize - headerSize))

/-- The defaults for a track, rs/hang/src/cmaf/import.rs:408-416. -/
def trexOf (moov : Moov) (trackId : Nat) : Trex :=
  match moov.mvex with
  | none => ⟨trackId, 0, 0, 0⟩
  | some l =>
    match l.find? fun t => t.trackId = trackId with
    | some t => t
    | none => ⟨trackId, 0, 0, 0⟩

/-- One `traf` box, rs/hang/src/cmaf/import.rs:398-503. -/
def trafStep (known : Nat → Bool) (moov : Moov) (moofSize headerSize : Nat) (mdat : Bytes) (s : St)
    (traf : Traf) : End × St :=
  if known traf.trackId then
    match moov.trak.find? fun t => t.trackId = traf.trackId with
    | none => (.err .unknownTrack, s)
    | some trak =>
      match traf.trun with
      | none => (.err .missingTrun, s)
      | some trun =>
        match traf.tfdt with
        | none => (.err .missingTfdt, s)
        | some dts =>
          match startOf traf trun moofSize headerSize with
          | .error o => (o, s)
          | .ok start => samples moov trak (trexOf moov traf.trackId) traf mdat dts start s trun.entries
  else (.err .unknownTrack, s)

/-- All `traf` boxes. -/
def trafs (known : Nat → Bool) (moov : Moov) (moofSize headerSize : Nat) (mdat : Bytes) :
    St → List Traf → End × St
  | s, [] => (.ok, s)
  | s, t :: ts =>
    match trafStep known moov moofSize headerSize mdat s t with
    | (.ok, s) => trafs known moov moofSize headerSize mdat s ts
    | (o, s) => (o, s)

/-- `Import::extract`, rs/hang/src/cmaf/import.rs:387-514, without the warning about latency, for the
tracks `known` (`self.tracks`).  The `moof` box is taken out of the importer in every case but that of
a missing `moov`. -/
def extract (known : Nat → Bool) (moov : Option Moov) (moof : Option (List Traf)) (moofSize headerSize : Nat)
    (mdat : Bytes) (last : Nat → Option Nat) : End × St :=
  match moov, moof with
  | none, _ => (.err .missingMoov, ⟨[], last⟩)
  | _, none => (.err .missingMoof, ⟨[], last⟩)
  | some moov, some l => trafs known moov moofSize headerSize mdat ⟨[], last⟩ l

end Verif.Hang.Import
