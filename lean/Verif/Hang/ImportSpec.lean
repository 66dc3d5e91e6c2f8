import Verif.Hang.Import

/-!
# Vocabulary for the claims about the importer
-/

set_option autoImplicit false

namespace Verif.Hang.Import

open Verif

/-- What is expected of the decoder of boxes: what it says about some bytes it also says when more bytes
follow, unless it asked for more, and a box takes at least one byte and is there completely. -/
structure Stable {Atom Err : Type} (decode : Bytes → Decoded Atom Err) : Prop where
  atom : ∀ (b : Bytes) (a : Atom) (n : Nat), decode b = .atom a n →
    0 < n ∧ n ≤ b.length ∧ ∀ c, decode (b ++ c) = .atom a n
  invalid : ∀ (b : Bytes) (e : Err), decode b = .invalid e → ∀ c, decode (b ++ c) = .invalid e

/-- The frames are consecutive slices of the data from a place on, with the given sizes. -/
def Consecutive (mdat : Bytes) : Nat → List Nat → List Frame → Prop
  | _, [], [] => True
  | o, n :: ns, f :: fs =>
    f.offset = o ∧ f.payload.length = n ∧ o + n ≤ mdat.length ∧
      (∀ i, i < n → f.payload[i]? = mdat[o + i]?) ∧ Consecutive mdat (o + n) ns fs
  | _, _, _ => False

/-- The default for the sizes of a track in the `moov` box, or zero. -/
def defaultSize (moov : Moov) (trackId : Nat) : Nat :=
  (((moov.mvex.getD []).filter fun t => t.trackId = trackId).head?.map (·.size)).getD 0

/-- The size of a sample as the boxes list it: its own, else that of the `traf` box, else the default. -/
def Listed (moov : Moov) (traf : Traf) (e : Entry) (n : Nat) : Prop :=
  match e.size, traf.size with
  | some m, _ => n = m
  | none, some m => n = m
  | none, none => n = defaultSize moov traf.trackId

/-- The sizes of all samples. -/
def Sizes (moov : Moov) (traf : Traf) : List Entry → List Nat → Prop
  | [], [] => True
  | e :: es, n :: ns => Listed moov traf e n ∧ Sizes moov traf es ns
  | _, _ => False

/-- Where the samples of a `traf` box start in the data: the offset counts from the start of the `moof`
box, which is followed by the header of the `mdat` box and the data. -/
def Starts (traf : Traf) (trun : Trun) (moofSize headerSize start : Nat) : Prop :=
  match trun.dataOffset with
  | none => start = traf.baseDataOffset.getD 0
  | some d => (moofSize : Int) + headerSize + start = traf.baseDataOffset.getD 0 + d ∧
      (moofSize : Int) + headerSize ≤ d

/-- The frames of one `traf` box. -/
def FramesOf (moov : Moov) (moofSize headerSize : Nat) (mdat : Bytes) (traf : Traf) (fs : List Frame) : Prop :=
  ∃ trun start ns, traf.trun = some trun ∧ Starts traf trun moofSize headerSize start ∧
    Sizes moov traf trun.entries ns ∧ Consecutive mdat start ns fs ∧ ∀ f ∈ fs, f.trackId = traf.trackId

/-- The frames of several `traf` boxes. -/
def FramesOfAll (moov : Moov) (moofSize headerSize : Nat) (mdat : Bytes) : List Traf → List Frame → Prop
  | [], fs => fs = []
  | t :: ts, fs => ∃ a b, fs = a ++ b ∧ FramesOf moov moofSize headerSize mdat t a ∧
      FramesOfAll moov moofSize headerSize mdat ts b

/-- A default of a track in the `moov` box, or zero. -/
def fallback (moov : Moov) (trackId : Nat) (field : Trex → Nat) : Nat :=
  (((moov.mvex.getD []).filter fun t => t.trackId = trackId).head?.map field).getD 0

/-- What the boxes give for a sample: its own value, else that of the `traf` box, else the default. -/
def Given (own shared : Option Nat) (default n : Nat) : Prop :=
  match own, shared with
  | some m, _ => n = m
  | none, some m => n = m
  | none, none => n = default

/-- The times and video keyframes of the frames of a `traf` box whose first sample is decoded at a
given time: the timestamp is the decoding time plus the composition offset, in microseconds and
rounded down, unless the decoding time is so large that the sum wraps around; the next sample is decoded when this one's duration is over; a sample of a video track
is a keyframe if it depends on no other and is a sync sample. -/
def Timed (moov : Moov) (trak : Trak) (traf : Traf) : Nat → List Entry → List Frame → Prop
  | _, [], [] => True
  | dts, e :: es, f :: fs =>
    (dts < 2 ^ 63 → ∃ t : Nat, (t : Int) = dts + e.cts.getD 0 ∧ f.micros * trak.timescale ≤ 1000000 * t ∧
      1000000 * t < (f.micros + 1) * trak.timescale) ∧
    (∃ flags, Given e.flags traf.flags (fallback moov traf.trackId (·.flags)) flags ∧
      (trak.handler = .video → (f.keyframe = true ↔ flags / 2 ^ 24 % 4 = 2 ∧ flags / 2 ^ 16 % 2 = 0))) ∧
    ∃ d, Given e.duration traf.duration (fallback moov traf.trackId (·.duration)) d ∧
      Timed moov trak traf (dts + d) es fs
  | _, _, _ => False

/-- The track of an identifier. -/
def TrakOf (moov : Moov) (trackId : Nat) (trak : Trak) : Prop :=
  (moov.trak.filter fun t => t.trackId = trackId).head? = some trak

/-- The times of the frames of several `traf` boxes. -/
def TimedAll (moov : Moov) : List Traf → List Frame → Prop
  | [], fs => fs = []
  | t :: ts, fs => ∃ a b trak trun dts, fs = a ++ b ∧ TrakOf moov t.trackId trak ∧ t.trun = some trun ∧
      t.tfdt = some dts ∧ Timed moov trak t dts trun.entries a ∧ TimedAll moov ts b

/-- The time of the last keyframe of a track after some frames; for an audio track, a keyframe of a
video track makes it forgotten. -/
def lastKeyframe (moov : Moov) (last : Nat → Option Nat) (fs : List Frame) : Nat → Option Nat :=
  fs.foldl (fun l f t =>
    if f.keyframe then
      if t = f.trackId then some f.micros
      else if ((moov.trak.filter fun k => k.trackId = f.trackId).head?.map (·.handler)) = some .video ∧
          (moov.trak.any fun k => k.handler = .audio && k.trackId = t) then none
      else l t
    else l t) last

/-- A `traf` box with which nothing overflows: times are not too large and do not run backwards. -/
structure Tame (moov : Moov) (trak : Trak) (moofSize headerSize : Nat) (last : Nat → Option Nat) (traf : Traf) :
    Prop where
  timescale : 0 < trak.timescale
  base : traf.baseDataOffset.getD 0 < 2 ^ 62
  offset : ∀ trun d, traf.trun = some trun → trun.dataOffset = some d →
    (d < moofSize ∨ (moofSize : Int) + headerSize ≤ d) ∧ d < 2 ^ 31
  size : ∀ trun e, traf.trun = some trun → e ∈ trun.entries → ∀ n, Listed moov traf e n → n < 2 ^ 32
  time : ∀ trun dts, traf.trun = some trun → traf.tfdt = some dts →
    dts + (trun.entries.map fun e => e.duration.getD (traf.duration.getD (trexOf moov traf.trackId).duration)).sum
      < 2 ^ 41
  cts : ∀ trun e, traf.trun = some trun → e ∈ trun.entries →
    0 ≤ e.cts.getD 0 ∧ e.cts.getD 0 < 2 ^ 31 ∧ (trak.handler = .audio → e.cts.getD 0 = 0)
  forward : ∀ dts prev, traf.tfdt = some dts → trak.handler = .audio → last traf.trackId = some prev →
    prev ≤ 1000000 * dts / trak.timescale

end Verif.Hang.Import
