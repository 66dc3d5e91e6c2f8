import Verif.Hang.ImportLemmas

/-!
# C67, C68: importing fragmented MP4
-/

set_option autoImplicit false

namespace Verif.Props.Import

open Verif Verif.Hang.Import

/-! ## C67: the pieces do not matter -/

section C67

variable {Atom Err σ : Type}

/-- Fed in pieces until the first error, the importer ends with the same result, the same bytes kept for
later and the same state as when fed at once; for a decoder that does not change its mind when more
bytes follow. -/
theorem c67_split_partial (P : Params Atom Err σ) (h : Stable P.decode) (x : Bytes × σ) (ds : List Bytes) (hne : ds ≠ []) :
    feed P x ds = parse P x ds.flatten := by
  cases ds with
  | nil => exact (hne rfl).elim
  | cons d ds => exact feed_flatten P h ds d x

/-- Two ways to cut the same bytes agree. -/
theorem c67_cuts_partial (P : Params Atom Err σ) (h : Stable P.decode) (x : Bytes × σ) (ds es : List Bytes)
    (hd : ds ≠ []) (he : es ≠ []) (heq : ds.flatten = es.flatten) : feed P x ds = feed P x es := by
  rw [c67_split_partial P h x ds hd, c67_split_partial P h x es he, heq]

/-- The same for reading from a stream. -/
theorem c67_read_partial (P : Params Atom Err σ) (h : Stable P.decode) (s : σ) (ds es : List Bytes)
    (hd : ds ≠ []) (he : es ≠ []) (heq : ds.flatten = es.flatten) :
    readFrom P ([], s) ds = readFrom P ([], s) es := by
  cases ds with
  | nil => exact (hd rfl).elim
  | cons d ds =>
    cases es with
    | nil => exact (he rfl).elim
    | cons e es => rw [readFrom_flatten P h ds d, readFrom_flatten P h es e, heq]

/-- Reading from a stream succeeds exactly when feeding succeeds and keeps no bytes, with the same state. -/
theorem c67_read_feed (P : Params Atom Err σ) (s : σ) (ds : List Bytes) :
    readFrom P ([], s) ds =
      match feed P ([], s) ds with
      | (some e, _, s') => (some (some e), s')
      | (none, [], s') => (some none, s')
      | (none, _ :: _, s') => (none, s') := by
  suffices H : ∀ (ds : List Bytes) (x : Bytes × σ), readFrom P x ds =
      match feed P x ds with
      | (some e, _, s') => (some (some e), s')
      | (none, [], s') => (some none, s')
      | (none, _ :: _, s') => (none, s') from H ds ([], s)
  intro ds
  induction ds with
  | nil =>
    intro x
    obtain ⟨b, s⟩ := x
    cases b <;> simp [readFrom, feed]
  | cons d ds ih =>
    intro x
    rw [readFrom, feed, parse]
    match parseInner P x.2 (x.1 ++ d) with
    | (some e, r, s') => rfl
    | (none, r, s') => exact ih (r, s')

end C67

/-- A decoder of boxes that begin with their size in one byte. -/
def sized : Params Bytes Unit (List Bytes) where
  decode
    | [] => .more
    | b :: bs => if b.toNat = 0 then .invalid () else if bs.length + 1 < b.toNat then .more
      else .atom ((b :: bs).take b.toNat) b.toNat
  process s a _ := (none, s ++ [a])

theorem sized_stable : Stable sized.decode := by
  constructor
  · intro b a n h
    cases b with
    | nil => cases h
    | cons b bs =>
      simp only [sized] at h
      split at h
      · cases h
      · split at h
        · cases h
        · rename_i h0 h1
          cases h
          refine ⟨by omega, by simp; omega, ?_⟩
          intro c
          simp only [sized, List.cons_append, List.length_append]
          rw [if_neg h0, if_neg (by omega)]
          rw [← List.cons_append, List.take_append_of_le_length (by simp; omega)]
  · intro b e h c
    cases b with
    | nil => cases h
    | cons b bs =>
      simp only [sized] at h
      split at h
      · rename_i h0; simp only [sized, List.cons_append]; rw [if_pos h0]
      · split at h <;> cases h

/-- Boxes cut in the middle. -/
example : feed sized ([], []) [[3, 7], [8, 2], [9, 4, 1]] = (none, [4, 1], [[3, 7, 8], [2, 9]]) := by decide +kernel

/-- Without the assumption on the decoder the pieces matter.  A box of size zero reaches to the end of the
input; a decoder that takes all it has for such a box makes two boxes out of one. -/
theorem c67_open_box : ∃ (P : Params Bytes Unit (List Bytes)) (ds : List Bytes), ds ≠ [] ∧
    feed P ([], []) ds ≠ parse P ([], []) ds.flatten :=
  ⟨{ decode := fun
      | [] => .more
      | b :: bs => if b.toNat = 0 then .atom (b :: bs) (bs.length + 1) else .invalid (),
     process := fun s a _ => (none, s ++ [a]) }, [[0, 1], [0, 2]], by decide, by decide +kernel⟩

/-- A caller who goes on after an error gets what depends on the pieces: the rest of the piece with the
error is thrown away, the following pieces are parsed. -/
theorem c67_after_error : ∃ (d e : Bytes),
    (parse sized ([], []) (d ++ e)).2 = ([], []) ∧
    (parse sized (parse sized ([], []) d).2 e).2 = ([], [[1]]) :=
  ⟨[0], [1], by decide +kernel⟩

/-! ## C68: the samples of a fragment -/

/-- The frames of a fragment are, for each of its tracks in turn, consecutive slices of the data from the
place that the boxes give on, with the sizes that they list. -/
theorem c68_slices_partial (known : Nat → Bool) (moov : Moov) (ts : List Traf) (m h : Nat) (mdat : Bytes)
    (last : Nat → Option Nat) (s : St) (hok : extract known (some moov) (some ts) m h mdat last = (.ok, s)) :
    FramesOfAll moov m h mdat ts s.frames := by
  have h1 : (trafs known moov m h mdat ⟨[], last⟩ ts).1 = .ok := by
    have := congrArg Prod.fst hok; simpa [extract] using this
  obtain ⟨fs, h2, h3⟩ := trafs_ok known moov m h mdat ts ⟨[], last⟩ h1
  have h4 : (trafs known moov m h mdat ⟨[], last⟩ ts).2 = s := by
    have := congrArg Prod.snd hok; simpa [extract] using this
  rw [h4] at h2
  rw [h2]
  simpa using h3

/-- The timestamps of the frames of a fragment, and which frames of video are keyframes, are what the
boxes say. -/
theorem c68_times (known : Nat → Bool) (moov : Moov) (ts : List Traf) (m h : Nat) (mdat : Bytes)
    (last : Nat → Option Nat) (s : St)
    (hok : extract known (some moov) (some ts) m h mdat last = (.ok, s)) :
    TimedAll moov ts s.frames := by
  have h1 : trafs known moov m h mdat ⟨[], last⟩ ts = (.ok, s) := hok
  obtain ⟨fs, h2, h3, -⟩ := trafs_timed known moov m h mdat last ts ⟨[], last⟩ rfl
    (fun pre f post _ hx => by cases pre <;> cases hx) (by rw [h1])
  rw [h1] at h2
  simp only [List.nil_append] at h2
  rw [h2]; exact h3

/-- A frame of an audio track is a keyframe exactly if the track has had no keyframe since the last
keyframe of video, or more than ten seconds have passed since then. -/
theorem c68_audio_keyframes (known : Nat → Bool) (moov : Moov) (ts : List Traf) (m h : Nat) (mdat : Bytes)
    (last : Nat → Option Nat) (s : St)
    (hok : extract known (some moov) (some ts) m h mdat last = (.ok, s)) {pre post : List Frame} {f : Frame}
    (hf : s.frames = pre ++ f :: post) {trak : Trak} (ht : TrakOf moov f.trackId trak)
    (ha : trak.handler = .audio) :
    (f.keyframe = true ↔ ∀ p, lastKeyframe moov last pre f.trackId = some p → 10000000 + p < f.micros) ∧
    s.last = lastKeyframe moov last s.frames := by
  have h1 : trafs known moov m h mdat ⟨[], last⟩ ts = (.ok, s) := hok
  obtain ⟨fs, h2, -, h3, h4⟩ := trafs_timed known moov m h mdat last ts ⟨[], last⟩ rfl
    (fun pre f post _ hx => by cases pre <;> cases hx) (by rw [h1])
  rw [h1] at h2 h3
  simp only [List.nil_append] at h2 h3 h4
  rw [← h2] at h3 h4
  exact ⟨h4 pre f post trak hf ht ha, h3⟩

/-- The slices of one track do not overlap, and together they are the data from the first to the last. -/
theorem c68_track (moov : Moov) (m h : Nat) (mdat : Bytes) (traf : Traf) (fs : List Frame)
    (hf : FramesOf moov m h mdat traf fs) :
    (fs.Pairwise fun f g => f.offset + f.payload.length ≤ g.offset) ∧
    ∃ trun start ns, traf.trun = some trun ∧ Starts traf trun m h start ∧ Sizes moov traf trun.entries ns ∧
      (fs.map (·.payload)).flatten = (mdat.drop start).take ns.sum ∧ fs.length = ns.length := by
  obtain ⟨trun, start, ns, h1, h2, h3, h4, -⟩ := hf
  exact ⟨consecutive_disjoint h4, trun, start, ns, h1, h2, h3, consecutive_flatten h4, consecutive_length h4⟩

/-- However it ends, no frame is read out of bounds, and each is what the data has at its place. -/
theorem c68_bounds (known : Nat → Bool) (moov : Option Moov) (moof : Option (List Traf)) (m h : Nat) (mdat : Bytes)
    (last : Nat → Option Nat) (f : Frame) (hf : f ∈ (extract known moov moof m h mdat last).2.frames) :
    f.offset + f.payload.length ≤ mdat.length ∧ f.payload = (mdat.drop f.offset).take f.payload.length := by
  have key : f.offset + f.payload.length ≤ mdat.length ∧
      ∀ i, i < f.payload.length → f.payload[i]? = mdat[f.offset + i]? := by
    cases moov with
    | none => cases moof <;> cases hf
    | some moov =>
      cases moof with
      | none => cases hf
      | some ts => exact trafs_bounds known moov m h mdat ts ⟨[], last⟩ (by simp) f hf
  refine ⟨key.1, ?_⟩
  apply List.ext_getElem?
  intro i
  by_cases hi : i < f.payload.length
  · rw [key.2 i hi, List.getElem?_take_of_lt hi, List.getElem?_drop]
  · rw [List.getElem?_eq_none (by omega), List.getElem?_eq_none]
    rw [List.length_take]; omega

/-- A fragment whose sizes exceed its data is not accepted. -/
theorem c68_rejected (known : Nat → Bool) (moov : Moov) (ts : List Traf) (m h : Nat) (mdat : Bytes)
    (last : Nat → Option Nat) (traf : Traf) (ht : traf ∈ ts) (trun : Trun) (hr : traf.trun = some trun)
    (start : Nat) (hst : Starts traf trun m h start) (ns : List Nat) (hns : Sizes moov traf trun.entries ns)
    (hne : trun.entries ≠ []) (hbig : mdat.length < start + ns.sum) :
    (extract known (some moov) (some ts) m h mdat last).1 ≠ .ok := by
  intro hok
  have hall := c68_slices_partial known moov ts m h mdat last _ (Prod.ext hok rfl)
  have : ∀ (ts : List Traf) (fs : List Frame), traf ∈ ts → FramesOfAll moov m h mdat ts fs →
      ∃ gs, FramesOf moov m h mdat traf gs := by
    intro ts
    induction ts with
    | nil => intro fs h; cases h
    | cons t ts ih =>
      intro fs hm ⟨a, b, _, h1, h2⟩
      rcases List.mem_cons.1 hm with rfl | hm
      · exact ⟨a, h1⟩
      · exact ih b hm h2
  obtain ⟨gs, trun', start', ns', g1, g2, g3, g4, -⟩ := this ts _ ht hall
  rw [hr] at g1; cases g1
  have hns' := sizes_unique hns g3
  subst hns'
  have hs : start = start' := by
    unfold Starts at hst g2
    cases hd : trun.dataOffset with
    | none => rw [hd] at hst g2; simp only at hst g2; omega
    | some d => rw [hd] at hst g2; simp only at hst g2; omega
  subst hs
  have hnn : ns ≠ [] := by
    intro h0; subst h0
    cases he : trun.entries with
    | nil => exact hne he
    | cons e es => rw [he] at hns; exact hns.elim
  have := consecutive_end g4 hnn
  omega

/-- With sensible times, offsets and timescales a `traf` box does not make the importer panic. -/
theorem c68_no_panic_partial (known : Nat → Bool) (moov : Moov) (trak : Trak) (m h : Nat) (mdat : Bytes)
    (last : Nat → Option Nat) (traf : Traf) (hlen : mdat.length < 2 ^ 63)
    (hk : (moov.trak.filter fun t => t.trackId = traf.trackId).head? = some trak)
    (ht : Tame moov trak m h last traf) (f : Fault) :
    (extract known (some moov) (some [traf]) m h mdat last).1 ≠ .panic f := by
  have := trafStep_tame known moov trak m h mdat ⟨[], last⟩ traf hlen hk ht
  simp only [extract, trafs]
  split
  · simp
  · rename_i o s' _ hs
    have h1 := this f
    rw [hs] at h1
    exact h1

/-! Examples and witnesses -/

def video : Moov := ⟨[⟨1, .video, 1000⟩, ⟨2, .audio, 1000⟩], some [⟨1, 40, 0, 0⟩]⟩

def both : Nat → Bool := fun t => t = 1 || t = 2

def entry (n : Nat) : Entry := ⟨none, none, some n, none⟩

def none' : Nat → Option Nat := fun _ => none

/-- Two tracks in a fragment of which the `moof` box has 100 bytes and the header of the `mdat` box 8. -/
example : (extract both (some video)
      (some [⟨1, some 0x2000000, none, none, none, some 0, some ⟨some 108, [entry 2, entry 1]⟩⟩,
        ⟨2, none, some 20, none, none, some 0, some ⟨some 111, [entry 2]⟩⟩]) 100 8 [1, 2, 3, 4, 5] none').2.frames =
    [⟨1, 0, true, 0, [1, 2]⟩, ⟨1, 40000, true, 2, [3]⟩, ⟨2, 0, true, 3, [4, 5]⟩] := by decide +kernel

/-- Audio at 0, 9.99 and 10.01 seconds; then video with a keyframe and audio again. -/
example : (extract both (some video)
      (some [⟨2, none, none, none, none, some 0, some ⟨some 108, [⟨none, some 9990, some 1, none⟩,
          ⟨none, some 20, some 1, none⟩, entry 1]⟩⟩,
        ⟨1, some 0x2000000, none, none, none, some 0, some ⟨some 111, [entry 1, ⟨some 0x2010000, none, some 1, some 7⟩]⟩⟩,
        ⟨2, none, some 20, none, none, some 10030, some ⟨some 113, [entry 1]⟩⟩]) 100 8 [1, 2, 3, 4, 5, 6] none').2.frames.map
        (fun f => (f.trackId, f.micros, f.keyframe)) =
    [(2, 0, true), (2, 9990000, false), (2, 10010000, true), (1, 0, true), (1, 47000, false),
      (2, 10030000, true)] := by decide +kernel

/-- The hypotheses of `c68_no_panic_partial` can be met. -/
example : Tame video ⟨1, .video, 1000⟩ 100 8 none'
    ⟨1, some 0x2000000, none, none, none, some 0, some ⟨some 108, [entry 2, entry 1]⟩⟩ where
  timescale := by decide
  base := by decide
  offset := by intro trun d h1 h2; cases h1; cases h2; decide
  size := by
    intro trun e h1 h2 n hn
    cases h1
    rcases List.mem_cons.1 h2 with rfl | h2
    · simp only [Listed, entry] at hn; omega
    · rcases List.mem_cons.1 h2 with rfl | h2
      · simp only [Listed, entry] at hn; omega
      · cases h2
  time := by intro trun dts h1 h2; cases h1; cases h2; decide +kernel
  cts := by
    intro trun e h1 h2
    cases h1
    rcases List.mem_cons.1 h2 with rfl | h2
    · decide
    · rcases List.mem_cons.1 h2 with rfl | h2
      · decide
      · cases h2
  forward := by intro dts prev _ h; cases h

/-- Slices of different tracks may overlap: without offsets in the boxes both tracks start at the beginning
of the data, although the second should follow the first. -/
theorem c68_overlap : ∃ (ts : List Traf) (mdat : Bytes),
    (extract both (some video) (some ts) 100 8 mdat none').1 = .ok ∧
    (extract both (some video) (some ts) 100 8 mdat none').2.frames =
      [⟨1, 0, false, 0, [1, 2]⟩, ⟨2, 0, true, 0, [1, 2]⟩] :=
  ⟨[⟨1, none, none, none, none, some 0, some ⟨none, [entry 2]⟩⟩,
    ⟨2, none, none, none, none, some 0, some ⟨none, [entry 2]⟩⟩], [1, 2, 3, 4], by decide +kernel⟩

/-- The frames before the one that does not fit are written before the fragment is rejected. -/
theorem c68_written_before : ∃ (ts : List Traf) (mdat : Bytes),
    (extract both (some video) (some ts) 100 8 mdat none').1 = .err .invalidOffset ∧
    (extract both (some video) (some ts) 100 8 mdat none').2.frames = [⟨1, 0, false, 0, [1, 2]⟩] :=
  ⟨[⟨1, none, none, none, none, some 0, some ⟨some 108, [entry 2, entry 3]⟩⟩], [1, 2, 3, 4], by decide +kernel⟩

/-- An offset into the header of the `mdat` box is not rejected but panics. -/
theorem c68_header_panics : ∃ (ts : List Traf) (mdat : Bytes),
    (extract both (some video) (some ts) 100 8 mdat none').1 = .panic .overflow :=
  ⟨[⟨1, none, none, none, none, some 0, some ⟨some 107, [entry 2]⟩⟩], [1, 2, 3, 4], by decide +kernel⟩

/-- So does a track with timescale zero. -/
theorem c68_timescale_panics : ∃ (moov : Moov) (ts : List Traf) (mdat : Bytes),
    (extract both (some moov) (some ts) 100 8 mdat none').1 = .panic .divideByZero :=
  ⟨⟨[⟨1, .video, 0⟩], none⟩, [⟨1, none, none, none, none, some 0, some ⟨some 108, [entry 2]⟩⟩], [1, 2], by decide +kernel⟩

/-- So does a sample shown before time zero. -/
theorem c68_negative_panics : ∃ (ts : List Traf) (mdat : Bytes),
    (extract both (some video) (some ts) 100 8 mdat none').1 = .panic .overflow :=
  ⟨[⟨1, none, none, none, none, some 0, some ⟨some 108, [⟨none, none, some 2, some (-1)⟩]⟩⟩], [1, 2], by decide +kernel⟩

/-- So does audio that goes back in time, for instance in a file that starts again. -/
theorem c68_backwards_panics : ∃ (ts : List Traf) (mdat : Bytes),
    (extract both (some video) (some ts) 100 8 mdat fun t => if t = 2 then some 1000000 else none).1 =
      .panic .negativeDuration :=
  ⟨[⟨2, none, none, none, none, some 500, some ⟨some 108, [entry 2]⟩⟩], [1, 2], by decide +kernel⟩

end Verif.Props.Import
