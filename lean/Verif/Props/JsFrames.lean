import Verif.Js.FramesLemmas
import Verif.Props.JsTrack
import Verif.Props.Media

/-!
# Properties C99 and C100: media frames and media tracks in the browser
-/

set_option autoImplicit false

namespace Verif.Props.JsFrames

open Verif Verif.Coding Verif.Js.Container Verif.Js.Frames
open Verif.Js (writeU53_ok)
open Verif.Js.Track (Pick)

/-! ## C99: frames -/

/-- **C99.**  A frame with a timestamp below 2^53 microseconds is read back as written. -/
theorem c99_roundtrip_partial (source : Bytes) (ts : Nat) (h : ts < 2 ^ 53) :
    ∃ b, encodeFrame source ts = .ok b ∧ decodeFrame b = .ok (ts, source) := by
  have hm : ts ≤ MAX_U53 := by unfold MAX_U53; omega
  refine ⟨_, encodeFrame_eq source ts (by omega), ?_⟩
  unfold decodeFrame
  rw [getVint53_eq, header_nat ts hm]
  obtain ⟨-, hw⟩ := writeU53_ok ts hm
  obtain ⟨bs, h1, h2⟩ := Verif.Props.Coding.c01_varint_roundtrip ts (by omega)
  rw [h1] at hw
  injection hw with hw
  rw [← hw]
  have := h2 source
  unfold decodeU64 at this
  rw [this]
  dsimp only
  rw [toNumber_small ts h]

/-- What the browser writes is what the native library writes for the same frame, and it is read
there as written. -/
theorem c99_to_native (source : Bytes) (ts : Nat) (h : ts < 2 ^ 53) (key : Bool) :
    ∃ b, encodeFrame source ts = .ok b ∧ Hang.Media.encode ⟨ts * 1000, key, source⟩ = .ok b ∧
      Hang.Media.Spec.content b = some (ts, source) := by
  have hm : ts ≤ MAX_U53 := by unfold MAX_U53; omega
  refine ⟨_, encodeFrame_eq source ts (by omega), ?_⟩
  have hmic : (Hang.Media.Input.mk (ts * 1000) key source).micros = ts := by
    unfold Hang.Media.Input.micros
    dsimp only
    omega
  have he : Hang.Media.encode ⟨ts * 1000, key, source⟩ = .ok (header ts ++ source) := by
    unfold Hang.Media.encode
    rw [hmic, (writeU53_ok ts hm).2, header_nat ts hm]
  refine ⟨he, ?_⟩
  obtain ⟨b, h1, h2⟩ := Verif.Props.Media.encode_content
    (f := ⟨ts * 1000, key, source⟩) (show ts * 1000 / 1000 < 2 ^ 62 by omega)
  rw [he] at h1
  injection h1 with h1
  rw [h1, h2]
  simp

/-- The browser reads what a native peer wrote: the payload, and the nearest number to the timestamp
that has 53 significant bits. -/
theorem c99_from_native (f : Hang.Media.Input) (hf : Hang.Media.Spec.Writable f) :
    ∃ b ts, Hang.Media.encode f = .ok b ∧ decodeFrame b = .ok (ts, f.payload) ∧ Double ts ∧
      (∀ d, Double d → dist ts (f.nanos / 1000) ≤ dist d (f.nanos / 1000)) ∧
      (f.nanos / 1000 < 2 ^ 53 → ts = f.nanos / 1000) := by
  obtain ⟨b, h1, h2⟩ := Verif.Props.Media.encode_content hf
  refine ⟨b, toNumber (f.nanos / 1000), h1, ?_, toNumber_double _, toNumber_nearest _,
    toNumber_small _⟩
  unfold decodeFrame
  rw [getVint53_eq]
  unfold Hang.Media.Spec.content decodeU64 at h2
  cases hd : decodeVarInt b with
  | error e => rw [hd] at h2; cases h2
  | ok x =>
    rw [hd] at h2
    obtain ⟨v, rest⟩ := x
    simp only [Option.some.injEq, Prod.mk.injEq] at h2
    dsimp only
    rw [h2.1, h2.2]

/-- Browsers and native peers agree on which bytes are a frame, and on the payload. -/
theorem c99_agree (b : Bytes) : match decodeFrame b with
    | .ok (ts, data) => ∃ micros, Hang.Media.Spec.content b = some (micros, data) ∧ ts = toNumber micros
    | .error _ => Hang.Media.Spec.content b = none := by
  unfold decodeFrame Hang.Media.Spec.content decodeU64
  rw [getVint53_eq]
  cases decodeVarInt b with
  | error e => rfl
  | ok x => exact ⟨_, rfl, rfl⟩

/-- A timestamp from 2^53 on is refused. -/
theorem c99_refused (source : Bytes) (ts : Int) (h : 2 ^ 53 ≤ ts) :
    encodeFrame source ts = .error .overflow :=
  encodeFrame_late source ts (by unfold MAX_U53; omega)

/-- **Violation.**  A negative timestamp is not refused: one byte is written for it, and no reader
gets the frame back. -/
theorem c99_negative (source : Bytes) (ts : Int) (h : ts < 0) :
    ∃ b, encodeFrame source ts = .ok (b :: source) ∧
      ∀ t data, decodeFrame (b :: source) = .ok (t, data) → (t : Int) ≠ ts := by
  refine ⟨UInt8.ofNat (ts % 256).toNat, ?_, fun t data _ => by omega⟩
  rw [encodeFrame_eq source ts (by unfold MAX_U53; omega)]
  unfold header
  rw [if_pos (by unfold MAX_U6; omega)]
  rfl

/-- For example -1: seven bytes of the payload are lost in the timestamp, or nothing can be read. -/
theorem c99_swallowed (source : Bytes) : ∃ b, encodeFrame source (-1) = .ok b ∧
    ∀ t data, decodeFrame b = .ok (t, data) → data = source.drop 7 ∧ 7 ≤ source.length := by
  refine ⟨_, encodeFrame_eq source (-1) (by decide), fun t data hd => ?_⟩
  rw [show header (-1) = [255] by decide] at hd
  unfold decodeFrame at hd
  rw [getVint53_eq, List.cons_append, List.nil_append, decodeVarInt_cons] at hd
  rw [show tagLen 255 = 8 by decide] at hd
  by_cases hl : source.length < 8 - 1
  · rw [if_pos hl] at hd
    cases hd
  · rw [if_neg hl] at hd
    simp only [Except.ok.injEq, Prod.mk.injEq] at hd
    exact ⟨hd.2.symm, by omega⟩

/-- **Violation.**  A timestamp that the native library writes is changed by the browser. -/
theorem c99_rounded : ∃ (f : Hang.Media.Input) (b : Bytes), Hang.Media.Spec.Writable f ∧
    Hang.Media.encode f = .ok b ∧ f.nanos / 1000 = 2 ^ 53 + 1 ∧ decodeFrame b = .ok (2 ^ 53, f.payload) :=
  ⟨⟨(2 ^ 53 + 1) * 1000, true, [7]⟩, [0xc0, 0x20, 0, 0, 0, 0, 0, 1, 7], by unfold Hang.Media.Spec.Writable; decide +kernel,
    by decide +kernel, by decide +kernel, by decide +kernel⟩

/-! Cases. -/

example : encodeFrame [1, 2] 70 = .ok [0x40, 70, 1, 2] := by decide +kernel

example : encodeFrame [1, 2] (2 ^ 53 - 1) = .ok [0xc0, 0x1f, 0xff, 0xff, 0xff, 0xff, 0xff, 0xff, 1, 2] := by
  decide +kernel

example : decodeFrame [0xc0, 0x20, 0, 0, 0, 0, 0, 3, 7] = .ok (2 ^ 53 + 4, [7]) := by decide +kernel

example : decodeFrame [] = .error .range ∧ decodeFrame [0x80, 1, 2] = .error .range := by decide +kernel

example : encodeFrame [1, 2, 3, 4, 5, 6, 7, 8] (-1) = .ok [255, 1, 2, 3, 4, 5, 6, 7, 8] ∧
    decodeFrame [255, 1, 2, 3, 4, 5, 6, 7, 8] = .ok (0x3f01020304050600, [8]) := by decide +kernel

/-! ## C100: tracks -/

/-- **C100.**  The frames are divided into groups, a keyframe being the first of its group; and a
reader is given, of every group in order, the first frames, each once; of a frame that is given, the
payload and the timestamp are those that were encoded, and so is the mark of a keyframe.  (Missing in
the conditions: negative timestamps and keyframes that are refused.) -/
theorem c100_read_partial {tr : Trace} {s : State} (h : machine.Reach tr s) (c : Nat)
    (hneg : ∀ f ∈ encoded tr, 0 ≤ f.timestamp) (hr : ¬ Refused tr) :
    ∃ gs ps : List (List Input), Groups (encoded tr) gs ∧
      (∀ g ∈ gs, ∃ f, g.head? = some f ∧ f.keyframe = true) ∧
      ps.length = gs.length ∧
      (∀ (i : Nat) p g, ps[i]? = some p → gs[i]? = some g → p <+: g) ∧
      results tr c = ps.flatten.map fun f => some (back f) := by
  obtain ⟨ttr, gs, w⟩ := winv_reach h
  have hheads := w.heads hr
  obtain ⟨n, hn⟩ := Verif.Props.JsTrack.c94_concat w.track.reach c
  refine ⟨gs, gs.mapIdx fun i g => g.take (n i), w.groups, hheads, by simp, ?_, ?_⟩
  · intro i p g hp hg
    rw [List.getElem?_mapIdx, hg] at hp
    simp only [Option.map_some, Option.some.injEq] at hp
    rw [← hp]
    exact List.take_prefix _ _
  · rw [w.results c, hn, w.track.acc, List.map_flatMap, List.map_flatten]
    have hfl : ∀ F : Nat → List (Option Frame), (List.range gs.length).flatMap F =
        ((List.range gs.length).map F).flatten := fun F => List.flatMap_def
    rw [hfl]
    congr 1
    apply List.ext_getElem?
    intro i
    simp only [List.getElem?_map, List.getElem?_mapIdx]
    by_cases hi : i < gs.length
    · rw [List.getElem?_range hi, List.getElem?_eq_getElem hi]
      simp only [Option.map_some, Option.some.injEq]
      rw [w.track.content i, List.getElem?_eq_getElem hi]
      simp only [Option.getD_some]
      apply List.ext_getElem?
      intro k
      simp only [List.getElem?_map, List.getElem?_mapIdx, ← List.map_take]
      cases hk : (gs[i].take (n i))[k]? with
      | none => simp
      | some f =>
        simp only [Option.map_some, Option.some.injEq]
        have hkg : gs[i][k]? = some f := by
          rw [List.getElem?_take] at hk
          split at hk
          · exact hk
          · cases hk
        have hfe : f ∈ encoded tr := by
          rw [← w.groups.all, List.mem_flatten]
          exact ⟨_, List.getElem_mem hi, List.mem_of_getElem? hkg⟩
        have hts := w.range f hfe
        have h0 := hneg f hfe
        obtain ⟨b, e1, e2⟩ := c99_roundtrip_partial f.data f.timestamp.toNat (by
          unfold MAX_U53 at hts
          omega)
        rw [show ((f.timestamp.toNat : Nat) : Int) = f.timestamp by omega] at e1
        rw [encodeFrame_eq _ _ hts] at e1
        injection e1 with e1
        unfold decoded bytes
        rw [e1, e2]
        dsimp only
        unfold back
        congr 1
        congr 1
        obtain ⟨f0, hf0, hk0⟩ := hheads _ (List.getElem_mem hi)
        cases k with
        | zero =>
          rw [List.head?_eq_getElem?, hkg] at hf0
          injection hf0 with hf0
          rw [hf0, hk0]
          rfl
        | succ k =>
          have : f ∈ gs[i].tail := by
            have : gs[i].tail[k]? = some f := by
              rw [List.getElem?_tail]
              exact hkg
            exact List.mem_of_getElem? this
          rw [w.groups.tail _ (List.getElem_mem hi) f this]
          rfl
    · rw [List.getElem?_eq_none (by simp; omega), List.getElem?_eq_none (by omega)]
      rfl

/-- The groups of the track have these frames; a group ends when the next one begins, the last one with
`close`, and so does the track. -/
theorem c100_track {tr : Trace} {s : State} (h : machine.Reach tr s) :
    ∃ gs : List (List Input), Groups (encoded tr) gs ∧
      (¬ Refused tr → ∀ g ∈ gs, ∃ f, g.head? = some f ∧ f.keyframe = true) ∧
      s.track.groups.length = gs.length ∧
      (∀ (i : Nat) x g, s.track.groups[i]? = some x → gs[i]? = some g → x.id = i ∧
        x.frames = g.map encodedBytes ∧
        (i + 1 = gs.length ∧ ¬ Closed tr → x.status = .live) ∧
        (i + 1 < gs.length ∨ Closed tr → x.status = .closed)) ∧
      (s.track.status = .live ↔ ¬ Closed tr) := by
  obtain ⟨ttr, gs, w⟩ := winv_reach h
  have i := (Js.Track.inv_reach w.track.reach).track
  have hid := i.ids
  rw [w.track.acc] at hid
  have hlen : s.track.groups.length = gs.length := by
    have := congrArg List.length hid
    simpa [Js.Track.ids] using this
  refine ⟨gs, w.groups, w.heads, hlen, fun k x g hx hg => ?_,
    ⟨fun hl hc => (w.shut hc).1 hl, fun hc => (live_reach h hc).1⟩⟩
  have hk : k < gs.length := (List.getElem?_eq_some_iff.mp hg).1
  have hmem := List.mem_of_getElem? hx
  have hxi : x.id = k := by
    have := congrArg (·[k]?) hid
    unfold Js.Track.ids at this
    rw [List.getElem?_map, hx, List.getElem?_range hk] at this
    exact Option.some.inj this
  have hgr := w.group
  rw [if_neg (fun h => by rw [h] at hk; cases hk)] at hgr
  have hst := stat_reach h x hmem
  refine ⟨hxi, ?_, fun ⟨h1, h2⟩ => ?_, fun h1 => ?_⟩
  · rw [i.content x hmem, hxi, w.track.content k, hg, Option.getD_some]
    apply List.map_congr_left
    intro f hf
    have := w.range f (by
      rw [← w.groups.all, List.mem_flatten]
      exact ⟨g, List.mem_of_getElem? hg, hf⟩)
    unfold bytes encodedBytes
    rw [encodeFrame_eq _ _ this]
  · obtain ⟨y, hy, hyl⟩ := (live_reach h h2).2 (gs.length - 1) hgr
    obtain ⟨hy1, hy2⟩ := Js.Track.find_mem hy
    rw [unique_ids w.track.reach x hmem y hy1 (by rw [hy2, hxi]; omega)]
    exact hyl
  · cases hs : x.status with
    | live =>
      exfalso
      rcases h1 with h1 | h1
      · have := hst.2 hs
        rw [hgr, hxi] at this
        injection this with this
        omega
      · exact (w.shut h1).2 x hmem (hst.2 hs) hs
    | closed => rfl
    | aborted => exact absurd hs hst.1

/-- The first frame must be a keyframe, else the call throws and nothing changes; and a frame is
refused for its timestamp only if that is too large. -/
theorem c100_first {tr : Trace} {s : State} (h : machine.Reach tr s) (f : Input) :
    ((step s (.encode f)).1 = .noKeyframe → f.keyframe = false ∧ encoded tr = [] ∧
      (step s (.encode f)).2 = s) ∧
    ((step s (.encode f)).1 = .refused → 2 ^ 53 ≤ f.timestamp) := by
  obtain ⟨ttr, gs, w⟩ := winv_reach h
  have hw : ∀ s' g, (write s' g f).1 ≠ .noKeyframe ∧
      ((write s' g f).1 = .refused → 2 ^ 53 ≤ f.timestamp) := by
    intro s' g
    rcases write_cases s' g f with ⟨hn, e⟩ | ⟨-, -, e⟩ | ⟨-, -, e⟩ <;> rw [e]
    · exact ⟨by simp, fun _ => by unfold MAX_U53 at hn; omega⟩
    · exact ⟨by simp, by simp⟩
    · exact ⟨by simp, by simp⟩
  rw [step]
  unfold encode
  split
  · split
    · exact ⟨fun h => absurd h (hw _ _).1, (hw _ _).2⟩
    · exact ⟨by simp, by simp⟩
  · next hk =>
    split
    · next hg =>
      refine ⟨fun _ => ⟨by simpa using hk, ?_, rfl⟩, by simp⟩
      have := w.group
      rw [hg] at this
      by_cases hgs : gs = []
      · rw [← w.groups.all, hgs]
        rfl
      · rw [if_neg hgs] at this
        cases this
    · exact ⟨fun h => absurd h (hw _ _).1, (hw _ _).2⟩

/-- After `close` nothing is encoded any more. -/
theorem c100_closed {tr : Trace} {s : State} (h : machine.Reach tr s) (hc : Closed tr) (f : Input) :
    (step s (.encode f)).1 ≠ .ok := by
  obtain ⟨ttr, gs, w⟩ := winv_reach h
  obtain ⟨h1, h2⟩ := w.shut hc
  rw [step]
  unfold encode
  split
  · have := append_closed (t := closeGroup s) (by rw [closeGroup_status]; exact h1)
    rw [show Js.Track.step (closeGroup s) .append = (.threw, (Js.Track.step (closeGroup s) .append).2)
      from Prod.ext this.1 rfl]
    simp
  · split
    · simp
    · next g hg =>
      rcases write_cases s g f with ⟨-, e⟩ | ⟨-, ho, e⟩ | ⟨-, -, e⟩ <;> rw [e]
      · simp
      · exfalso
        rcases onGroup_out s.track g fun x => { x with frames := x.frames ++ [bytes f] }
          with ⟨-, x, k1, k2, k3⟩ | ⟨h, -⟩
        · exact h2 x k1 (by rw [hg, k2]) k3
        · exact h ho
      · simp

/-- While the producer is not closed, a keyframe with a timestamp in range is encoded; and so is any
frame once there was one. -/
theorem c100_accepts {tr : Trace} {s : State} (h : machine.Reach tr s) (hc : ¬ Closed tr) (f : Input)
    (hts : f.timestamp < 2 ^ 53) (hf : f.keyframe = true ∨ encoded tr ≠ []) :
    (step s (.encode f)).1 = .ok := by
  obtain ⟨ttr, gs, w⟩ := winv_reach h
  have hm : f.timestamp ≤ MAX_U53 := by unfold MAX_U53; omega
  refine (encode_live w (live_reach h hc) f).1 hm (hf.imp_right fun hne hgs => hne ?_)
  rw [← w.groups.all, hgs]
  rfl

/-- **Violation.**  A keyframe that is refused for its timestamp leaves an empty group; the next frame
is then accepted without a keyframe, and readers take it for one. -/
theorem c100_refused : ∃ (ops : List Op) (f : Input) (p : Frame), f.keyframe = false ∧
    encoded (machine.run ops).1 = [f] ∧ results (machine.run ops).1 0 = [some p] ∧ p.keyframe = true :=
  ⟨[.encode ⟨[1], 2 ^ 53, true⟩, .encode ⟨[2], 1, false⟩, .consume, .decode 0 .group, .decode 0 .frame],
    ⟨[2], 1, false⟩, ⟨[2], 1, true⟩, by decide +kernel⟩

/-- **Violation.**  A frame with a negative timestamp is accepted, and a reader gets another frame. -/
theorem c100_negative : ∃ (ops : List Op) (f : Input) (p : Frame),
    encoded (machine.run ops).1 = [f] ∧ results (machine.run ops).1 0 = [some p] ∧ p.data ≠ f.data :=
  ⟨[.encode ⟨[1, 2, 3, 4, 5, 6, 7, 8], -1, true⟩, .consume, .decode 0 .group, .decode 0 .frame],
    ⟨[1, 2, 3, 4, 5, 6, 7, 8], -1, true⟩, ⟨[8], 0x3f01020304050600, true⟩, by decide +kernel⟩

/-! Cases. -/

/-- Two groups; the reader falls behind and skips the rest of the first one. -/
example : let tr := (machine.run [.encode ⟨[1], 0, true⟩, .consume, .encode ⟨[2], 40, false⟩, .decode 0 .group,
      .decode 0 .frame, .encode ⟨[3], 80, true⟩, .run 0, .decode 0 .group, .decode 0 .frame]).1
    encoded tr = [⟨[1], 0, true⟩, ⟨[2], 40, false⟩, ⟨[3], 80, true⟩] ∧
    results tr 0 = [some ⟨[1], 0, true⟩, some ⟨[3], 80, true⟩] := by decide +kernel

example : (machine.run [.encode ⟨[1], 0, false⟩, .encode ⟨[1], 0, true⟩, .close,
    .encode ⟨[2], 0, false⟩, .encode ⟨[2], 0, true⟩]).1.map (·.2) =
    [.noKeyframe, .ok, .ok, .closed, .closed] := by decide +kernel

end Verif.Props.JsFrames
