import Verif.Js.CaptureEnds
import Verif.Props.JsTrack
import Verif.Props.JsFrames

/-!
# Property C107: publishing video from the browser
-/

set_option autoImplicit false

namespace Verif.Props.JsCapture

open Verif Verif.Js Verif.Js.Capture

open Verif.Js.Frames (Input)
open Verif.Js.Container (encodeFrame decodeFrame)

/-! ## Specification -/

/-- A group of pictures: a key frame, and no other. -/
def IsGroup (g : List Input) : Prop :=
  ∃ k ds, g = k :: ds ∧ k.keyframe = true ∧ ∀ c ∈ ds, c.keyframe = false

/-- The track of run `r` has these groups and no others. -/
def Has (s : State) (r : Nat) (gs : List (List Input)) : Prop :=
  Track.accepted (trackTrace s r) = List.range gs.length ∧
  ∀ (i : Nat) g, gs[i]? = some g →
    (Track.content (trackTrace s r) i).map Except.ok = g.map fun c => encodeFrame c.data c.timestamp

/-- In a list of chunks, `c` follows the key frame `k` and there is no key frame between them. -/
def Follows (cs : List Input) (k c : Input) : Prop :=
  ∃ pre mid post, cs = pre ++ k :: mid ++ c :: post ∧ k.keyframe = true ∧
    (∀ d ∈ mid, d.keyframe = false) ∧ c.keyframe = false

/-- Picture `p` was captured first in its run, which still waits for its configuration. -/
def Waiting (tr : Trace) (p : Nat) : Prop := ∃ r ts, (.picture r ts, .captured p) ∈ tr ∧ ¬ Settled tr r

/-- Run `r` has ended, or its encoder has failed. -/
def Gone (tr : Trace) (r : Nat) : Prop :=
  Stopped tr r ∨ Ended tr r ∨ Errored tr r ∨ ∃ p, Refused tr r p

/-! ## Lemmas -/

/-- What the parts of the invariant say about run `r`. -/
theorem layout {tr : Trace} {s : State} (h : machine.Reach tr s) (r : Nat) :
    ∃ gs ls : List (List Input), gs.length = ls.length ∧
      chunks tr r = (List.zipWith (· ++ ·) gs ls).flatten ∧
      (∀ g ∈ gs, IsGroup g) ∧ (∀ l ∈ ls, ∀ c ∈ l, c.keyframe = false) ∧ (¬ Late tr → ∀ l ∈ ls, l = []) ∧
      Track.accepted (trackTrace s r) = List.range gs.length ∧
      (∀ i : Nat, Track.content (trackTrace s r) i = ((gs[i]?).getD []).map Frames.bytes) := by
  have j := inv_reach h
  cases hr : s.runs[r]? with
  | none =>
    obtain ⟨h1, -, h3⟩ := j.state.fresh r (List.getElem?_eq_none_iff.1 hr)
    refine ⟨[], [], rfl, h1, fun g h => (by cases h), fun g h => (by cases h), fun _ g h => (by cases h), ?_, ?_⟩
    · rw [h3]
      rfl
    · intro i
      rw [h3]
      rfl
  | some run =>
    obtain ⟨t, gs, ls, -, x⟩ := j.state.both hr
    refine ⟨gs, ls, x.run.len, x.run.flat, ?_, x.run.lost, x.run.whole, x.track.tinv.acc, x.track.tinv.content⟩
    intro g hg
    obtain ⟨c, h1, h2⟩ := x.run.heads g hg
    have h3 := x.run.tails g hg
    cases g with
    | nil => cases h1
    | cons k ds =>
      cases h1
      exact ⟨c, ds, rfl, h2, h3⟩

/-- The timestamps of chunks can be written. -/
theorem small {tr : Trace} {s : State} (h : machine.Reach tr s) (r : Nat) (c : Input) (hc : c ∈ chunks tr r) :
    c.timestamp ≤ Container.MAX_U53 := by
  have j := inv_reach h
  cases hr : s.runs[r]? with
  | none =>
    obtain ⟨h1, -, h3⟩ := j.state.fresh r (List.getElem?_eq_none_iff.1 hr)
    rw [h1] at hc
    cases hc
  | some run =>
    obtain ⟨t, gs, ls, -, x⟩ := j.state.both hr
    obtain ⟨rest, h1, -⟩ := x.run.order
    refine x.run.small _ ?_
    rw [h1]
    simp only [List.mem_append, List.mem_map]
    exact .inl (.inl ⟨c, hc, rfl⟩)

theorem mem_zip {gs ls : List (List Input)} (h : gs.length = ls.length) {g : List Input} (hg : g ∈ gs) {c : Input}
    (hc : c ∈ g) : c ∈ (List.zipWith (· ++ ·) gs ls).flatten := by
  induction gs generalizing ls with
  | nil => cases hg
  | cons x gs ih =>
    cases ls with
    | nil => cases h
    | cons l ls =>
      rw [List.zipWith_cons_cons, List.flatten_cons]
      rcases List.mem_cons.1 hg with rfl | hg
      · simp [hc]
      · exact List.mem_append_right _ (ih (by simpa using h) hg)

/-! ## The track -/

/-- What happens to a track of a run is an execution of a track (C94). -/
theorem c107_track {tr : Trace} {s : State} (h : machine.Reach tr s) (r : Nat) (t : Track.State)
    (ht : s.tracks[r]? = some t) : Track.machine.Reach (trackTrace s r) t := by
  have j := inv_reach h
  have hlt := (List.getElem?_eq_some_iff.1 ht).1
  rw [j.state.len] at hlt
  obtain ⟨gs, ls, x⟩ := j.state.run r _ t (List.getElem?_eq_getElem hlt) ht
  exact x.track.tinv.reach

/-- The chunks that an encoder puts out are, in order, groups of pictures, which are the groups of the
track, each perhaps with chunks after it that were not written. -/
theorem c107_groups {tr : Trace} {s : State} (h : machine.Reach tr s) (r : Nat) :
    ∃ gs ls : List (List Input), gs.length = ls.length ∧
      chunks tr r = (List.zipWith (· ++ ·) gs ls).flatten ∧
      (∀ g ∈ gs, IsGroup g) ∧ (∀ l ∈ ls, ∀ c ∈ l, c.keyframe = false) ∧ Has s r gs := by
  obtain ⟨gs, ls, h1, h2, h3, h4, -, h6, h7⟩ := layout h r
  refine ⟨gs, ls, h1, h2, h3, h4, h6, fun i g hg => ?_⟩
  rw [h7, hg]
  simp only [Option.getD_some, List.map_map]
  refine List.map_congr_left fun c hc => ?_
  have hm := mem_zip h1 (List.mem_of_getElem? hg) hc
  rw [← h2] at hm
  exact (Container.encodeFrame_eq c.data c.timestamp (small h r c hm)).symm

/-- If no run got its configuration late, no chunk is lost: the groups of the track are exactly what the
encoder put out. -/
theorem c107_whole {tr : Trace} {s : State} (h : machine.Reach tr s) (hl : ¬ Late tr) (r : Nat) :
    ∃ gs : List (List Input), chunks tr r = gs.flatten ∧ (∀ g ∈ gs, IsGroup g) ∧ Has s r gs := by
  obtain ⟨gs, ls, h1, h2, h3, h4, h5, h6, h7⟩ := layout h r
  have hflat : chunks tr r = gs.flatten := by
    rw [h2]
    congr 1
    have := h5 hl
    clear h2 h3 h4 h5 h6 h7
    induction gs generalizing ls with
    | nil => rfl
    | cons g gs ih =>
      cases ls with
      | nil => cases h1
      | cons l ls =>
        rw [List.zipWith_cons_cons, this l (by simp), List.append_nil,
          ih ls (by simpa using h1) fun x hx => this x (by simp [hx])]
  refine ⟨gs, hflat, h3, h6, fun i g hg => ?_⟩
  rw [h7, hg]
  simp only [Option.getD_some, List.map_map]
  refine List.map_congr_left fun c hc => ?_
  have hm := mem_zip h1 (List.mem_of_getElem? hg) hc
  rw [← h2] at hm
  exact (Container.encodeFrame_eq c.data c.timestamp (small h r c hm)).symm

/-- Every chunk is written, except that "no keyframe" is thrown for a chunk that is not a key frame after
a run got its configuration late.  Neither the track nor the group nor the container ever throws. -/
theorem c107_written {tr : Trace} {s : State} (h : machine.Reach tr s) (r : Nat) (c : Input) :
    (step s (.output r c)).1 = .invalid ∨ (∃ g, (step s (.output r c)).1 = .wrote g) ∨
      ((step s (.output r c)).1 = .noKeyframe ∧ c.keyframe = false ∧ Late tr) := by
  have j := inv_reach h
  rw [step]
  unfold onRun
  split
  · next run hr =>
    unfold output
    dsimp only
    split
    · next q qs st he =>
      split
      · next hc =>
        rcases (j.emit hr he hc.1 hc.2 (if st then s.decoderConfig else some r)).out with ⟨g, h1, -⟩ | ⟨h1, h2, h3, -⟩
        · exact .inr (.inl ⟨g, h1⟩)
        · exact .inr (.inr ⟨h1, h2, h3⟩)
      · exact .inl rfl
    · exact .inl rfl
  · exact .inl rfl

/-- Whoever reads the track of run `r` gets frames of its groups, each the bytes of a chunk; a group is
read from the beginning, without gaps, and its first frame is the key frame. -/
theorem c107_readers {tr : Trace} {s : State} (h : machine.Reach tr s) (r : Nat) (t : Track.State)
    (ht : s.tracks[r]? = some t) (c : Nat) : ∃ gs : List (List Input), (∀ g ∈ gs, IsGroup g) ∧
      (∀ g ∈ gs, ∀ x ∈ g, x ∈ chunks tr r) ∧ Has s r gs ∧
      (Track.delivered (trackTrace s r) c).Pairwise (fun d e => d.1 < e.1 ∨ (d.1 = e.1 ∧ d.2.1 < e.2.1)) ∧
      (∀ g k b, (g, k, b) ∈ Track.delivered (trackTrace s r) c → ∃ x, (gs[g]?.bind (·[k]?)) = some x ∧
        encodeFrame x.data x.timestamp = .ok b ∧ (x.keyframe = true ↔ k = 0) ∧
        (0 ≤ x.timestamp → decodeFrame b = .ok (x.timestamp.toNat, x.data))) ∧
      (∀ g k b, (g, k, b) ∈ Track.delivered (trackTrace s r) c →
        ∀ j < k, ∃ b', (g, j, b') ∈ Track.delivered (trackTrace s r) c) := by
  obtain ⟨gs, ls, h1, h2, h3, -, h5⟩ := c107_groups h r
  obtain ⟨f1, f2, f3⟩ := Verif.Props.JsTrack.c94_frames (c107_track h r t ht) c
  obtain ⟨g1, -⟩ := Verif.Props.JsTrack.c94_groups (c107_track h r t ht) c
  refine ⟨gs, h3, fun g hg x hx => ?_, h5, f1, fun g k b hd => ?_, f3⟩
  · rw [h2]
    exact mem_zip h1 hg hx
  · obtain ⟨a, hs⟩ := f2 g k b hd
    have hg := g1.subset hs
    rw [h5.1, List.mem_range] at hg
    have hget : gs[g]? = some gs[g] := List.getElem?_eq_getElem hg
    have hcont := h5.2 g _ hget
    have hk : ((Track.content (trackTrace s r) g).map Except.ok)[k]? =
        (some (Except.ok b) : Option (Except Container.Err Bytes)) := by
      rw [List.getElem?_map, a]
      rfl
    rw [hcont, List.getElem?_map] at hk
    cases hx : (gs[g])[k]? with
    | none =>
      rw [hx] at hk
      cases hk
    | some x =>
      rw [hx] at hk
      have he : encodeFrame x.data x.timestamp = .ok b := Option.some.inj hk
      refine ⟨x, by rw [hget]; exact hx, he, ?_, fun h0 => ?_⟩
      · obtain ⟨k0, ds, e1, e2, e3⟩ := h3 _ (List.mem_of_getElem? hget)
        rw [e1] at hx
        cases k with
        | zero =>
          cases hx
          simp [e2]
        | succ n =>
          rw [List.getElem?_cons_succ] at hx
          simp [e3 x (List.mem_of_getElem? hx)]
      · have hm : x ∈ chunks tr r := by
          rw [h2]
          exact mem_zip h1 (List.mem_of_getElem? hget) (List.mem_of_getElem? hx)
        have hsm := small h r x hm
        obtain ⟨b', e1, e2⟩ := Verif.Props.JsFrames.c99_roundtrip_partial x.data x.timestamp.toNat (by
          unfold Container.MAX_U53 at hsm
          omega)
        rw [Int.toNat_of_nonneg h0, he] at e1
        cases e1
        exact e2

/-! ## Pictures and chunks -/

/-- The chunks of a run are those of its pictures, in order, up to some point. -/
theorem c107_order {tr : Trace} {s : State} (h : machine.Reach tr s) (r : Nat) :
    ∃ rest, pictures tr r = (chunks tr r).map (·.timestamp) ++ rest := by
  have j := inv_reach h
  cases hr : s.runs[r]? with
  | none =>
    obtain ⟨h1, h2, -⟩ := j.state.fresh r (List.getElem?_eq_none_iff.1 hr)
    rw [h1, h2]
    exact ⟨[], rfl⟩
  | some run =>
    obtain ⟨t, gs, ls, -, x⟩ := j.state.both hr
    obtain ⟨rest, h1, -⟩ := x.run.order
    exact ⟨pending run ++ rest, by rw [h1, List.append_assoc]⟩

/-- Only a run that was not replaced or stopped takes pictures and puts out chunks. -/
theorem c107_one {tr : Trace} {s : State} (h : machine.Reach tr s) (r : Nat) (op : Op)
    (hop : (∃ ts, op = .picture r ts) ∨ ∃ c, op = .output r c) (ho : (step s op).1 ≠ .invalid) :
    Started tr r ∧ ¬ Stopped tr r := by
  have j := inv_reach h
  rw [← current_iff h]
  have e := step_eff j op
  have hgoing : ∀ (k : Nat) (x : Run), s.runs[k]? = some x → x.done = false → s.current = some k := by
    intro k x h1 h2
    obtain ⟨t, gs, ls, -, y⟩ := j.state.both h1
    exact y.run.going h2
  have hidle : ∀ (k : Nat) (x : Run) q st, s.runs[k]? = some x → x.encoder = .working q st →
      s.current = some k := fun k x q st h1 h2 => j.state.idle h1 h2
  have hruns : s.runs = (view s).runs := rfl
  rw [hruns] at hgoing hidle
  generalize (step s op).1 = o at e ho
  generalize view (step s op).2 = w at e
  rcases hop with ⟨ts, rfl⟩ | ⟨c, rfl⟩
  · cases e with
    | invalid => exact absurd rfl ho
    | first r ts run hr hd hp => exact hgoing _ _ hr hd
    | encode r ts run q st hr hd hp he => exact hgoing _ _ hr hd
    | dead r ts run hr hd hp he => exact hgoing _ _ hr hd
  · cases e with
    | invalid => exact absurd rfl ho
    | output r run c q qs st _ hr he ht hk ho => exact hidle _ _ _ _ hr he

/-- If the clock of the camera does not run backwards, no chunk is more than 2 s after the key frame of its
group. -/
theorem c107_bound {tr : Trace} {s : State} (h : machine.Reach tr s) (hs : Sorted tr) (r : Nat) (k c : Input)
    (hf : Follows (chunks tr r) k c) : c.timestamp ≤ k.timestamp + 2000000 := by
  obtain ⟨a, hg⟩ := (binv_reach h hs).sent r
  obtain ⟨pre, mid, post, h1, h2, h3, h4⟩ := hf
  unfold marks at hg
  rw [h1, List.map_append, List.map_append, good_append, good_append, List.map_cons, List.map_cons, h2, h4] at hg
  have hfin : ∀ (b : Int) (l : List Input), (∀ d ∈ l, d.keyframe = false) →
      final b (l.map fun c => (c.timestamp, c.keyframe)) = b := by
    intro b l
    induction l with
    | nil => intro _; rfl
    | cons d l ih =>
      intro hl
      rw [List.map_cons, hl d (by simp)]
      exact ih fun x hx => hl x (by simp [hx])
  have := hg.2
  rw [final_append, final, if_pos rfl, hfin _ _ h3, good, if_neg (by simp)] at this
  exact this.1

/-- If no run got its configuration late, and the encoder has put out every key frame that was requested,
another is requested exactly if the picture is more than 2 s after the last. -/
theorem c107_keys {tr : Trace} {s : State} (h : machine.Reach tr s) (hl : ¬ Late tr) (r : Nat) (ts : Int)
    (hc : chunks tr r ≠ []) (hq : ∀ k ∈ (requests tr r).drop (chunks tr r).length, k = false) (p : Nat)
    (key : Bool) (ho : (step s (.picture r ts)).1 = .encoded p key) :
    ∃ t, lastKey (chunks tr r) = some t ∧ (key = true ↔ t + 2000000 < ts) := by
  have j := inv_reach h
  have e := step_eff j (.picture r ts)
  rw [ho] at e
  have hch : ∀ (k : Nat) (x : Run) q st, s.runs[k]? = some x → x.encoder = .working q st → chunks tr k ≠ [] →
      st = true := by
    intro k x q st h1 h2 h3
    obtain ⟨t, gs, ls, -, y⟩ := j.state.both h1
    have hp := y.run.phase
    rw [h2] at hp
    refine hp.2.2.2.2 fun hgs => h3 ?_
    rw [y.run.flat, hgs]
    rfl
  have hruns : s.runs = (view s).runs := rfl
  rw [hruns] at hch
  generalize view (step s (.picture r ts)).2 = w at e
  cases e with
  | encode r ts run q st hr hd hp he =>
    have hst := hch _ _ _ _ hr he hc
    subst hst
    refine ⟨(view s).timestamp, kinv_reach h hl r run q hr he ?_, decide_eq_true_iff⟩
    intro x hx
    rw [((qinv_reach h).works r run q true hr he).2.1] at hq
    exact hq x.key (List.mem_map_of_mem hx)

/-- Once a key frame was requested, and until one is put out, none is requested for 2 s. -/
theorem c107_again {tr : Trace} {s : State} (h : machine.Reach tr s) (pre post : Trace) (r r' p p' : Nat)
    (ts ts' : Int) (key : Bool) (ht : tr = pre ++ (.picture r ts, .encoded p true) :: post)
    (hc : ∀ k c o, (.output k c, o) ∈ post → o ≠ .invalid → c.keyframe = false) (hts : ts' ≤ ts + 2000000)
    (ho : (step s (.picture r' ts')).1 = .encoded p' key) : key = false := by
  subst ht
  rw [← List.singleton_append, ← List.append_assoc] at h
  obtain ⟨s0, h0, hle⟩ := timestamp_mono h hc
  have hts0 : s0.timestamp = ts := by
    obtain ⟨s1, op, h1, h2, h3⟩ := last_step h0
    injection h2 with h2 h4
    subst h2
    have e := step_eff (inv_reach h1) (.picture r ts)
    rw [← h4] at e
    have hv : s0.timestamp = (view (step s1 (.picture r ts)).2).timestamp := by rw [h3]; rfl
    rw [hv]
    generalize view (step s1 (.picture r ts)).2 = w at e
    generalize hk : true = k at e
    cases e with
    | encode _ _ run q st hr hd hp he =>
      have : (view s1).timestamp + GOP < ts := by
        have := hk.symm
        simpa using this
      change (if (view s1).timestamp + GOP < ts then ts else (view s1).timestamp) = ts
      rw [if_pos this]
  have e := step_eff (inv_reach h) (.picture r' ts')
  rw [ho] at e
  have hv : s.timestamp = (view s).timestamp := rfl
  rw [hv] at hle
  generalize view (step s (.picture r' ts')).2 = w at e
  generalize view s = v at e hle
  cases e with
  | encode _ _ run q st hr hd hp he =>
    have hg : GOP = 2000000 := rfl
    rw [hg]
    simp only [decide_eq_false_iff_not]
    omega

/-! ## The end -/

/-- A run that has ended, or whose encoder has failed, puts out nothing more. -/
theorem c107_silent {tr : Trace} {s : State} (h : machine.Reach tr s) (r : Nat) (hg : Gone tr r) (c : Input) :
    (step s (.output r c)).1 = .invalid := by
  refine Classical.byContradiction fun ho => ?_
  have j := inv_reach h
  have e := step_eff j (.output r c)
  have key : ∀ (run : Run) q st, s.runs[r]? = some run → run.encoder ≠ .working q st := by
    intro run q st hr he
    have i := (hinv_reach h).run r run hr
    obtain ⟨t, gs, ls, -, x⟩ := j.state.both hr
    have hx := x.run.phase
    rw [he] at hx
    rcases hg with hs | hs | hs | ⟨p, hs⟩
    · exact ((current_iff h r).1 hx.2.2.1).2 hs
    · have := i.ended hs
      rw [hx.2.1] at this
      cases this
    · have := i.errored hs
      rw [he] at this
      cases this
    · have := i.refused p hs
      rw [hx.1] at this
      cases this
  have hruns : s.runs = (view s).runs := rfl
  rw [hruns] at key
  generalize (step s (.output r c)).1 = o at e ho
  generalize view (step s (.output r c)).2 = w at e
  cases e with
  | invalid => exact absurd rfl ho
  | output r run c q qs st _ hr he ht hk ho => exact key run _ _ hr he

theorem gone_mono {tr : Trace} (e : Op × Out) {r : Nat} (h : Gone tr r) : Gone (tr ++ [e]) r := by
  rcases h with h | h | h | ⟨p, h⟩
  · exact .inl ((stopped_snoc ..).2 (.inl h))
  · exact .inr (.inl ((ended_snoc ..).2 (.inl h)))
  · exact .inr (.inr (.inl ((errored_snoc ..).2 (.inl h))))
  · exact .inr (.inr (.inr ⟨p, (refused_snoc ..).2 (.inl h)⟩))

theorem gone_append {tr : Trace} (l : Trace) {r : Nat} (h : Gone tr r) : Gone (tr ++ l) r := by
  induction l generalizing tr with
  | nil => rw [List.append_nil]; exact h
  | cons e l ih =>
    have := ih (gone_mono e h)
    rw [List.append_assoc] at this
    exact this

/-- So its chunks are those it had then, whatever happens later. -/
theorem c107_final {tr : Trace} {s : State} (h : machine.Reach tr s) (pre post : Trace) (ht : tr = pre ++ post)
    (r : Nat) (hg : Gone pre r) : chunks tr r = chunks pre r := by
  revert pre post
  refine Machine.Reach.induct (M := machine)
    (P := fun tr s => ∀ pre post, tr = pre ++ post → Gone pre r → chunks tr r = chunks pre r) ?_ ?_ h
  · intro pre post ht _
    have : pre = [] := (List.append_eq_nil_iff.1 ht.symm).1
    rw [this]
  · intro tr s op hr i pre post ht hg
    rcases List.eq_nil_or_concat post with rfl | ⟨post', a, rfl⟩
    · rw [ht, List.append_nil]
    · rw [List.concat_eq_append, ← List.append_assoc] at ht
      obtain ⟨rfl, ht⟩ := List.append_inj' ht rfl
      rw [← i pre post' rfl hg, chunks_snoc]
      cases op with
      | output k c =>
        by_cases hk : k = r
        · subst hk
          have := c107_silent hr k (gone_append post' hg) c
          simp [this]
        · simp [hk]
      | _ => simp

/-- The track of a run that was replaced or stopped has ended, and so have all its groups; those of a run
whose encoder failed have, too.  In any track, all groups but the last have. -/
theorem c107_ended {tr : Trace} {s : State} (h : machine.Reach tr s) (r : Nat) (hr : Started tr r) :
    (Stopped tr r → Track.ending (trackTrace s r) ≠ none) ∧
    (∀ g ∈ Track.accepted (trackTrace s r), Track.GroupEnded (trackTrace s r) g ∨
      (¬ Stopped tr r ∧ ¬ Errored tr r ∧ g + 1 = (Track.accepted (trackTrace s r)).length)) := by
  have j := inv_reach h
  have hlt := (j.started r).1 hr
  have hrun : s.runs[r]? = some s.runs[r] := List.getElem?_eq_getElem hlt
  obtain ⟨t, gs, ls, ht, x⟩ := j.state.both hrun
  have ti := (Track.inv_reach x.track.tinv.reach).track
  constructor
  · intro hst
    have hcur : s.current ≠ some r := fun hc => ((current_iff h r).1 hc).2 hst
    have := einv_reach h r t ht hcur
    rw [ti.status]
    cases hs : t.status with
    | live => exact absurd hs this
    | closed => simp [Track.endOp]
    | aborted => simp [Track.endOp]
  · intro g hg
    by_cases ha : Alive t g
    · right
      have hgrp := (x.track.alive g).1 ha
      have hlast := x.track.last g hgrp
      rw [x.track.tinv.acc, List.length_range]
      have hgroup : s.group = some (r, g) := by
        unfold own at hgrp
        split at hgrp
        · next k g' hkg =>
          split at hgrp
          · next hk => rw [hkg, hk, Option.some.inj hgrp]
          · cases hgrp
        · cases hgrp
      obtain ⟨run, q, hq, he, hc⟩ := j.state.owner hgroup
      refine ⟨((current_iff h r).1 hc).2, fun her => ?_, hlast⟩
      have := ((hinv_reach h).run r run hq).errored her
      rw [he] at this
      cases this
    · left
      rw [← ti.ids] at hg
      obtain ⟨y, hf⟩ := Track.find_of_mem hg
      obtain ⟨hy, hyid⟩ := Track.find_mem hf
      have := ti.ended y hy fun hl => ha ⟨y, hf, hl⟩
      rw [hyid] at this
      exact this

/-- A track is aborted exactly if its encoder failed, and closed exactly if the run was replaced or stopped
without that.  All groups but the last are closed; the last is aborted if the encoder fails, unless it was
closed by a run that got its configuration late, and is otherwise closed when the run ends. -/
theorem c107_how {tr : Trace} {s : State} (h : machine.Reach tr s) (r : Nat) (hr : Started tr r) :
    (Track.ending (trackTrace s r) = some .abort ↔ Errored tr r) ∧
    (Track.ending (trackTrace s r) = some .close ↔ Stopped tr r ∧ ¬ Errored tr r) ∧
    ∀ g ∈ Track.accepted (trackTrace s r),
      ((.abortGroup g, .ok) ∈ trackTrace s r →
        Errored tr r ∧ g + 1 = (Track.accepted (trackTrace s r)).length) ∧
      ((.closeGroup g, .ok) ∈ trackTrace s r ∨ (.abortGroup g, .ok) ∈ trackTrace s r ∨
        (¬ Stopped tr r ∧ ¬ Errored tr r ∧ g + 1 = (Track.accepted (trackTrace s r)).length)) ∧
      (¬ Late tr → Errored tr r → g + 1 = (Track.accepted (trackTrace s r)).length →
        (.abortGroup g, .ok) ∈ trackTrace s r) := by
  have l := linv_reach h
  obtain ⟨e1, e2⟩ := c107_ended h r hr
  have hmem : ∀ op, Track.ending (trackTrace s r) = some op → ∃ o, (op, o) ∈ trackTrace s r := by
    intro op ho
    obtain ⟨e, he, rfl⟩ := List.mem_map.1 (List.mem_of_find?_eq_some ho)
    exact ⟨e.2, he⟩
  have hab : Track.ending (trackTrace s r) = some .abort ↔ Errored tr r := by
    refine ⟨fun ho => ?_, l.errored r⟩
    obtain ⟨o, ho⟩ := hmem _ ho
    exact l.why r _ ho
  refine ⟨hab, ⟨fun ho => ⟨?_, fun her => ?_⟩, fun ⟨hs, her⟩ => ?_⟩, fun g hg => ⟨fun ha => ?_, ?_, fun hl her hlen => ?_⟩⟩
  · obtain ⟨o, ho⟩ := hmem _ ho
    exact l.why r _ ho
  · rw [hab.2 her] at ho
    cases ho
  · cases ho : Track.ending (trackTrace s r) with
    | none => exact absurd ho (e1 hs)
    | some op =>
      have := List.find?_some ho
      simp only [decide_eq_true_eq] at this
      rcases this with rfl | rfl
      · rfl
      · exact absurd (hab.1 ho) her
  · exact ⟨l.why r _ ha, l.only r g _ ha⟩
  · rcases e2 g hg with (h1 | h1 | ⟨fs, st, -, h1⟩) | h1
    · exact .inl h1
    · exact .inr (.inl h1)
    · exact absurd (l.why r _ h1) (fun h => h)
    · exact .inr (.inr h1)
  · exact l.last hl r her g hlen

/-! ## The catalog -/

/-- What the catalog shows of video is the track of the run that was not replaced or stopped, with the
configuration of its decoder, and of its encoder if no run got its configuration late.  It shows it from the
first chunk on. -/
theorem c107_catalog {tr : Trace} {s : State} (h : machine.Reach tr s) :
    (∀ r e d, catalog s = some (r, e, d) → Started tr r ∧ ¬ Stopped tr r ∧ d = r ∧ (¬ Late tr → e = r)) ∧
    (¬ Late tr → ∀ r, ¬ Stopped tr r → chunks tr r ≠ [] → catalog s = some (r, r, r)) := by
  have i := confinv_reach h
  constructor
  · intro r e d hc
    unfold catalog at hc
    split at hc
    · next e' d' r' h1 h2 h3 =>
      cases hc
      obtain ⟨c1, c2⟩ := (current_iff h r).1 h3
      exact ⟨c1, c2, i.dec d r h2 h3, fun hl => i.enc hl e r h1 h3⟩
    · cases hc
  · intro hl r hs hc
    have j := inv_reach h
    have hst : Started tr r := by
      rw [j.started]
      rcases Nat.lt_or_ge r s.runs.length with hlt | hge
      · exact hlt
      · exact absurd (j.state.fresh r hge).1 hc
    have hcur := (current_iff h r).2 ⟨hst, hs⟩
    unfold catalog
    rw [i.encs hl r hcur hc, i.decs r hcur hc, hcur]

/-! ## Pictures -/

/-- Every picture that was captured was closed, unless it is what `frame()` returns, or a run waits with it
for its configuration, or got an exception instead. -/
theorem c107_pictures {tr : Trace} {s : State} (h : machine.Reach tr s) (p : Nat) (hp : Captured tr p) :
    p ∈ s.shut ∨ shown s = some p ∨ Waiting tr p ∨ ∃ r, Refused tr r p := by
  have i := hinv_reach h
  rcases (pinv_reach h).all p ((i.count p).1 hp) with h1 | h1 | ⟨r, run, ts, h1, h2⟩ | h1
  · exact .inl h1
  · exact .inr (.inl h1)
  · refine .inr (.inr (.inl ⟨r, ts, (i.run r run h1).waits p ts h2, fun hst => ?_⟩))
    obtain ⟨t, gs, ls, -, x⟩ := (inv_reach h).state.both (r := r) (run := run) h1
    have hph := x.run.phase
    cases he : run.encoder with
    | unconfigured => exact (i.run r run h1).settled hst he
    | working q st => simp [he, h2] at hph
    | closed => simp [he, h2] at hph
  · exact .inr (.inr (.inr h1))

/-- Until `close()`, no picture is closed twice, and `frame()` does not return one that was closed.  Only
pictures that were captured are closed. -/
theorem c107_open {tr : Trace} {s : State} (h : machine.Reach tr s) :
    (¬ Closed tr → s.shut.Nodup ∧ ∀ p, shown s = some p → p ∉ s.shut) ∧ (∀ p ∈ s.shut, Captured tr p) := by
  have i := pinv_reach h
  have hc : ¬ Closed tr → (view s).closed = false := by
    intro hc
    have := (inv_reach h).closed
    cases hs : s.closed with
    | false => exact hs
    | true => exact absurd (this.1 hs) hc
  exact ⟨fun hn => ⟨i.once (hc hn), fun p hp => (i.latest p hp).2 (hc hn)⟩,
    fun p hp => ((hinv_reach h).count p).2 (i.shut p hp)⟩

/-- After `close()`, every picture was closed, unless a run waits with it for its configuration or got an
exception instead, if no run gets its configuration after `close()`. -/
theorem c107_closed {tr : Trace} {s : State} (h : machine.Reach tr s) (pre post : Trace)
    (ht : tr = pre ++ (.close, .ok) :: post) (hc : ∀ r ok o, (.config r ok, o) ∈ post → o = .invalid) (p : Nat)
    (hp : Captured tr p) : p ∈ s.shut ∨ Waiting tr p ∨ ∃ r, Refused tr r p := by
  rcases c107_pictures h p hp with h1 | h1 | h1 | h1
  · exact .inl h1
  · subst ht
    exact .inl (shut_after h hc p h1)
  · exact .inr (.inl h1)
  · exact .inr (.inr h1)

/-! ## `active` -/

/-- While a run has pictures and has not ended, video is active, if no run got its configuration late. -/
theorem c107_active {tr : Trace} {s : State} (h : machine.Reach tr s) (hl : ¬ Late tr) (r : Nat)
    (hp : pictures tr r ≠ []) (hg : ¬ Gone tr r) : s.active = true := by
  have j := inv_reach h
  have hlt : r < s.runs.length := by
    refine Nat.lt_of_not_le fun hle => hp (j.state.fresh r hle).2.1
  have hrun : s.runs[r]? = some s.runs[r] := List.getElem?_eq_getElem hlt
  have i := (hinv_reach h).run r s.runs[r] hrun
  have hcur := (current_iff h r).2 ⟨(j.started r).2 hlt, fun hs => hg (.inl hs)⟩
  have hover : s.runs[r].phase ≠ .over := by
    intro ho
    rcases i.over ho with h | h | h | h
    · exact hg (.inr (.inl h))
    · exact hg (.inl h)
    · exact hg (.inr (.inr (.inl h)))
    · exact hg (.inr (.inr (.inr h)))
  have hcl : s.runs[r].encoder ≠ .closed := fun hc =>
    (i.closed hc).elim hover fun he => hg (.inr (.inr (.inl he)))
  refine (ainv_reach h).up hl r s.runs[r] (j.state.current r hcur) hrun ?_ hcl
  cases hph : s.runs[r].phase with
  | first =>
    refine absurd ?_ hp
    obtain ⟨t, gs, ls, -, x⟩ := j.state.both hrun
    have hx := x.run.phase
    cases he : s.runs[r].encoder with
    | unconfigured =>
      rw [(j.unconfigured hrun he).1]
      simp [pending, he, hph]
    | working q st => simp [he, hph] at hx
    | closed => exact absurd he hcl
  | config p ts => exact .inl ⟨p, ts, hph⟩
  | loop => exact .inr hph
  | over => exact absurd hph hover

/-- If no encoder failed, video is only active while some run has pictures and has not ended, or waits for
its configuration. -/
theorem c107_inactive {tr : Trace} {s : State} (h : machine.Reach tr s) (he : ∀ r, ¬ Errored tr r)
    (ha : s.active = true) : ∃ r, pictures tr r ≠ [] ∧ (¬ Gone tr r ∨ ¬ Settled tr r) := by
  have j := inv_reach h
  obtain ⟨r, run, hr, hb⟩ := (ainv_reach h).down he ha
  have hrun : s.runs[r]? = some run := hr
  have i := (hinv_reach h).run r run hr
  obtain ⟨t, gs, ls, -, x⟩ := j.state.both hrun
  have hx := x.run.phase
  refine ⟨r, ?_⟩
  rcases hb with ⟨p, ts, hp⟩ | hp
  · have hen : run.encoder = .unconfigured := by
      cases hen : run.encoder with
      | unconfigured => rfl
      | working q st => simp [hen, hp] at hx
      | closed => simp [hen, hp] at hx
    rw [(j.unconfigured hrun hen).1]
    exact ⟨by simp [pending, hen, hp], .inr fun hs => i.settled hs hen⟩
  · cases hen : run.encoder with
    | unconfigured => simp [hen, hp] at hx
    | closed =>
      have := (ainv_reach h).over he r run hr hen
      rw [hp] at this
      cases this
    | working q st =>
      rw [hen] at hx
      refine ⟨?_, .inl ?_⟩
      · intro hno
        rw [j.working hrun hen, List.map_eq_nil_iff] at hno
        obtain ⟨a, b, d⟩ := (qinv_reach h).works r run q st hr hen
        have hl := congrArg List.length b
        have hz := congrArg List.length hno
        simp only [List.length_drop, List.length_map] at hl
        simp only [line, marks, List.length_append, List.length_map, List.length_nil] at hz
        exact d (List.eq_nil_of_length_eq_zero (by omega))
      · rintro (hs | hs | hs | ⟨p, hs⟩)
        · exact ((current_iff h r).1 hx.2.2.1).2 hs
        · have := i.ended hs
          rw [hx.2.1] at this
          cases this
        · exact he r hs
        · have := i.refused p hs
          rw [hp] at this
          cases this

/-! ## Violations -/

/-- A chunk of the cases below. -/
def chunk (ts : Int) (key : Bool) (data : Bytes) : Input := ⟨data, ts, key⟩

/-- Run 0 waits for its configuration while run 1 is started, captures and writes a key frame. -/
def lateOps : List Op :=
  [.start, .picture 0 0, .start, .picture 1 1000, .config 1 true, .output 1 (chunk 1000 true [7]), .picture 1 2000]

/-- **Violation.**  When an old run gets its configuration, its `finally` closes the group of the new run:
the chunks of the new run are lost until the next key frame. -/
theorem c107_late_loses : ∃ ops : List Op,
    (machine.run ops).1.getLast? = some (.output 1 (chunk 2000 false [8]), .noKeyframe) ∧
    ¬ Stopped (machine.run ops).1 1 := by
  refine ⟨lateOps ++ [.config 0 true, .output 1 (chunk 2000 false [8])], by decide +kernel, ?_⟩
  exact ((current_iff (machine.reach_run _) 1).1 (by decide +kernel)).2

/-- **Violation.**  It also makes video inactive, though the new run goes on. -/
theorem c107_late_inactive : ∃ ops : List Op, (machine.run ops).2.active = false ∧
    pictures (machine.run ops).1 1 ≠ [] ∧ ¬ Stopped (machine.run ops).1 1 ∧
    ∀ e ∈ (machine.run ops).1, e.1 ≠ .ended 1 ∧ e.1 ≠ .error 1 ∧ e.1 ≠ .config 1 false := by
  refine ⟨lateOps ++ [.config 0 true], by decide +kernel, by decide +kernel, ?_, by decide +kernel⟩
  exact ((current_iff (machine.reach_run _) 1).1 (by decide +kernel)).2

/-- **Violation.**  `frame()` returns the picture of the old run, though newer ones were shown, and the
catalog has the configuration of the old encoder for the track of the new. -/
theorem c107_late_shows : ∃ ops op,
    shown (machine.run ops).2 = some 2 ∧ catalog (machine.run ops).2 = some (1, 1, 1) ∧
    shown (step (machine.run ops).2 op).2 = some 0 ∧ catalog (step (machine.run ops).2 op).2 = some (1, 0, 1) :=
  ⟨lateOps, .config 0 true, by decide +kernel⟩

/-- **Violation.**  After an encoder has failed, video stays active for ever: whatever happens to the run. -/
theorem c107_error_active : ∃ ops : List Op, Errored (machine.run ops).1 0 ∧ (machine.run ops).2.active = true ∧
    Stopped (machine.run ops).1 0 ∧ ∀ run ∈ (machine.run ops).2.runs, run.phase = .over := by
  refine ⟨[.start, .picture 0 0, .config 0 true, .error 0, .stop], by unfold Errored; decide +kernel,
    by decide +kernel, ⟨[], [(.picture 0 0, .captured 0), (.config 0 true, .encoded 0 false), (.error 0, .ok),
      (.stop, .ok)], by decide +kernel, by simp⟩, by decide +kernel⟩

/-- **Violation.**  Pictures that are in the encoder when the media ends are never put out. -/
theorem c107_end_loses : ∃ pre : Trace, (∃ s, machine.Reach pre s) ∧ pictures pre 0 = [0, 1000] ∧
    ∀ post s, machine.Reach (pre ++ post) s → chunks (pre ++ post) 0 = [] := by
  refine ⟨(machine.run [.start, .picture 0 0, .config 0 true, .picture 0 1000, .ended 0]).1,
    ⟨_, machine.reach_run _⟩, by decide +kernel, fun post s h => ?_⟩
  rw [c107_final h _ post rfl 0 (.inr (.inl (by unfold Ended; decide +kernel)))]
  decide +kernel

/-- **Violation.**  A picture for which no configuration was found is never closed. -/
theorem c107_refused_leaks : ∃ ops : List Op, Captured (machine.run ops).1 0 ∧ 0 ∉ (machine.run ops).2.shut ∧
    shown (machine.run ops).2 = none ∧ ¬ Waiting (machine.run ops).1 0 := by
  refine ⟨[.start, .picture 0 0, .config 0 false], ⟨0, 0, .captured 0, by decide +kernel, .inl rfl⟩,
    by decide +kernel, by decide +kernel, ?_⟩
  rintro ⟨r, ts, h1, h2⟩
  have : (machine.run [.start, .picture 0 0, .config 0 false]).1 =
    [(.start, .run 0), (.picture 0 0, .captured 0), (.config 0 false, .failed 0)] := by decide +kernel
  rw [this] at h1 h2
  simp at h1
  obtain ⟨rfl, rfl⟩ := h1
  exact h2 ⟨false, .failed 0, by simp, by simp⟩

/-- **Violation.**  After `close()`, `frame()` returns a picture that was closed. -/
theorem c107_closed_shown : ∃ ops : List Op, shown (machine.run ops).2 = some 0 ∧ 0 ∈ (machine.run ops).2.shut :=
  ⟨[.start, .picture 0 0, .config 0 true, .close], by decide +kernel⟩

/-- **Violation.**  If `close()` is called while a run waits for its configuration, a picture is closed
twice, and another is never closed. -/
theorem c107_closed_twice : ∃ ops : List Op, (machine.run ops).2.shut = [0, 0] ∧
    shown (machine.run ops).2 = some 1 ∧ Closed (machine.run ops).1 :=
  ⟨[.start, .picture 0 0, .config 0 true, .start, .picture 1 1, .close, .config 1 true], by decide +kernel,
    by decide +kernel, by unfold Closed; decide +kernel⟩

/-- **Violation.**  If the encoder is slow, key frames are requested again and again. -/
theorem c107_slow_keys : ∃ ops : List Op, requests (machine.run ops).1 0 = [false, true, true] ∧
    pictures (machine.run ops).1 0 = [0, 2000001, 2033334] :=
  ⟨[.start, .picture 0 0, .config 0 true, .picture 0 2000001, .output 0 (chunk 0 true [1]), .picture 0 2033334],
    by decide +kernel⟩

/-- **Violation.**  If the clock runs backwards from one run to the next and the encoder is slow, a group
is longer than 2 s. -/
theorem c107_backwards : ∃ ops : List Op, Follows (chunks (machine.run ops).1 1) (chunk 0 true [2])
    (chunk 5000000 false [3]) := by
  refine ⟨[.start, .picture 0 9000000, .config 0 true, .output 0 (chunk 9000000 true [1]), .start, .picture 1 0,
    .config 1 true, .picture 1 5000000, .output 1 (chunk 0 true [2]), .output 1 (chunk 5000000 false [3])],
    [], [], [], by decide +kernel, rfl, fun d h => (by cases h), rfl⟩

/-! ## Cases -/

/-- Whether no run got its configuration late. -/
def onTime (tr : Trace) : Bool :=
  (List.range tr.length).all fun i =>
    match tr[i]? with
    | some (.config r _, o) => o == .invalid || (tr.take i).all fun e =>
      match e with
      | (.start, .run r') => r' ≤ r
      | _ => true
    | _ => true

theorem not_late {tr : Trace} (h : onTime tr = true) : ¬ Late tr := by
  rintro ⟨pre, post, r, ok, o, r', rfl, h2, h3, h4⟩
  unfold onTime at h
  rw [List.all_eq_true] at h
  have := h pre.length (by simp)
  simp only [List.getElem?_append_right (Nat.le_refl _), Nat.sub_self, List.getElem?_cons_zero, List.take_left,
    Bool.or_eq_true, beq_iff_eq, h2, false_or, List.all_eq_true] at this
  have := this _ h3
  simp only [decide_eq_true_eq] at this
  omega

/-- Two runs: the first is replaced, the second reaches a second group; someone reads the second track. -/
def twoOps : List Op :=
  [.start, .picture 0 1000, .config 0 true, .output 0 (chunk 1000 true [1]), .picture 0 34000, .start,
   .picture 1 70000, .config 1 true, .track 1 .consume, .picture 1 100000, .output 1 (chunk 70000 true [2]),
   .track 1 (.run 0), .track 1 (.nextFrame 0 .group), .output 1 (chunk 100000 false [3]),
   .track 1 (.nextFrame 0 .frame), .track 1 (.nextFrame 0 .frame), .picture 1 2070001,
   .output 1 (chunk 2070001 true [4])]

/-- The execution meets the hypotheses: no run got its configuration late, and the clock does not run
backwards. -/
example : ¬ Late (machine.run twoOps).1 ∧ Sorted (machine.run twoOps).1 := by
  refine ⟨not_late (by decide +kernel), ?_⟩
  unfold Sorted
  decide +kernel

/-- What the encoders put out, and what the reader got. -/
example : chunks (machine.run twoOps).1 0 = [chunk 1000 true [1]] ∧
    chunks (machine.run twoOps).1 1 = [chunk 70000 true [2], chunk 100000 false [3], chunk 2070001 true [4]] ∧
    pictures (machine.run twoOps).1 0 = [1000, 34000] ∧
    requests (machine.run twoOps).1 1 = [false, false, true] ∧
    Track.accepted (trackTrace (machine.run twoOps).2 1) = [0, 1] ∧
    Track.delivered (trackTrace (machine.run twoOps).2 1) 0 =
      [(0, 0, [0x80, 1, 0x11, 0x70, 2]), (0, 1, [0x80, 1, 0x86, 0xa0, 3])] := by
  decide +kernel

/-- The first run was replaced: its track has ended. -/
example : Stopped (machine.run twoOps).1 0 ∧ Track.ending (trackTrace (machine.run twoOps).2 0) = some .close := by
  refine ⟨?_, by decide +kernel⟩
  exact ⟨[], (machine.run twoOps).1.tail, by decide +kernel, .inr (.inr ⟨1, by decide +kernel⟩)⟩

/-- A chunk that follows a key frame (C107 bound), a picture for which a key frame is requested and one for
which none is. -/
example : Follows (chunks (machine.run twoOps).1 1) (chunk 70000 true [2]) (chunk 100000 false [3]) ∧
    (step (machine.run (twoOps.take 16)).2 (.picture 1 2070001)).1 = .encoded 4 true ∧
    (step (machine.run (twoOps.take 16)).2 (.picture 1 2070000)).1 = .encoded 4 false :=
  ⟨⟨[], [], [chunk 2070001 true [4]], by decide +kernel, rfl, fun _ h => (by cases h), rfl⟩,
    by decide +kernel, by decide +kernel⟩

/-- The pictures. -/
example : (machine.run twoOps).2.shut = [0, 1, 2, 3] ∧ shown (machine.run twoOps).2 = some 4 ∧
    (machine.run twoOps).2.active = true ∧ (machine.run twoOps).2.captured = 5 := by decide +kernel

/-- The catalog has the second run. -/
example : catalog (machine.run twoOps).2 = some (1, 1, 1) ∧ catalog (machine.run (twoOps.take 10)).2 = none := by
  decide +kernel

/-- A key frame is requested, and the next picture comes before it is put out: none is requested again. -/
example : (machine.run (twoOps.take 17)).1 =
      (machine.run (twoOps.take 16)).1 ++ (.picture 1 2070001, .encoded 4 true) :: [] ∧
    (step (machine.run (twoOps.take 17)).2 (.picture 1 2100000)).1 = .encoded 5 false := by
  decide +kernel

/-- The encoder fails in the second group: this group and the track are aborted, the first was closed. -/
example : Errored (machine.run (twoOps ++ [.error 1])).1 1 ∧
    Track.ending (trackTrace (machine.run (twoOps ++ [.error 1])).2 1) = some .abort ∧
    (.closeGroup 0, .ok) ∈ trackTrace (machine.run (twoOps ++ [.error 1])).2 1 ∧
    (.abortGroup 1, .ok) ∈ trackTrace (machine.run (twoOps ++ [.error 1])).2 1 ∧
    ¬ Late (machine.run (twoOps ++ [.error 1])).1 :=
  ⟨by unfold Errored; decide +kernel, by decide +kernel, by decide +kernel, by decide +kernel,
    not_late (by decide +kernel)⟩

/-- After `close()` all pictures were closed. -/
example : (machine.run (twoOps ++ [.close])).1 = (machine.run twoOps).1 ++ (.close, .ok) :: [] ∧
    (machine.run (twoOps ++ [.close])).2.shut = [0, 1, 2, 3, 4] := by decide +kernel

end Verif.Props.JsCapture
