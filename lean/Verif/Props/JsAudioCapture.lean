import Verif.Js.AudioCaptureEnds
import Verif.Props.JsTrack
import Verif.Props.JsFrames

/-!
# Property C108: publishing audio from the browser
-/

set_option autoImplicit false

namespace Verif.Props.JsAudioCapture

open Verif Verif.Js Verif.Js.AudioCapture

open Verif.Js.Frames (Input)
open Verif.Js.Container (encodeFrame)

/-! ## Specification -/

/-- Chunks with the runs that put them out, in the track of run `p.1`: the first is from that run, and the others
come less than half a second after it. -/
def IsGroup (p : Nat × List (Nat × Input)) : Prop :=
  ∃ c cs, p.2 = (p.1, c) :: cs ∧ ∀ x ∈ cs, x.2.timestamp < c.timestamp + 500000

/-- The track of run `r` has these groups and no others. -/
def Has (s : State) (r : Nat) (gs : List (List Input)) : Prop :=
  Track.accepted (trackTrace s r) = List.range gs.length ∧
  ∀ (i : Nat) g, gs[i]? = some g →
    (Track.content (trackTrace s r) i).map Except.ok = g.map fun c => encodeFrame c.data c.timestamp

/-- The groups in the track of run `r`. -/
def inTrack (gs : List (Nat × List (Nat × Input))) (r : Nat) : List (List Input) :=
  (gs.filter fun p => p.1 = r).map fun p => p.2.map (·.2)

/-- The timestamp of the first chunk of a group. -/
def Opens (p : Nat × List (Nat × Input)) (ts : Int) : Prop := ∃ x xs, p.2 = x :: xs ∧ x.2.timestamp = ts

/-! ## Lemmas -/

theorem content_core {ws : List (Nat × Input)} {s : State} {gs : List Piece} (i : Core ws s gs) (r : Nat) :
    Track.accepted (trackTrace s r) = List.range (mine gs r).length ∧
    ∀ k : Nat, Track.content (trackTrace s r) k = ((mine gs r)[k]?.getD []).map Frames.bytes := by
  cases ht : s.tracks[r]? with
  | some t => exact ⟨(i.track r t ht).tinv.acc, (i.track r t ht).tinv.content⟩
  | none =>
    have hle := List.getElem?_eq_none_iff.1 ht
    have hm : mine gs r = [] := by
      unfold mine
      rw [List.map_eq_nil_iff, List.filter_eq_nil_iff]
      intro p hp
      have := i.owner p hp
      simp only [decide_eq_true_eq]
      omega
    rw [i.calls r hle, hm]
    exact ⟨rfl, fun k => rfl⟩

theorem mem_mine {gs : List Piece} {r : Nat} {g : List Input} (hg : g ∈ mine gs r) {c : Input} (hc : c ∈ g) :
    ∃ p ∈ gs, p.1 = r ∧ ∃ x ∈ p.2, x.2 = c := by
  unfold mine at hg
  obtain ⟨p, hp, rfl⟩ := List.mem_map.1 hg
  obtain ⟨x, hx, rfl⟩ := List.mem_map.1 hc
  obtain ⟨h1, h2⟩ := List.mem_filter.1 hp
  exact ⟨p, h1, by simpa using h2, x, hx, rfl⟩

theorem fits_small {gs : List Piece} (hf : ∀ p ∈ gs, Fits p) {r : Nat} {g : List Input} (hg : g ∈ mine gs r)
    {c : Input} (hc : c ∈ g) : c.timestamp ≤ Container.MAX_U53 := by
  obtain ⟨p, hp, -, x, hx, rfl⟩ := mem_mine hg hc
  obtain ⟨a, cs, -, h2⟩ := hf p hp
  exact (h2 x hx).2.1

theorem has_core {ws : List (Nat × Input)} {s : State} {gs : List Piece} (i : Core ws s gs) (r : Nat) :
    Has s r (inTrack gs r) := by
  obtain ⟨h1, h2⟩ := content_core i r
  refine ⟨h1, fun k g hg => ?_⟩
  have hg' : (mine gs r)[k]? = some g := hg
  rw [h2, hg']
  simp only [Option.getD_some, List.map_map]
  refine List.map_congr_left fun c hc => ?_
  exact (Container.encodeFrame_eq c.data c.timestamp (fits_small i.fits (List.mem_of_getElem? hg') hc)).symm

/-- Timestamps can go back, but the first chunk of a group is not half a second after itself. -/
theorem isGroup_of {gs : List Piece} (hf : ∀ p ∈ gs, Fits p) : ∀ p ∈ gs, IsGroup p := by
  intro p hp
  obtain ⟨c, cs, h1, h2⟩ := hf p hp
  refine ⟨c, cs, h1, fun x hx => ?_⟩
  rcases (h2 x (by rw [h1]; simp [hx])).2.2 with h | h
  · rw [h]
    dsimp only
    omega
  · unfold GOP at h
    omega

/-! ## The tracks -/

/-- What happens to a track of a run is an execution of a track (C94). -/
theorem c108_track {tr : Trace} {s : State} (h : machine.Reach tr s) (r : Nat) (t : Track.State)
    (ht : s.tracks[r]? = some t) : Track.machine.Reach (trackTrace s r) t := by
  obtain ⟨gs, i, -⟩ := (inv_reach h).core
  exact (i.track r t ht).tinv.reach

/-- All chunks that are key frames, of all runs, are written: cut into groups of less than half a second, in
order.  The groups that start with a chunk of run `r` are the groups of its track.  If no encoder fails, each
group starts half a second or more after the one before. -/
theorem c108_groups {tr : Trace} {s : State} (h : machine.Reach tr s) :
    ∃ gs : List (Nat × List (Nat × Input)), written tr = gs.flatMap (·.2) ∧ (∀ p ∈ gs, IsGroup p) ∧
      (∀ r, Has s r (inTrack gs r)) ∧
      ((∀ r, ¬ Errored tr r) → ∀ (i : Nat) p q a b, gs[i]? = some p → gs[i + 1]? = some q → Opens p a → Opens q b →
        a + 500000 ≤ b) := by
  obtain ⟨gs, i, hgap⟩ := (inv_reach h).core
  refine ⟨gs, i.flat, isGroup_of i.fits, has_core i, fun he k p q a b h1 h2 h3 h4 => ?_⟩
  obtain ⟨x, xs, e1, rfl⟩ := h3
  obtain ⟨y, ys, e2, rfl⟩ := h4
  have := (hgap he).1 k p q x.2.timestamp y.2.timestamp h1 h2 (by unfold start; rw [e1]; rfl)
    (by unfold start; rw [e2]; rfl)
  unfold GOP at this
  omega

/-- If one run put out all chunks, they are all in its track, in order. -/
theorem c108_own {tr : Trace} {s : State} (h : machine.Reach tr s) (r : Nat) (hr : ∀ x ∈ written tr, x.1 = r) :
    ∃ gs : List (List Input), (written tr).map (·.2) = gs.flatten ∧
      (∀ g ∈ gs, ∃ c cs, g = c :: cs ∧ ∀ x ∈ cs, x.timestamp < c.timestamp + 500000) ∧ Has s r gs := by
  obtain ⟨gs, h1, h2, h3, -⟩ := c108_groups h
  have hall : ∀ p ∈ gs, p.1 = r := by
    intro p hp
    obtain ⟨c, cs, e, -⟩ := h2 p hp
    have hm : (p.1, c) ∈ written tr := by
      rw [h1]
      exact List.mem_flatMap.2 ⟨p, hp, by rw [e]; simp⟩
    exact hr _ hm
  have hin : inTrack gs r = gs.map fun p => p.2.map (·.2) := by
    unfold inTrack
    rw [List.filter_eq_self.2 fun p hp => by simpa using hall p hp]
  refine ⟨inTrack gs r, ?_, ?_, h3 r⟩
  · rw [hin, h1, List.map_flatMap, List.flatMap_def]
  · intro g hg
    rw [hin] at hg
    obtain ⟨p, hp, rfl⟩ := List.mem_map.1 hg
    obtain ⟨c, cs, e, hc⟩ := h2 p hp
    refine ⟨c, cs.map (·.2), by rw [e]; rfl, ?_⟩
    intro x hx
    obtain ⟨y, hy, rfl⟩ := List.mem_map.1 hx
    exact hc y hy

/-- A chunk that is a key frame is always written, as one frame at the end of a group, and nothing else is; one
that is not is refused and changes nothing. -/
theorem c108_written {tr : Trace} {s : State} (h : machine.Reach tr s) (r : Nat) (c : Input)
    (ho : (step s (.output r c)).1 ≠ .invalid) :
    (c.keyframe = false → step s (.output r c) = (.notKey, s)) ∧
    (c.keyframe = true → ∃ k g b, (step s (.output r c)).1 = .wrote k g ∧
      encodeFrame c.data c.timestamp = .ok b ∧
      ∀ k' g', Track.content (trackTrace (step s (.output r c)).2 k') g' =
        Track.content (trackTrace s k') g' ++ if k' = k ∧ g' = g then [b] else []) := by
  have j := inv_reach h
  rw [step] at ho ⊢
  split at ho
  · next hv =>
    rw [if_pos hv]
    constructor
    · intro hk
      unfold emit
      rw [hk]
      rfl
    · intro hk
      obtain ⟨gs, i, -⟩ := j.core
      obtain ⟨gs', k, g, h1, h2, h3, h4, h5⟩ := emit_core i (j.live hv.1 hv.2.1).1 c hk hv.2.2
      refine ⟨k, g, Frames.bytes c, h1, Container.encodeFrame_eq c.data c.timestamp hv.2.2, fun k' g' => ?_⟩
      rw [(content_core h2 k').2, (content_core i k').2]
      obtain ⟨t', ht'⟩ := h2.lt h4
      have hlast := (h2.track k t' ht').last g (by rw [h4, Capture.own_self])
      rcases h5 with ⟨rfl, rfl, -, -⟩ | ⟨gs0, p, rfl, rfl, h6, -, -⟩
      · rw [mine_append, mine_one] at hlast ⊢
        dsimp only at hlast ⊢
        rw [if_pos rfl, List.length_append] at hlast
        simp only [List.map_cons, List.map_nil, List.length_singleton] at hlast
        by_cases hk' : k' = k
        · subst hk'
          rw [if_pos rfl]
          by_cases hg' : g' = g
          · rw [if_pos ⟨rfl, hg'⟩]
            have hge : (mine gs k').length = g' := by omega
            rw [List.getElem?_append_right (by omega), hge, Nat.sub_self,
              List.getElem?_eq_none (l := mine gs k') (by omega)]
            rfl
          · rw [if_neg (by simp [hg']), List.append_nil]
            by_cases hl : g' < (mine gs k').length
            · rw [List.getElem?_append_left hl]
            · rw [List.getElem?_eq_none (l := mine gs k') (by omega), List.getElem?_eq_none (by simp; omega)]
        · rw [if_neg (Ne.symm hk'), if_neg (by simp [hk']), List.append_nil, List.append_nil]
      · obtain ⟨p', hp1, hp2, -⟩ := i.last k g h6
        rw [List.getLast?_concat] at hp1
        cases hp1
        rw [mine_append, mine_one] at hlast ⊢
        rw [mine_append, mine_one, hp2]
        rw [hp2] at hlast
        dsimp only at hlast ⊢
        rw [if_pos rfl, List.length_append, List.length_singleton] at hlast
        by_cases hk' : k' = k
        · subst hk'
          rw [if_pos rfl, if_pos rfl]
          by_cases hg' : g' = g
          · rw [if_pos ⟨rfl, hg'⟩]
            have hge : (mine gs0 k').length = g' := by omega
            rw [List.getElem?_append_right (by omega), List.getElem?_append_right (by omega), hge, Nat.sub_self]
            simp
          · rw [if_neg (by simp [hg']), List.append_nil]
            by_cases hl : g' < (mine gs0 k').length
            · rw [List.getElem?_append_left hl, List.getElem?_append_left hl]
            · rw [List.getElem?_eq_none (by simp; omega), List.getElem?_eq_none (by simp; omega)]
        · rw [if_neg (Ne.symm hk'), if_neg (Ne.symm hk'), if_neg (by simp [hk']), List.append_nil]
          simp
  · exact absurd rfl ho

/-- A chunk is in a group of another run's track only if it comes less than half a second after the first chunk
of that group, by its timestamp. -/
theorem c108_where {tr : Trace} {s : State} (h : machine.Reach tr s) (r k g : Nat) (c : Input)
    (ho : (step s (.output r c)).1 = .wrote k g) :
    k = r ∨ ∃ x b, (k, x) ∈ written tr ∧ (Track.content (trackTrace s k) g).head? = some b ∧
      encodeFrame x.data x.timestamp = .ok b ∧ c.timestamp < x.timestamp + 500000 := by
  have j := inv_reach h
  rw [step] at ho
  split at ho
  · next hv =>
    have hk : c.keyframe = true := by
      cases hk : c.keyframe with
      | true => rfl
      | false =>
        unfold emit at ho
        rw [hk] at ho
        cases ho
    obtain ⟨gs, i, -⟩ := j.core
    obtain ⟨gs', k', g', h1, -, -, -, h5⟩ := emit_core i (j.live hv.1 hv.2.1).1 c hk hv.2.2
    rw [h1] at ho
    cases ho
    rcases h5 with ⟨-, hkr, -, -⟩ | ⟨gs0, p, rfl, -, h6, -, h8⟩
    · exact .inl hkr
    · right
      obtain ⟨p', hp1, hp2, hp3⟩ := i.last k g h6
      rw [List.getLast?_concat] at hp1
      cases hp1
      obtain ⟨x, cs, e, -⟩ := i.fits p (by simp)
      obtain ⟨t, ht⟩ := i.lt h6
      have hlast := (i.track k t ht).last g (by rw [h6, Capture.own_self])
      have hx : x.timestamp = s.timestamp := by
        unfold start at hp3
        rw [e] at hp3
        exact Option.some.inj hp3
      have hm : (k, x) ∈ written tr := by
        rw [i.flat, ← hp2]
        exact List.mem_flatMap.2 ⟨p, by simp, by rw [e]; simp⟩
      refine ⟨x, Frames.bytes x, hm, ?_, Container.encodeFrame_eq x.data x.timestamp ?_, ?_⟩
      · rw [(content_core i k).2]
        rw [mine_append, mine_one, if_pos hp2, List.length_append, List.length_singleton] at hlast
        rw [mine_append, mine_one, if_pos hp2, List.getElem?_append_right (by omega),
          show g - (mine gs0 k).length = 0 by omega, e]
        rfl
      · obtain ⟨a, as, e', h2⟩ := i.fits p (by simp)
        exact (h2 (p.1, x) (by rw [e]; simp)).2.1
      · unfold GOP at h8
        omega
  · cases ho

/-- Whoever reads the track of run `r` gets frames of its groups, each the bytes of a chunk; a group is read from
the beginning, without gaps. -/
theorem c108_readers {tr : Trace} {s : State} (h : machine.Reach tr s) (r : Nat) (t : Track.State)
    (ht : s.tracks[r]? = some t) (c : Nat) : ∃ gs : List (Nat × List (Nat × Input)),
      written tr = gs.flatMap (·.2) ∧ (∀ p ∈ gs, IsGroup p) ∧ Has s r (inTrack gs r) ∧
      (Track.delivered (trackTrace s r) c).Pairwise (fun d e => d.1 < e.1 ∨ (d.1 = e.1 ∧ d.2.1 < e.2.1)) ∧
      (∀ g k b, (g, k, b) ∈ Track.delivered (trackTrace s r) c → ∃ x, ((inTrack gs r)[g]?.bind (·[k]?)) = some x ∧
        encodeFrame x.data x.timestamp = .ok b ∧
        (0 ≤ x.timestamp → Container.decodeFrame b = .ok (x.timestamp.toNat, x.data))) ∧
      (∀ g k b, (g, k, b) ∈ Track.delivered (trackTrace s r) c →
        ∀ j < k, ∃ b', (g, j, b') ∈ Track.delivered (trackTrace s r) c) := by
  obtain ⟨gs, i, -⟩ := (inv_reach h).core
  have h5 := has_core i r
  obtain ⟨f1, f2, f3⟩ := Verif.Props.JsTrack.c94_frames (c108_track h r t ht) c
  obtain ⟨g1, -⟩ := Verif.Props.JsTrack.c94_groups (c108_track h r t ht) c
  refine ⟨gs, i.flat, isGroup_of i.fits, h5, f1, fun g k b hd => ?_, f3⟩
  obtain ⟨a, hs⟩ := f2 g k b hd
  have hg := g1.subset hs
  rw [h5.1, List.mem_range] at hg
  have hget : (inTrack gs r)[g]? = some (inTrack gs r)[g] := List.getElem?_eq_getElem hg
  have hcont := h5.2 g _ hget
  have hk : ((Track.content (trackTrace s r) g).map Except.ok)[k]? =
      (some (Except.ok b) : Option (Except Container.Err Bytes)) := by
    rw [List.getElem?_map, a]
    rfl
  rw [hcont, List.getElem?_map] at hk
  cases hx : ((inTrack gs r)[g])[k]? with
  | none =>
    rw [hx] at hk
    cases hk
  | some x =>
    rw [hx] at hk
    have he : encodeFrame x.data x.timestamp = .ok b := Option.some.inj hk
    refine ⟨x, by rw [hget]; exact hx, he, fun h0 => ?_⟩
    have hsm := fits_small i.fits (r := r) (List.mem_of_getElem? hget) (List.mem_of_getElem? hx)
    obtain ⟨b', e1, e2⟩ := Verif.Props.JsFrames.c99_roundtrip_partial x.data x.timestamp.toNat (by
      unfold Container.MAX_U53 at hsm
      omega)
    rw [Int.toNat_of_nonneg h0, he] at e1
    cases e1
    exact e2

/-! ## How it ends -/

/-- A run that was stopped or replaced, or whose encoder failed, puts out nothing more; only a run that was
started does. -/
theorem c108_silent {tr : Trace} {s : State} (h : machine.Reach tr s) (r : Nat) (c : Input)
    (ho : (step s (.output r c)).1 ≠ .invalid) : Started tr r ∧ ¬ Stopped tr r ∧ ¬ Errored tr r := by
  have j := inv_reach h
  rw [step] at ho
  split at ho
  · next hv =>
    obtain ⟨h1, h2⟩ := (j.current r).1 hv.1
    exact ⟨h1, h2, (j.live hv.1 hv.2.1).2⟩
  · exact absurd rfl ho

/-- A track is aborted exactly if its encoder failed, and closed exactly if the run was stopped or replaced
without that. -/
theorem c108_how {tr : Trace} {s : State} (h : machine.Reach tr s) (r : Nat) (hr : Started tr r) :
    (Track.ending (trackTrace s r) = some .abort ↔ Errored tr r) ∧
    (Track.ending (trackTrace s r) = some .close ↔ Stopped tr r ∧ ¬ Errored tr r) := by
  have j := inv_reach h
  have hlt := (j.started r).1 hr
  have ht : s.tracks[r]? = some s.tracks[r] := List.getElem?_eq_getElem hlt
  have ti := (Track.inv_reach (c108_track h r _ ht)).track
  obtain ⟨h1, h2⟩ := j.status r s.tracks[r].status (by unfold AudioCapture.status; rw [ht]; rfl)
  rw [ti.status, ← h2, ← h1]
  cases s.tracks[r].status <;> simp [Track.endOp]

/-- Every group was closed, or aborted if an encoder failed, except perhaps one: it has the chunk that was written
last. -/
theorem c108_ended {tr : Trace} {s : State} (h : machine.Reach tr s) (r g : Nat)
    (hg : g ∈ Track.accepted (trackTrace s r)) :
    (.closeGroup g, .ok) ∈ trackTrace s r ∨
    ((.abortGroup g, .ok) ∈ trackTrace s r ∧ ∃ k, Errored tr k) ∨
    (g + 1 = (Track.accepted (trackTrace s r)).length ∧
      ∃ x b, (written tr).getLast? = some x ∧ encodeFrame x.2.data x.2.timestamp = .ok b ∧
        (Track.content (trackTrace s r) g).getLast? = some b) := by
  obtain ⟨gs, i, -⟩ := (inv_reach h).core
  cases ht : s.tracks[r]? with
  | none =>
    rw [i.calls r (List.getElem?_eq_none_iff.1 ht)] at hg
    cases hg
  | some t =>
    have tp := i.track r t ht
    have ti := (Track.inv_reach tp.tinv.reach).track
    by_cases ha : Capture.Alive t g
    · right; right
      have hown := (tp.alive g).1 ha
      have hgrp := Capture.own_eq.1 hown
      have hlast := tp.last g hown
      refine ⟨by rw [tp.tinv.acc, List.length_range]; exact hlast, ?_⟩
      obtain ⟨p, hp1, hp2, -⟩ := i.last r g hgrp
      obtain ⟨gs0, rfl⟩ := List.getLast?_eq_some_iff.1 hp1
      obtain ⟨c, cs, e, hf⟩ := i.fits p (by simp)
      have hne : p.2 ≠ [] := by rw [e]; simp
      obtain ⟨x, hx⟩ : ∃ x, p.2.getLast? = some x := ⟨_, List.getLast?_eq_some_getLast hne⟩
      refine ⟨x, Frames.bytes x.2, ?_, Container.encodeFrame_eq _ _ (hf x (List.mem_of_getLast? hx)).2.1, ?_⟩
      · rw [i.flat, List.flatMap_append]
        simp [hx]
      · rw [(content_core i r).2]
        rw [mine_append, mine_one, if_pos hp2, List.length_append, List.length_singleton] at hlast
        rw [mine_append, mine_one, if_pos hp2, List.getElem?_append_right (by omega),
          show g - (mine gs0 r).length = 0 by omega]
        simp [hx]
    · have hmem : ∀ e ∈ trackTrace s r, Allowed (∃ r, Errored tr r) e.1 := trackTrace_allowed h r
      rw [← ti.ids] at hg
      obtain ⟨y, hf⟩ := Track.find_of_mem hg
      obtain ⟨hy, hyid⟩ := Track.find_mem hf
      have := ti.ended y hy fun hl => ha ⟨y, hf, hl⟩
      rw [hyid] at this
      rcases this with h1 | h1 | ⟨fs, st, -, h1⟩
      · exact .inl h1
      · exact .inr (.inl ⟨h1, hmem _ h1⟩)
      · exact absurd (hmem _ h1) id

/-- If the encoder fails, no group stays open: one that was not closed before is aborted. -/
theorem c108_failed {tr : Trace} {s : State} (h : machine.Reach tr s) (r : Nat)
    (ho : (step s (.error r)).1 = .ok) (k g : Nat)
    (hg : g ∈ Track.accepted (trackTrace (step s (.error r)).2 k)) :
    (.closeGroup g, .ok) ∈ trackTrace s k ∨
    (.abortGroup g, .ok) ∈ trackTrace (step s (.error r)).2 k := by
  have h' : machine.Reach _ _ := Machine.Reach.step (M := machine) (.error r) h
  change machine.Reach (tr ++ [(.error r, (step s (.error r)).1)]) (step s (.error r)).2 at h'
  obtain ⟨gs, i, -⟩ := (inv_reach h').core
  have hgrp : (step s (.error r)).2.group = none := by
    rw [step] at ho ⊢
    split at ho
    · next hv =>
      rw [if_pos hv]
      exact act_group ..
    · cases ho
  have hcl : ∀ o, (.closeGroup g, o) ∈ trackTrace (step s (.error r)).2 k → (.closeGroup g, o) ∈ trackTrace s k :=
    fun o => error_closes
  generalize (step s (.error r)).2 = s' at h' i hgrp hg hcl
  cases ht : s'.tracks[k]? with
  | none =>
    rw [i.calls k (List.getElem?_eq_none_iff.1 ht)] at hg
    cases hg
  | some t =>
    have tp := i.track k t ht
    have ti := (Track.inv_reach tp.tinv.reach).track
    have ha : ¬ Capture.Alive t g := by
      intro ha
      have := (tp.alive g).1 ha
      rw [hgrp] at this
      cases this
    have hmem := trackTrace_allowed h' k
    rw [← ti.ids] at hg
    obtain ⟨y, hf⟩ := Track.find_of_mem hg
    obtain ⟨hy, hyid⟩ := Track.find_mem hf
    have := ti.ended y hy fun hl => ha ⟨y, hf, hl⟩
    rw [hyid] at this
    rcases this with h1 | h1 | ⟨fs, st, -, h1⟩
    · exact .inl (hcl _ h1)
    · exact .inr h1
    · exact absurd (hmem _ h1) id

/-- Up to 2147483647 microseconds, 35 minutes and 47 seconds after the context was created, the timestamp is the
time. -/
theorem c108_stamp_partial (us : Nat) (h : us < 2147483648) : stamp us = us := by
  unfold stamp
  rw [if_pos (by omega)]
  omega

/-! ## Violations -/

/-- **Violation.**  Audio is never published: whatever is set, there is never a context, and so there is never a
track, an encoder or an entry in the catalog. -/
theorem c108_never {tr : List (Worklet.Op × Worklet.Out)} {s : Worklet.State} (h : Worklet.machine.Reach tr s) :
    s.root = none ∧ s.contexts = 0 ∧ s.tracks = 0 ∧ s.catalog = none ∧ ∀ i, (.loaded i, .ok) ∉ tr := by
  have key : s.root = none ∧ s.contexts = 0 ∧ s.tracks = 0 ∧ s.catalog = none ∧ (∀ i, (.loaded i, .ok) ∉ tr) ∧
      s.mounted = none ∧ s.pending = [] := by
    refine Machine.Reach.induct (M := Worklet.machine) (P := fun tr s =>
      s.root = none ∧ s.contexts = 0 ∧ s.tracks = 0 ∧ s.catalog = none ∧
      (∀ i, (Worklet.Op.loaded i, Worklet.Out.ok) ∉ tr) ∧ s.mounted = none ∧ s.pending = []) ?_ ?_ h
    · exact ⟨rfl, rfl, rfl, rfl, fun i h => (by cases h), rfl, rfl⟩
    · rintro tr ⟨enabled, media, root, contexts, mounted, pending, tracks, catalog, closed⟩ op hr
        ⟨i1, i2, i3, i4, i5, i6, i7⟩
      dsimp only at i1 i2 i3 i4 i6 i7
      subst i1 i2 i3 i4 i6 i7
      have hno : ∀ i, op = .loaded i → ((Worklet.machine.step ⟨enabled, media, none, 0, none, [], 0, none, closed⟩
          op).1 : Worklet.Out) = .invalid := by
        rintro i rfl
        simp [Worklet.machine, Worklet.step]
      have hm : ∀ i, (Worklet.Op.loaded i, Worklet.Out.ok) ∉ tr ++
          [(op, (Worklet.machine.step ⟨enabled, media, none, 0, none, [], 0, none, closed⟩ op).1)] := by
        intro i hm
        rcases List.mem_append.1 hm with hm | hm
        · exact i5 i hm
        · have := List.mem_singleton.1 hm
          injection this with h1 h2
          rw [hno i h1.symm] at h2
          cases h2
      have hrest : ∀ op, let s' := (Worklet.step ⟨enabled, media, none, 0, none, [], 0, none, closed⟩ op).2
          s'.root = none ∧ s'.contexts = 0 ∧ s'.tracks = 0 ∧ s'.catalog = none ∧ s'.mounted = none ∧
          s'.pending = [] := by
        intro op
        cases op <;> cases closed <;> simp [Worklet.step, Worklet.rerun, Worklet.runWorklet, Worklet.runEncoder]
      obtain ⟨a, b, c, d, e, f⟩ := hrest op
      exact ⟨a, b, c, d, hm, e, f⟩
  exact ⟨key.1, key.2.1, key.2.2.1, key.2.2.2.1, key.2.2.2.2.1⟩

/-- **Violation.**  The last group is never closed: as long as no encoder has failed, there is a group that has not
ended once a chunk was written, also after all runs were stopped and after `close()`. -/
theorem c108_open {tr : Trace} {s : State} (h : machine.Reach tr s) (he : ∀ r, ¬ Errored tr r)
    (hw : written tr ≠ []) : ∃ k g, g ∈ Track.accepted (trackTrace s k) ∧
      (.closeGroup g, .ok) ∉ trackTrace s k ∧ (.abortGroup g, .ok) ∉ trackTrace s k := by
  obtain ⟨gs, i, hgap⟩ := (inv_reach h).core
  cases hg : s.group with
  | none =>
    have := (hgap he).2 hg
    rw [i.flat, this] at hw
    exact absurd rfl hw
  | some p =>
    obtain ⟨k, g⟩ := p
    obtain ⟨t, ht⟩ := i.lt hg
    have tp := i.track k t ht
    have hown : Capture.own s.group k = some g := by rw [hg, Capture.own_self]
    obtain ⟨x, hx, hl⟩ := (tp.alive g).2 hown
    refine ⟨k, g, ?_, fun hm => ?_, fun hm => ?_⟩
    · have := tp.last g hown
      rw [tp.tinv.acc, List.mem_range]
      omega
    · obtain ⟨y, h1, h2⟩ := (ended_find tp.tinv.reach g).1 hm
      rw [hx] at h1
      cases h1
      rw [hl] at h2
      cases h2
    · obtain ⟨y, h1, h2⟩ := (ended_find tp.tinv.reach g).2 hm
      rw [hx] at h1
      cases h1
      rw [hl] at h2
      cases h2

/-- **Violation.**  From 2147483648 microseconds the timestamp is negative for as long again. -/
theorem c108_wrap (us : Nat) (h1 : 2147483648 ≤ us) (h2 : us < 4294967296) : stamp us < 0 := by
  unfold stamp
  rw [if_neg (by omega)]
  omega

/-- **Violation.**  A chunk with a negative timestamp never starts a group if the last group was started before the
wrap, and only one byte is written for its timestamp, which no reader gets back. -/
theorem c108_wrap_written {tr : Trace} {s : State} (h : machine.Reach tr s) (r : Nat) (c : Input) (hc : c.timestamp < 0)
    (hk : c.keyframe = true) (ho : (step s (.output r c)).1 ≠ .invalid) (he : ∀ r, ¬ Errored tr r)
    (hp : ∀ x ∈ written tr, 0 ≤ x.2.timestamp) (hw : written tr ≠ []) :
    ∃ k g b, (step s (.output r c)).1 = .wrote k g ∧ g ∈ Track.accepted (trackTrace s k) ∧
      Track.content (trackTrace (step s (.output r c)).2 k) g = Track.content (trackTrace s k) g ++ [b :: c.data] ∧
      ∀ ts data, Container.decodeFrame (b :: c.data) = .ok (ts, data) → (ts : Int) ≠ c.timestamp := by
  have j := inv_reach h
  obtain ⟨k, g, b', h1, h2, h3⟩ := (c108_written h r c ho).2 hk
  obtain ⟨b, e1, e2⟩ := Verif.Props.JsFrames.c99_negative c.data c.timestamp hc
  rw [h2] at e1
  cases e1
  refine ⟨k, g, b, h1, ?_, by rw [h3, if_pos ⟨rfl, rfl⟩], e2⟩
  · rw [step] at h1
    split at h1
    · next hv =>
      obtain ⟨gs, i, hgap⟩ := j.core
      obtain ⟨gs', k', g', e1, -, -, -, h5⟩ := emit_core i (j.live hv.1 hv.2.1).1 c hk hv.2.2
      rw [e1] at h1
      cases h1
      cases hg : s.group with
      | none =>
        have := (hgap he).2 hg
        rw [i.flat, this] at hw
        exact absurd rfl hw
      | some q =>
        obtain ⟨k2, g2⟩ := q
        obtain ⟨p, p1, p2, p3⟩ := i.last k2 g2 hg
        have hts : 0 ≤ s.timestamp := by
          obtain ⟨x, xs, e, -⟩ := i.fits p (List.mem_of_getLast? p1)
          have hx := hp (p.1, x) (by
            rw [i.flat]
            exact List.mem_flatMap.2 ⟨p, List.mem_of_getLast? p1, by rw [e]; simp⟩)
          unfold start at p3
          rw [e] at p3
          have : x.timestamp = s.timestamp := Option.some.inj p3
          rw [← this]
          exact hx
        rcases h5 with ⟨-, -, -, h5⟩ | ⟨-, -, -, -, h6, -, -⟩
        · rw [hg] at h5
          rcases h5 with h5 | h5
          · cases h5
          · unfold GOP at h5
            omega
        · obtain ⟨t, ht⟩ := i.lt h6
          have tp := i.track k t ht
          have := tp.last g (by rw [h6, Capture.own_self])
          rw [tp.tinv.acc, List.mem_range]
          omega
    · cases h1

def chunk (ts : Int) (data : Bytes) : Input := ⟨data, ts, true⟩

/-- One run, then another whose context starts at 0 again. -/
def twoOps : List Op := [.start, .output 0 (chunk 400000 [1]), .stop, .start, .output 1 (chunk 0 [2])]

/-- **Violation.**  After a run was replaced, chunks of the new one are written to the track of the old one, which
has ended, and not to its own. -/
theorem c108_stale : ∃ ops : List Op,
    (machine.run ops).1.getLast? = some (.output 1 (chunk 0 [2]), .wrote 0 0) ∧
    Stopped (machine.run ops).1 0 ∧ ¬ Stopped (machine.run ops).1 1 ∧
    Track.ending (trackTrace (machine.run ops).2 0) = some .close ∧
    Track.accepted (trackTrace (machine.run ops).2 1) = [] := by
  have j := inv_reach (machine.reach_run twoOps)
  refine ⟨twoOps, by decide +kernel, ?_, ?_, by decide +kernel, by decide +kernel⟩
  · have h1 : ¬ (Started (machine.run twoOps).1 0 ∧ ¬ Stopped (machine.run twoOps).1 0) := by
      rw [← j.current 0]
      decide +kernel
    exact Classical.byContradiction fun hn => h1 ⟨(j.started 0).2 (by decide +kernel), hn⟩
  · exact ((j.current 1).1 (by decide +kernel)).2

/-! ## Examples -/

/-- Two groups, for half a second and more. -/
def someOps : List Op := [.start, .output 0 (chunk 0 [1]), .output 0 (chunk 499999 [2]), .output 0 (chunk 500000 [3]),
  .output 0 ⟨[4], 500001, false⟩, .stop]

example : (machine.run someOps).1.map (·.2) = [.run 0, .wrote 0 0, .wrote 0 0, .wrote 0 1, .notKey, .ok] := by
  decide +kernel

example : Track.accepted (trackTrace (machine.run someOps).2 0) = [0, 1] ∧
    (Track.content (trackTrace (machine.run someOps).2 0) 0).map Container.decodeFrame = [.ok (0, [1]), .ok (499999, [2])] ∧
    (Track.content (trackTrace (machine.run someOps).2 0) 1).map Container.decodeFrame = [.ok (500000, [3])] ∧
    written (machine.run someOps).1 = [(0, chunk 0 [1]), (0, chunk 499999 [2]), (0, chunk 500000 [3])] := by
  decide +kernel

/-- The second group of the stopped track is open. -/
example : (.closeGroup 0, .ok) ∈ trackTrace (machine.run someOps).2 0 ∧
    (.closeGroup 1, .ok) ∉ trackTrace (machine.run someOps).2 0 ∧
    Track.ending (trackTrace (machine.run someOps).2 0) = some .close := by
  decide +kernel

/-- An encoder that fails. -/
example : (machine.run [.start, .output 0 (chunk 0 [1]), .error 0, .output 0 (chunk 1 [1]), .stop]).1.map (·.2) =
      [.run 0, .wrote 0 0, .ok, .invalid, .ok] ∧
    (.abortGroup 0, .ok) ∈ trackTrace (machine.run [.start, .output 0 (chunk 0 [1]), .error 0]).2 0 ∧
    Track.ending (trackTrace (machine.run [.start, .output 0 (chunk 0 [1]), .error 0]).2 0) = some .abort := by
  decide +kernel

/-- The wrap: a chunk an hour after the context was created. -/
example : stamp 3600000000 = -694967296 ∧
    (machine.run [.start, .output 0 (chunk (stamp 2000000000) [1]), .output 0 (chunk (stamp 3600000000) [2])]).1.map
      (·.2) = [.run 0, .wrote 0 0, .wrote 0 0] := by
  decide +kernel

/-- Audio is enabled and there is media, in vain. -/
example : (Worklet.machine.run [.media (some 7), .enable true]).2 = ⟨true, some 7, none, 0, none, [], 0, none, false⟩ := by
  decide +kernel

/-- If there were a context, the effects would work. -/
example : Worklet.rerun ⟨true, some 7, some 0, 1, none, [], 0, none, false⟩ =
    ⟨true, some 7, some 0, 2, some 1, [1], 1, some 0, false⟩ := by
  decide +kernel

end Verif.Props.JsAudioCapture
