import Verif.Hang.CatalogLemmas

/-!
# Property C69: the catalog lists exactly the live tracks
-/

set_option autoImplicit false

namespace Verif.Props.Catalog

open Verif Verif.Hang.Catalog Verif.Hang.Catalog.Spec

variable {Info : Type} {eq : Info → Info → Bool} {tr : Trace Info} {s : State Info}

theorem entries_info (tr : Trace Info) (k : Kind) : (entries tr k).map (·.info) = listed tr k := by
  unfold entries listed
  rw [List.map_map]
  rfl

/-- Every catalog that is published is complete: it lists the tracks that were added and not yet
removed by their tasks, in the order of addition. -/
theorem c69_complete_partial (h : (machine eq).Reach tr s) (hd : Distinct eq tr) {n : Nat} {b : Bool}
    {v a : List Info} (ho : (step eq s (.publish n)).1 = .published b v a) :
    v = listed tr .video ∧ a = listed tr .audio := by
  have hL := lists_reach h hd
  rw [← entries_info, ← entries_info, ← hL.video, ← hL.audio]
  simp only [step] at ho
  split at ho
  · cases ho
  · split at ho
    · cases ho; exact ⟨rfl, rfl⟩
    · cases ho; exact ⟨rfl, rfl⟩
    · cases ho

/-- Only closed tracks are removed. -/
theorem c69_removed_closed (h : (machine eq).Reach tr s) {n : Nat} (hn : n ∈ removed tr) : Closed tr n := by
  have hI := inv_reach h
  by_cases hlt : n < s.calls.length
  · have hok := hI.call n _ (List.getElem?_eq_getElem hlt)
    exact hok.clo.2 (hok.after (hok.rem.1 hn))
  · have := (hI.none n (by omega)).rem.1 hn
    simp at this

/-- The publishing of an addition or a removal that is in progress is always possible, and so is the
removal of a closed track that was published. -/
theorem c69_progress (h : (machine eq).Reach tr s) {x : Nat × Kind × Info} (hx : x ∈ added tr) :
    (¬ Published tr true x.1 → ∃ v a, (step eq s (.publish x.1)).1 = .published true v a) ∧
    (Published tr true x.1 → Closed tr x.1 → x.1 ∉ removed tr → (step eq s (.remove x.1)).1 = .ok) ∧
    (x.1 ∈ removed tr → ¬ Published tr false x.1 → ∃ v a, (step eq s (.publish x.1)).1 = .published false v a) := by
  have hI := inv_reach h
  obtain ⟨y, hy, _⟩ := added_unique hI hx
  have hok := hI.call _ y hy
  refine ⟨?_, ?_, ?_⟩
  · intro hp
    rw [hok.first] at hp
    have hst : y.stage = .added := Classical.not_not.1 hp
    exact ⟨_, _, by simp only [step, hy, hst]; rfl⟩
  · intro h1 h2 h3
    rw [hok.first] at h1
    rw [hok.clo] at h2
    rw [hok.rem] at h3
    have hst : y.stage = .waiting := by
      cases hs : y.stage with
      | added => exact absurd hs h1
      | waiting => rfl
      | removed => exact absurd (.inl hs) h3
      | done => exact absurd (.inr hs) h3
    simp only [step, hy]
    rw [if_pos ⟨hst, h2⟩]
    cases y.kind <;> rfl
  · intro h1 h2
    rw [hok.rem] at h1
    rw [hok.last] at h2
    have hst : y.stage = .removed := by
      rcases h1 with h1 | h1
      · exact h1
      · exact absurd h1 h2
    exact ⟨_, _, by simp only [step, hy, hst]; rfl⟩

/-- When nothing is in progress, the catalog published last lists exactly the tracks that were added
and are not closed, in the order of addition, if the descriptions of different tracks differ. -/
theorem c69_exact_partial (h : (machine eq).Reach tr s) (hd : Distinct eq tr) (hs : Settled tr)
    (hne : added tr ≠ []) :
    ∃ v a, lastPublished tr = some (v, a) ∧ Live tr .video v ∧ Live tr .audio a := by
  have hI := inv_reach h
  have hL := lists_reach h hd
  have hstage : ∀ (n : Nat) (x : Call Info), s.calls[n]? = some x → x.stage.mid = false ∧ (x.closed = true → x.stage = Stage.done) := by
    intro n x hx
    have hok := hI.call n x hx
    obtain ⟨h1, h2⟩ := hs _ (mem_added hI hx)
    have hx1 := hok.first.1 h1
    by_cases hc : x.closed = true
    · have := hok.last.1 (h2 (hok.clo.2 hc))
      rw [this]; exact ⟨rfl, fun _ => rfl⟩
    · refine ⟨?_, fun h => absurd h hc⟩
      cases hst : x.stage with
      | added => exact absurd hst hx1
      | removed => exact absurd (hok.after (.inl hst)) hc
      | waiting => rfl
      | done => rfl
  have hlast : lastPublished tr = some (s.video.map (·.info), s.audio.map (·.info)) := by
    rcases hI.fresh with ⟨n, x, hx, hm⟩ | hl | hnil
    · rw [(hstage n x hx).1] at hm; cases hm
    · exact hl
    · refine absurd ?_ hne
      rw [hI.add, hnil]; rfl
  have hlive : ∀ k, Live tr k (listed tr k) := by
    intro k
    refine ⟨(added tr).filter fun x => x.2.1 = k ∧ x.1 ∉ removed tr, List.filter_sublist, rfl, ?_⟩
    intro x hx
    rw [List.mem_filter]
    simp only [hx, true_and, decide_eq_true_eq]
    refine and_congr Iff.rfl (not_congr ?_)
    obtain ⟨y, hy, _⟩ := added_unique hI hx
    have hok := hI.call _ y hy
    rw [hok.rem, hok.clo]
    constructor
    · exact hok.after
    · intro hc; exact .inr ((hstage _ y hy).2 hc)
  refine ⟨_, _, hlast, ?_, ?_⟩
  · rw [hL.video, entries_info]; exact hlive _
  · rw [hL.audio, entries_info]; exact hlive _

/-- The comparison of descriptions that are plain numbers. -/
def same (a b : Nat) : Bool := a == b

/-- Two video tracks and an audio track, in several calls that interleave; one is closed. -/
example : ((machine same).run [.add .video 1, .add .video 2, .publish 1, .add .audio 1, .publish 0,
    .publish 2, .close 0, .remove 0, .publish 0]).1.map (·.2) =
    [.call 0, .call 1, .published true [1, 2] [], .call 2, .published true [1, 2] [1],
      .published true [1, 2] [1], .ok, .ok, .published false [2] [1]] := by decide +kernel

/-- The hypotheses of `c69_exact_partial` can be met. -/
example : ∃ (tr : Trace Nat) (s : State Nat), (machine same).Reach tr s ∧ Distinct same tr ∧ Settled tr ∧
    added tr = [(0, .video, 1), (1, .video, 2)] ∧ Closed tr 0 := by
  refine ⟨_, _, (machine same).reach_run [.add .video 1, .add .video 2, .publish 1, .publish 0, .close 0,
    .remove 0, .publish 0], ?_, ?_, by decide +kernel, by unfold Closed; decide +kernel⟩
  · intro x hx y hy
    rw [show added _ = [(0, .video, 1), (1, .video, 2)] from by decide +kernel] at hx hy
    simp at hx hy
    rcases hx with rfl | rfl <;> rcases hy with rfl | rfl <;> simp [same]
  · intro x hx
    rw [show added _ = [(0, .video, 1), (1, .video, 2)] from by decide +kernel] at hx
    simp at hx
    rcases hx with rfl | rfl
    · exact ⟨⟨[1, 2], [], by decide +kernel⟩, fun _ => ⟨[2], [], by decide +kernel⟩⟩
    · refine ⟨⟨[1, 2], [], by decide +kernel⟩, fun h => ?_⟩
      exact absurd h (by unfold Closed; decide +kernel)

/-- C69 fails for equal descriptions: a track is replaced by another with the same description; when
the first one is closed the catalog is empty although the second is live. -/
theorem c69_replaced : ∃ (ops : List (Op Nat)),
    Settled ((machine same).run ops).1 ∧
    added ((machine same).run ops).1 = [(0, .video, 7), (1, .video, 7)] ∧
    Closed ((machine same).run ops).1 0 ∧ ¬ Closed ((machine same).run ops).1 1 ∧
    lastPublished ((machine same).run ops).1 = some ([], []) := by
  refine ⟨[.add .video 7, .publish 0, .add .video 7, .publish 1, .close 0, .remove 0, .publish 0], ?_,
    by decide +kernel, by unfold Closed; decide +kernel, by unfold Closed; decide +kernel, by decide +kernel⟩
  intro x hx
  rw [show added _ = [(0, .video, 7), (1, .video, 7)] from by decide +kernel] at hx
  simp at hx
  rcases hx with rfl | rfl
  · exact ⟨⟨[7], [], by decide +kernel⟩, fun _ => ⟨[], [], by decide +kernel⟩⟩
  · refine ⟨⟨[7, 7], [], by decide +kernel⟩, fun h => ?_⟩
    exact absurd h (by unfold Closed; decide +kernel)

/-- The comparison of descriptions with a frame rate, where `none` stands for "not a number", which
is not equal to itself. -/
def sameRate (a b : Option Nat) : Bool :=
  match a, b with
  | some a, some b => a == b
  | _, _ => false

/-- C69 fails for a description that is not equal to itself: the closed track stays listed. -/
theorem c69_not_a_number : ∃ (ops : List (Op (Option Nat))),
    Settled ((machine sameRate).run ops).1 ∧ added ((machine sameRate).run ops).1 = [(0, .video, none)] ∧
    Closed ((machine sameRate).run ops).1 0 ∧
    lastPublished ((machine sameRate).run ops).1 = some ([none], []) := by
  refine ⟨[.add .video none, .publish 0, .close 0, .remove 0, .publish 0], ?_,
    by decide +kernel, by unfold Closed; decide +kernel, by decide +kernel⟩
  intro x hx
  rw [show added _ = [(0, .video, none)] from by decide +kernel] at hx
  simp at hx
  subst hx
  exact ⟨⟨[none], [], by decide +kernel⟩, fun _ => ⟨[none], [], by decide +kernel⟩⟩

end Verif.Props.Catalog
