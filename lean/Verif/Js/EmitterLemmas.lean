import Verif.Js.Emitter

/-! # Invariants of the volume and the mute button -/

set_option autoImplicit false

namespace Verif.Js.Emitter

open Verif

/-- What holds at all times. -/
structure Inv (s : State) : Prop where
  nodup : s.queue.Nodup
  /-- the volume to go back to is audible -/
  audible : s.unmute ≠ 0
  /-- muted and volume fit, unless an effect is going to change that -/
  fit : s.closed = false → .mute ∉ s.queue → .level ∉ s.queue → (s.muted = true ↔ s.volume = 0)
  gain : s.closed = false → .gain ∉ s.queue → ∀ g, s.gain = some g → g = s.volume
  /-- there is a node if there is a root -/
  node : s.closed = false → .node ∉ s.queue → s.root = true → s.gain.isSome = true
  closed : s.closed = true → s.queue = []

theorem mem_notify {e f : Effect} {s : State} :
    f ∈ (notify e s).queue ↔ f ∈ s.queue ∨ (s.closed = false ∧ f = e) := by
  unfold notify
  split
  · next h =>
    simp only [Bool.or_eq_true, List.contains_iff_mem] at h
    constructor
    · exact .inl
    · rintro (h' | ⟨h1, rfl⟩)
      · exact h'
      · rcases h with h | h
        · simp [h] at h1
        · exact h
  · next h =>
    simp only [Bool.or_eq_true, List.contains_iff_mem, not_or, Bool.not_eq_true] at h
    simp [h.1]

@[simp] theorem notify_volume (e : Effect) (s : State) : (notify e s).volume = s.volume := by unfold notify; split <;> rfl
@[simp] theorem notify_muted (e : Effect) (s : State) : (notify e s).muted = s.muted := by unfold notify; split <;> rfl
@[simp] theorem notify_paused (e : Effect) (s : State) : (notify e s).paused = s.paused := by unfold notify; split <;> rfl
@[simp] theorem notify_unmute (e : Effect) (s : State) : (notify e s).unmute = s.unmute := by unfold notify; split <;> rfl
@[simp] theorem notify_enabled (e : Effect) (s : State) : (notify e s).enabled = s.enabled := by unfold notify; split <;> rfl
@[simp] theorem notify_root (e : Effect) (s : State) : (notify e s).root = s.root := by unfold notify; split <;> rfl
@[simp] theorem notify_gain (e : Effect) (s : State) : (notify e s).gain = s.gain := by unfold notify; split <;> rfl
@[simp] theorem notify_left (e : Effect) (s : State) : (notify e s).left = s.left := by unfold notify; split <;> rfl
@[simp] theorem notify_closed (e : Effect) (s : State) : (notify e s).closed = s.closed := by unfold notify; split <;> rfl

theorem notify_nodup {e : Effect} {s : State} (h : s.queue.Nodup) : (notify e s).queue.Nodup := by
  unfold notify
  split
  · exact h
  · next h' =>
    simp only [Bool.or_eq_true, List.contains_iff_mem, not_or] at h'
    rw [List.nodup_append]
    refine ⟨h, by simp, ?_⟩
    rintro a ha b hb rfl
    simp at hb
    exact h'.2 (hb ▸ ha)

theorem notify_nil {e : Effect} {s : State} (h : s.closed = true) : notify e s = s := by simp [notify, h]

/-- What `setVolume` does. -/
structure SetVolume (v : Rat) (s t : State) : Prop where
  volume : t.volume = v
  muted : t.muted = s.muted
  paused : t.paused = s.paused
  unmute : t.unmute = s.unmute
  enabled : t.enabled = s.enabled
  root : t.root = s.root
  gain : t.gain = s.gain
  left : t.left = s.left
  closed : t.closed = s.closed
  nodup : s.queue.Nodup → t.queue.Nodup
  queue : ∀ f, f ∈ t.queue ↔ f ∈ s.queue ∨ (s.closed = false ∧ s.volume ≠ v ∧
    (f = .level ∨ (f = .gain ∧ s.gain.isSome = true)))

theorem setVolume_spec (v : Rat) (swap : Bool) (s : State) : SetVolume v s (setVolume v swap s) := by
  unfold setVolume
  split
  · next h => exact ⟨h, rfl, rfl, rfl, rfl, rfl, rfl, rfl, rfl, id, fun f => by simp [h]⟩
  · next h =>
    dsimp only
    split
    · next hg =>
      refine ⟨by simp, by simp, by simp, by simp, by simp, by simp, by simp, by simp, by simp, fun hn => notify_nodup hn,
        fun f => ?_⟩
      rw [mem_notify]
      simp [h, hg]
    · next g hg =>
      split
      · refine ⟨by simp, by simp, by simp, by simp, by simp, by simp, by simp, by simp, by simp,
          fun hn => notify_nodup (notify_nodup hn), fun f => ?_⟩
        rw [mem_notify, mem_notify]
        simp only [notify_closed, h, hg, Option.isSome_some, and_true, not_false_eq_true, true_and, ne_eq]
        grind
      · refine ⟨by simp, by simp, by simp, by simp, by simp, by simp, by simp, by simp, by simp,
          fun hn => notify_nodup (notify_nodup hn), fun f => ?_⟩
        rw [mem_notify, mem_notify]
        simp only [notify_closed, h, hg, Option.isSome_some, and_true, not_false_eq_true, true_and, ne_eq]
        grind

theorem setVolume_closed {v : Rat} {swap : Bool} {s : State} (h : s.closed = true) :
    setVolume v swap s = { s with volume := v } := by
  unfold setVolume
  split
  · next e => subst e; rfl
  · dsimp only
    split
    · simp [notify, h]
    · split <;> simp [notify, h]

theorem init_inv (p : Props) (enabled root : Bool) : Inv (init p enabled root) := by
  refine ⟨by simp [init], ?_, ?_, ?_, ?_, ?_⟩
  · show (1 / 2 : Rat) ≠ 0
    decide +kernel
  · simp [init]
  · simp [init]
  · simp [init]
  · simp [init]

theorem nil_of_forall {q : List Effect} (h : ∀ f, f ∉ q) : q = [] := List.eq_nil_iff_forall_not_mem.2 h

theorem step_inv {s : State} (h : Inv s) (o : Op) : Inv (step s o) := by
  obtain ⟨h1, h2, h3, h4, h5, h6⟩ := h
  cases o with
  | volume v swap =>
    have k := setVolume_spec v swap s
    refine ⟨k.nodup h1, ?_, ?_, ?_, ?_, ?_⟩ <;> simp only [step]
    · rw [k.unmute]; exact h2
    · rw [k.closed, k.queue, k.queue, k.muted, k.volume]
      grind
    · rw [k.closed, k.queue, k.gain, k.volume]
      intro hc hq g hg
      have := h4 hc (fun x => hq (.inl x)) g hg
      have hgs : s.gain.isSome = true := by simp [hg]
      grind
    · rw [k.closed, k.queue, k.gain, k.root]
      grind
    · rw [k.closed]
      intro hc
      apply nil_of_forall
      intro f hf
      rw [k.queue] at hf
      simp [h6 hc, hc] at hf
  | muted b =>
    simp only [step, setMuted]
    split
    · exact ⟨h1, h2, h3, h4, h5, h6⟩
    · next hb =>
      refine ⟨notify_nodup h1, by simpa using h2, ?_, ?_, ?_, ?_⟩
      · intro hc hq
        rw [notify_closed] at hc
        rw [mem_notify] at hq
        exact absurd (.inr ⟨hc, rfl⟩) hq
      · intro hc hq
        rw [notify_closed] at hc
        rw [mem_notify] at hq
        simpa using h4 hc (fun x => hq (.inl x))
      · intro hc hq
        rw [notify_closed] at hc
        rw [mem_notify] at hq
        simpa using h5 hc (fun x => hq (.inl x))
      · intro hc
        rw [notify_closed] at hc
        rw [notify_nil (by exact hc)]
        exact h6 hc
  | paused b =>
    simp only [step, setPaused]
    split
    · exact ⟨h1, h2, h3, h4, h5, h6⟩
    · next hb =>
      refine ⟨notify_nodup h1, by simpa using h2, ?_, ?_, ?_, ?_⟩
      · intro hc hq hq'
        rw [notify_closed] at hc
        rw [mem_notify] at hq hq'
        simpa using h3 hc (fun x => hq (.inl x)) (fun x => hq' (.inl x))
      · intro hc hq
        rw [notify_closed] at hc
        rw [mem_notify] at hq
        simpa using h4 hc (fun x => hq (.inl x))
      · intro hc hq
        rw [notify_closed] at hc
        rw [mem_notify] at hq
        simpa using h5 hc (fun x => hq (.inl x))
      · intro hc
        rw [notify_closed] at hc
        rw [notify_nil (by exact hc)]
        exact h6 hc
  | force b => exact ⟨h1, h2, h3, h4, h5, h6⟩
  | root =>
    simp only [step]
    refine ⟨notify_nodup h1, by simpa using h2, ?_, ?_, ?_, ?_⟩
    · intro hc hq hq'
      rw [notify_closed] at hc
      rw [mem_notify] at hq hq'
      simpa using h3 hc (fun x => hq (.inl x)) (fun x => hq' (.inl x))
    · intro hc hq
      rw [notify_closed] at hc
      rw [mem_notify] at hq
      simpa using h4 hc (fun x => hq (.inl x))
    · intro hc hq
      rw [notify_closed] at hc
      rw [mem_notify] at hq
      exact absurd (.inr ⟨hc, rfl⟩) hq
    · intro hc
      rw [notify_closed] at hc
      rw [notify_nil (by exact hc)]
      exact h6 hc
  | close => exact ⟨by simp [step], h2, by simp [step], by simp [step], by simp [step], by simp [step]⟩
  | run swap =>
    simp only [step]
    split
    · exact ⟨h1, h2, h3, h4, h5, h6⟩
    · next e q hq =>
      have hopen : s.closed = false := by
        cases hc : s.closed with
        | false => rfl
        | true => rw [h6 hc] at hq; cases hq
      rw [hq] at h1 h3 h4 h5
      have hn : q.Nodup := (List.nodup_cons.1 h1).2
      have he : e ∉ q := (List.nodup_cons.1 h1).1
      cases e with
      | mute =>
        simp only [perform]
        split
        · next hm =>
          have k := setVolume_spec 0 swap { s with queue := q, unmute := if s.volume = 0 then 1 / 2 else s.volume }
          generalize setVolume 0 swap { s with queue := q, unmute := if s.volume = 0 then 1 / 2 else s.volume } = t at k
          refine ⟨k.nodup hn, ?_, ?_, ?_, ?_, ?_⟩
          · show t.unmute ≠ 0
            rw [k.unmute]
            dsimp only
            split
            · decide +kernel
            · assumption
          · intro _ _ _
            show t.muted = true ↔ t.volume = 0
            rw [k.muted, k.volume]
            simp [hm]
          · intro _ hg
            show ∀ g, t.gain = some g → g = t.volume
            have hg : Effect.gain ∉ t.queue := hg
            rw [k.queue] at hg
            rw [k.gain, k.volume]
            intro g hgg
            have hgg : s.gain = some g := hgg
            have := h4 hopen (fun x => hg (.inl (by simpa using x))) g hgg
            grind
          · intro _ hg
            show t.root = true → t.gain.isSome = true
            have hg : Effect.node ∉ t.queue := hg
            rw [k.queue] at hg
            rw [k.root, k.gain]
            exact h5 hopen (fun x => hg (.inl (by simpa using x)))
          · intro hc
            have hc : t.closed = true := hc
            rw [k.closed] at hc
            simp [hopen] at hc
        · next hm =>
          have k := setVolume_spec s.unmute swap { s with queue := q }
          generalize setVolume s.unmute swap { s with queue := q } = t at k
          refine ⟨k.nodup hn, ?_, ?_, ?_, ?_, ?_⟩
          · show t.unmute ≠ 0
            rw [k.unmute]
            exact h2
          · intro _ _ _
            show t.muted = true ↔ t.volume = 0
            rw [k.muted, k.volume]
            simp only [hm, Bool.false_eq_true, false_iff]
            exact h2
          · intro _ hg
            show ∀ g, t.gain = some g → g = t.volume
            have hg : Effect.gain ∉ t.queue := hg
            rw [k.queue] at hg
            rw [k.gain, k.volume]
            intro g hgg
            have hgg : s.gain = some g := hgg
            have := h4 hopen (fun x => hg (.inl (by simpa using x))) g hgg
            grind
          · intro _ hg
            show t.root = true → t.gain.isSome = true
            have hg : Effect.node ∉ t.queue := hg
            rw [k.queue] at hg
            rw [k.root, k.gain]
            exact h5 hopen (fun x => hg (.inl (by simpa using x)))
          · intro hc
            have hc : t.closed = true := hc
            rw [k.closed] at hc
            simp [hopen] at hc
      | level =>
        simp only [perform, setMuted]
        split
        · next hb =>
          refine ⟨hn, h2, ?_, ?_, ?_, ?_⟩
          · intro _ _ _
            show s.muted = true ↔ s.volume = 0
            have hb : s.muted = (s.volume == 0) := hb
            rw [hb]; simp
          · intro _ hg
            exact h4 hopen (by simpa using hg)
          · intro _ hg
            exact h5 hopen (by simpa using hg)
          · intro hc
            simp [hopen] at hc
        · next hb =>
          refine ⟨notify_nodup hn, by simpa using h2, ?_, ?_, ?_, ?_⟩
          · intro _ hc
            rw [mem_notify] at hc
            exact absurd (.inr ⟨hopen, rfl⟩) hc
          · intro _ hg
            rw [mem_notify] at hg
            simpa using h4 hopen (fun x => hg (.inl (by simpa using x)))
          · intro _ hg
            rw [mem_notify] at hg
            simpa using h5 hopen (fun x => hg (.inl (by simpa using x)))
          · intro hc
            simp [hopen] at hc
      | node =>
        simp only [perform]
        split
        · next hr =>
          refine ⟨notify_nodup hn, by simpa using h2, ?_, ?_, ?_, ?_⟩
          · intro _ hc hc'
            rw [mem_notify] at hc hc'
            simpa using h3 hopen (fun x => hc (.inl (by simpa using x))) (fun x => hc' (.inl (by simpa using x)))
          · intro _ hg
            rw [mem_notify] at hg
            exact absurd (.inr ⟨hopen, rfl⟩) hg
          · intro _ hg
            simp
          · intro hc
            simp [hopen] at hc
        · next hr =>
          refine ⟨hn, h2, ?_, ?_, ?_, ?_⟩
          · intro _ hc hc'
            exact h3 hopen (by simpa using hc) (by simpa using hc')
          · intro _ hg
            exact h4 hopen (by simpa using hg)
          · intro _ _ hr'
            exact absurd hr' hr
          · intro hc
            simp [hopen] at hc
      | gain =>
        simp only [perform]
        split
        · next hg =>
          have hg : s.gain = none := hg
          refine ⟨hn, h2, ?_, ?_, ?_, ?_⟩
          · intro _ hc hc'
            exact h3 hopen (by simpa using hc) (by simpa using hc')
          · intro _ _ g h
            have h : s.gain = some g := h
            rw [hg] at h; cases h
          · intro _ hc
            exact h5 hopen (by simpa using hc)
          · intro hc
            simp [hopen] at hc
        · next g hg =>
          refine ⟨hn, h2, ?_, ?_, ?_, ?_⟩
          · intro _ hc hc'
            exact h3 hopen (by simpa using hc) (by simpa using hc')
          · intro _ _ g h
            injection h with h
            exact h.symm
          · intro _ _ _
            rfl
          · intro hc
            simp [hopen] at hc
      | pause =>
        simp only [perform]
        refine ⟨hn, h2, ?_, ?_, ?_, ?_⟩
        · intro _ hc hc'
          exact h3 hopen (by simpa using hc) (by simpa using hc')
        · intro _ hc
          exact h4 hopen (by simpa using hc)
        · intro _ hc
          exact h5 hopen (by simpa using hc)
        · intro hc
          simp [hopen] at hc

theorem inv_reach {p : Props} {enabled root : Bool} {tr : List (Op × Unit)} {s : State}
    (h : (machine p enabled root).Reach tr s) : Inv s :=
  Machine.Reach.induct (P := fun _ s => Inv s) (init_inv p enabled root) (fun _ _ o _ h => step_inv h o) h

end Verif.Js.Emitter
