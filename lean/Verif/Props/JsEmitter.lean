import Verif.Js.EmitterLemmas

/-!
# C113: volume, mute and pause of a player in the browser

The volume is what was set last; muting makes it zero and unmuting gives back the volume from before; audio is
downloaded unless it is paused.
-/

set_option autoImplicit false

namespace Verif.Props.JsEmitter

open Verif Verif.Js.Emitter

/-- Effects run, one after the other. -/
def runs (s : State) : List Bool → State
  | [] => s
  | b :: bs => runs (step s (.run b)) bs

/-- All effects have run and nothing was closed. -/
structure Rest (s : State) : Prop where
  quiet : s.queue = []
  opened : s.closed = false

theorem run_nil {s : State} (h : s.queue = []) (b : Bool) : step s (.run b) = s := by simp [step, h]

theorem runs_nil {s : State} (h : s.queue = []) (bs : List Bool) : runs s bs = s := by
  induction bs with
  | nil => rfl
  | cons b bs ih => rw [runs, run_nil h, ih]

theorem runs_inv {s : State} (h : Inv s) (bs : List Bool) : Inv (runs s bs) := by
  induction bs generalizing s with
  | nil => exact h
  | cons b bs ih => exact ih (step_inv h _)

theorem reach_runs {p : Props} {enabled root : Bool} (bs : List Bool) {tr : List (Op × Unit)} {t : State}
    (h : (machine p enabled root).Reach tr t) : ∃ tr : List (Op × Unit), (machine p enabled root).Reach tr (runs t bs) := by
  induction bs generalizing tr t with
  | nil => exact ⟨tr, h⟩
  | cons b bs ih => exact ih (Machine.Reach.step (M := machine p enabled root) (.run b) h)

/-- Whenever all effects have run, muted means that the volume is zero, and what is heard has that volume. -/
theorem c113_fit {p : Props} {enabled root : Bool} {tr : List (Op × Unit)} {s : State}
    (h : (machine p enabled root).Reach tr s) (hr : Rest s) :
    (s.muted = true ↔ s.volume = 0) ∧ (s.root = true → s.gain = some s.volume) := by
  have hi := inv_reach h
  obtain ⟨hq, hc⟩ := hr
  refine ⟨hi.fit hc (by simp [hq]) (by simp [hq]), fun hr => ?_⟩
  have h1 := hi.node hc (by simp [hq]) hr
  cases hg : s.gain with
  | none => simp [hg] at h1
  | some g => rw [hi.gain hc (by simp [hq]) g hg]

/-! ## Effects come to rest -/

/-- How much an effect may cause. -/
def weight : Effect → Nat
  | .mute => 3
  | .level => 1
  | .node => 2
  | .gain => 1
  | .pause => 1

/-- What may follow if muted and volume do not fit. -/
def gap (m : Bool) (v : Rat) : Nat := if m = (v == 0) then 0 else 4

/-- What is still to do at most. -/
def todo (s : State) : Nat := (s.queue.map weight).sum + gap s.muted s.volume

theorem notify_sum (e : Effect) (s : State) :
    ((notify e s).queue.map weight).sum ≤ (s.queue.map weight).sum + weight e := by
  unfold notify
  split
  · omega
  · simp

theorem setVolume_sum (v : Rat) (swap : Bool) (s : State) :
    ((setVolume v swap s).queue.map weight).sum ≤ (s.queue.map weight).sum + 2 := by
  unfold setVolume
  split
  · omega
  · dsimp only
    have h1 := fun t : State => notify_sum .level t
    have h2 := fun t : State => notify_sum .gain t
    simp only [weight] at h1 h2
    split
    · have := h1 { s with volume := v }
      dsimp only at this
      omega
    · split
      · have := h1 (notify .gain { s with volume := v })
        have := h2 { s with volume := v }
        dsimp only at *
        omega
      · have := h2 (notify .level { s with volume := v })
        have := h1 { s with volume := v }
        dsimp only at *
        omega

theorem run_less {s : State} (h : Inv s) (b : Bool) (hq : s.queue ≠ []) : todo (step s (.run b)) < todo s := by
  obtain ⟨e, q, he⟩ := List.exists_cons_of_ne_nil hq
  simp only [step, he]
  unfold todo
  rw [he, List.map_cons, List.sum_cons]
  cases e with
  | mute =>
    simp only [perform]
    split
    · next hm =>
      have k := setVolume_spec 0 b { s with queue := q, unmute := if s.volume = 0 then 1 / 2 else s.volume }
      have := setVolume_sum 0 b { s with queue := q, unmute := if s.volume = 0 then 1 / 2 else s.volume }
      generalize setVolume 0 b { s with queue := q, unmute := if s.volume = 0 then 1 / 2 else s.volume } = t at k this
      have hf : gap t.muted t.volume = 0 := by rw [gap, if_pos]; rw [k.muted, k.volume]; simpa using hm
      dsimp only at this ⊢
      rw [hf]
      simp only [weight]; omega
    · next hm =>
      have k := setVolume_spec s.unmute b { s with queue := q }
      have := setVolume_sum s.unmute b { s with queue := q }
      generalize setVolume s.unmute b { s with queue := q } = t at k this
      have hf : gap t.muted t.volume = 0 := by
        rw [gap, if_pos]
        rw [k.muted, k.volume]
        have := h.audible
        simp only [Bool.not_eq_true] at hm
        simp [hm, this]
      dsimp only at this ⊢
      rw [hf]
      simp only [weight]; omega
  | level =>
    simp only [perform, setMuted]
    split
    · simp only [weight]; omega
    · next hb =>
      have hb : ¬ s.muted = (s.volume == 0) := hb
      have := notify_sum .mute { s with queue := q, muted := s.volume == 0 }
      rw [notify_muted, notify_volume]
      have h1 : gap s.muted s.volume = 4 := by rw [gap, if_neg hb]
      have h2 : gap (s.volume == 0) s.volume = 0 := by rw [gap, if_pos rfl]
      simp only [weight] at this ⊢
      rw [h1, h2]
      omega
  | node =>
    simp only [perform]
    split
    · have := notify_sum .gain { s with queue := q, gain := some s.volume, left := s.left ++ s.gain.toList }
      rw [notify_muted, notify_volume]
      simp only [weight] at this ⊢
      omega
    · simp only [weight]; omega
  | gain =>
    simp only [perform]
    cases s.gain with
    | none => simp only [weight]; omega
    | some g => simp only [weight]; omega
  | pause =>
    simp only [perform, weight]
    omega

theorem todo_bound {s : State} (h : Inv s) : todo s ≤ 12 := by
  have key : ∀ q : List Effect, (q.map weight).sum =
      3 * q.count .mute + q.count .level + 2 * q.count .node + q.count .gain + q.count .pause := by
    intro q
    induction q with
    | nil => rfl
    | cons e q ih =>
      rw [List.map_cons, List.sum_cons, ih]
      cases e <;> simp [weight] <;> omega
  have hc : ∀ e : Effect, s.queue.count e ≤ 1 := fun e => List.nodup_iff_count.1 h.nodup e
  unfold todo
  rw [key]
  have h1 := hc .mute
  have h2 := hc .level
  have h3 := hc .node
  have h4 := hc .gain
  have h5 := hc .pause
  have h6 : gap s.muted s.volume ≤ 4 := by unfold gap; split <;> omega
  omega

/-- After any history, twelve effects are enough to come to rest. -/
theorem c113_settles {p : Props} {enabled root : Bool} {tr : List (Op × Unit)} {s : State}
    (h : (machine p enabled root).Reach tr s) (bs : List Bool) (hb : 12 ≤ bs.length) : (runs s bs).queue = [] := by
  have key : ∀ (bs : List Bool) (s : State), Inv s → todo s ≤ bs.length → (runs s bs).queue = [] := by
    intro bs
    induction bs with
    | nil =>
      intro s hi hn
      cases hq : s.queue with
      | nil => exact hq
      | cons e q =>
        unfold todo at hn
        rw [hq] at hn
        cases e <;> simp [weight] at hn
    | cons b bs ih =>
      intro s hi hn
      by_cases hq : s.queue = []
      · rw [runs_nil hq]; exact hq
      · have := run_less hi b hq
        exact ih _ (step_inv hi _) (by simp only [List.length_cons] at hn; omega)
  exact key bs s (inv_reach h) (Nat.le_trans (todo_bound (inv_reach h)) hb)

/-! ## What the buttons do -/

/-- A volume was set that fits: the rest is only told to the node. -/
theorem drain {t : State} (hc : t.closed = false) (hf : t.muted = (t.volume == 0))
    (hq : (t.queue = [.level] ∧ t.gain = none) ∨ t.queue = [.level, .gain] ∨ t.queue = [.gain, .level]) (bs : List Bool)
    (he : (runs t bs).queue = []) : runs t bs = { t with queue := [], gain := t.gain.map fun _ => t.volume } := by
  obtain ⟨v, m, p, u, en, r, g, l, c, q⟩ := t
  dsimp only at hc hf hq
  subst hc
  match bs, he with
  | [], he =>
    dsimp only [runs] at he
    subst he
    rcases hq with ⟨hq, -⟩ | hq | hq <;> cases hq
  | b :: bs, he =>
    rw [runs] at he ⊢
    rcases hq with ⟨rfl, rfl⟩ | rfl | rfl
    · have : step ⟨v, m, p, u, en, r, none, l, false, [.level]⟩ (.run b) = ⟨v, m, p, u, en, r, none, l, false, []⟩ := by
        simp [step, perform, setMuted, hf]
      rw [this, runs_nil rfl]
      rfl
    · have : step ⟨v, m, p, u, en, r, g, l, false, [.level, .gain]⟩ (.run b) =
          ⟨v, m, p, u, en, r, g, l, false, [.gain]⟩ := by
        simp [step, perform, setMuted, hf]
      rw [this] at he ⊢
      match bs, he with
      | [], he => cases he
      | b :: bs, he =>
        rw [runs] at he ⊢
        have : step ⟨v, m, p, u, en, r, g, l, false, [.gain]⟩ (.run b) =
            ⟨v, m, p, u, en, r, g.map (fun _ => v), l, false, []⟩ := by
          cases g <;> rfl
        rw [this, runs_nil rfl]
    · have : step ⟨v, m, p, u, en, r, g, l, false, [.gain, .level]⟩ (.run b) =
          ⟨v, m, p, u, en, r, g.map (fun _ => v), l, false, [.level]⟩ := by
        cases g <;> rfl
      rw [this] at he ⊢
      match bs, he with
      | [], he => cases he
      | b :: bs, he =>
        rw [runs] at he ⊢
        have : step ⟨v, m, p, u, en, r, g.map (fun _ => v), l, false, [.level]⟩ (.run b) =
            ⟨v, m, p, u, en, r, g.map (fun _ => v), l, false, []⟩ := by
          simp [step, perform, setMuted, hf]
        rw [this, runs_nil rfl]

theorem setVolume_rest {s : State} (hr : Rest s) {v : Rat} (hv : s.volume ≠ v) (swap : Bool) :
    setVolume v swap s = { s with volume := v, queue := (setVolume v swap s).queue } ∧
    (((setVolume v swap s).queue = [.level] ∧ s.gain = none) ∨ (setVolume v swap s).queue = [.level, .gain] ∨
      (setVolume v swap s).queue = [.gain, .level]) := by
  obtain ⟨vo, m, p, u, en, r, g, l, c, q⟩ := s
  obtain ⟨rfl, rfl⟩ := hr
  dsimp only at hv
  cases g with
  | none => simp [setVolume, hv, notify]
  | some g => cases swap <;> simp [setVolume, hv, notify]

/-- Setting a volume at rest while not muted: that is the volume, and muted if it is zero. -/
theorem drain_set {s : State} (hr : Rest s) {v : Rat} (hf : s.muted = (v == 0)) (swap : Bool)
    (hg : ∀ g, s.gain = some g → g = s.volume) (bs : List Bool) (he : (runs (setVolume v swap s) bs).queue = []) :
    runs (setVolume v swap s) bs = { s with volume := v, gain := s.gain.map fun _ => v } := by
  by_cases hv : s.volume = v
  · have h1 : setVolume v swap s = s := by simp [setVolume, hv]
    rw [h1] at he ⊢
    rw [runs_nil hr.quiet]
    obtain ⟨vo, m, p, u, en, r, g, l, c, q⟩ := s
    dsimp only at hv hg ⊢
    subst hv
    cases g with
    | none => rfl
    | some g => rw [hg g rfl]; rfl
  · obtain ⟨h1, h2⟩ := setVolume_rest hr hv swap
    have := drain (t := setVolume v swap s) (by rw [h1]; exact hr.opened) (by rw [h1]; exact hf)
      (by rw [h1] at h2 ⊢; exact h2) bs he
    rw [this, h1]
    obtain ⟨vo, m, p, u, en, r, g, l, c, q⟩ := s
    obtain ⟨rfl, rfl⟩ := hr
    rfl

/-- Setting an audible volume while not muted: that is the volume, and nothing else changes. -/
theorem c113_set {p : Props} {enabled root : Bool} {tr : List (Op × Unit)} {s : State}
    (h : (machine p enabled root).Reach tr s) (hr : Rest s) (hm : s.muted = false) (v : Rat) (hv : v ≠ 0) (swap : Bool)
    (bs : List Bool) (he : (runs (step s (.volume v swap)) bs).queue = []) :
    runs (step s (.volume v swap)) bs = { s with volume := v, gain := s.gain.map fun _ => v } :=
  drain_set hr (by simp [hm, hv]) swap ((inv_reach h).gain hr.opened (by simp [hr.quiet])) bs he

theorem mute_run {s : State} (hr : Rest s) (hm : s.muted = false) (b : Bool) :
    step (step s (.muted true)) (.run b) =
      { (setVolume 0 b { s with muted := true, unmute := if s.volume = 0 then 1 / 2 else s.volume }) with
        enabled := false } := by
  obtain ⟨v, m, p, u, en, r, g, l, c, q⟩ := s
  obtain ⟨rfl, rfl⟩ := hr
  dsimp only at hm
  subst hm
  rfl

theorem notify_enabled' {e : Effect} {s : State} {b : Bool} :
    { notify e s with enabled := b } = notify e { s with enabled := b } := by
  unfold notify
  dsimp only
  split <;> rfl

theorem set_enabled {v : Rat} {b e : Bool} {s : State} :
    { setVolume v b s with enabled := e } = setVolume v b { s with enabled := e } := by
  unfold setVolume
  obtain ⟨v', m, p, u, en, r, g, l, c, q⟩ := s
  dsimp only
  cases g with
  | none =>
    dsimp only
    split
    · rfl
    · exact notify_enabled'
  | some g =>
    dsimp only
    split
    · rfl
    · cases b
      · exact notify_enabled'.trans (congrArg (notify .gain) notify_enabled')
      · exact notify_enabled'.trans (congrArg (notify .level) notify_enabled')

/-- Muting: the volume is zero, the volume from before is kept for later, and audio is not downloaded. -/
theorem c113_mute {p : Props} {enabled root : Bool} {tr : List (Op × Unit)} {s : State}
    (h : (machine p enabled root).Reach tr s) (hr : Rest s) (hm : s.muted = false) (bs : List Bool)
    (he : (runs (step s (.muted true)) bs).queue = []) :
    runs (step s (.muted true)) bs =
      { s with muted := true, volume := 0, unmute := s.volume, enabled := false, gain := s.gain.map fun _ => 0 } := by
  have hv : s.volume ≠ 0 := by
    intro e
    have := (c113_fit h hr).1.2 e
    simp [hm] at this
  match bs, he with
  | [], he =>
    simp [runs, step, setMuted, hm, notify, hr.opened, hr.quiet] at he
  | b :: bs, he =>
    rw [runs] at he ⊢
    rw [mute_run hr hm, if_neg hv, set_enabled] at he ⊢
    rw [drain_set (s := { s with muted := true, unmute := s.volume, enabled := false }) ⟨hr.quiet, hr.opened⟩ rfl b
      ((inv_reach h).gain hr.opened (by simp [hr.quiet])) bs he]

/-- Unmuting: the volume is the one that was kept, and audio is downloaded, even if it is paused. -/
theorem c113_unmute {p : Props} {enabled root : Bool} {tr : List (Op × Unit)} {s : State}
    (h : (machine p enabled root).Reach tr s) (hr : Rest s) (hm : s.muted = true) (bs : List Bool)
    (he : (runs (step s (.muted false)) bs).queue = []) :
    runs (step s (.muted false)) bs =
      { s with muted := false, volume := s.unmute, enabled := true, gain := s.gain.map fun _ => s.unmute } := by
  have hg := (inv_reach h).gain hr.opened (by simp [hr.quiet])
  have hu := (inv_reach h).audible
  match bs, he with
  | [], he =>
    simp [runs, step, setMuted, hm, notify, hr.opened, hr.quiet] at he
  | b :: bs, he =>
    rw [runs] at he ⊢
    have : step (step s (.muted false)) (.run b) = { setVolume s.unmute b { s with muted := false } with enabled := true } := by
      obtain ⟨v, m, p, u, en, r, g, l, c, q⟩ := s
      obtain ⟨rfl, rfl⟩ := hr
      dsimp only at hm
      subst hm
      rfl
    rw [this, set_enabled] at he ⊢
    rw [drain_set (s := { s with muted := false, enabled := true }) ⟨hr.quiet, hr.opened⟩ (by simp [hu]) b hg bs he]

/-- Muting and unmuting gives the volume back. -/
theorem c113_back {p : Props} {enabled root : Bool} {tr : List (Op × Unit)} {s : State}
    (h : (machine p enabled root).Reach tr s) (hr : Rest s) (hm : s.muted = false) (bs cs : List Bool)
    (he : (runs (step s (.muted true)) bs).queue = [])
    (he' : (runs (step (runs (step s (.muted true)) bs) (.muted false)) cs).queue = []) :
    (runs (step (runs (step s (.muted true)) bs) (.muted false)) cs).volume = s.volume ∧
    (runs (step (runs (step s (.muted true)) bs) (.muted false)) cs).muted = false := by
  obtain ⟨tr', h'⟩ := reach_runs bs (Machine.Reach.step (M := machine p enabled root) (.muted true) h)
  have h1 := c113_mute h hr hm bs he
  have h' : (machine p enabled root).Reach tr' (runs (step s (.muted true)) bs) := h'
  rw [h1] at h' he' ⊢
  rw [c113_unmute h' ⟨hr.quiet, hr.opened⟩ rfl cs he']
  exact ⟨rfl, rfl⟩

/-- Pausing stops and resuming starts the download, muted or not. -/
theorem c113_pause {p : Props} {enabled root : Bool} {tr : List (Op × Unit)} {s : State}
    (_h : (machine p enabled root).Reach tr s) (hr : Rest s) (b : Bool) (hb : s.paused ≠ b) (bs : List Bool)
    (he : (runs (step s (.paused b)) bs).queue = []) :
    runs (step s (.paused b)) bs = { s with paused := b, enabled := !b } := by
  obtain ⟨v, m, p, u, en, r, g, l, c, q⟩ := s
  obtain ⟨rfl, rfl⟩ := hr
  dsimp only at hb
  have h1 : step ⟨v, m, p, u, en, r, g, l, false, []⟩ (.paused b) = ⟨v, m, b, u, en, r, g, l, false, [.pause]⟩ := by
    simp [step, setPaused, hb, notify]
  rw [h1] at he ⊢
  match bs, he with
  | [], he => cases he
  | b' :: bs, he =>
    rw [runs] at he ⊢
    have : step ⟨v, m, b, u, en, r, g, l, false, [.pause]⟩ (.run b') = ⟨v, m, b, u, !b, r, g, l, false, []⟩ := rfl
    rw [this, runs_nil rfl]

/-- A new root gets a node with the volume; the node of the root before stays as it is. -/
theorem c113_root {p : Props} {enabled root : Bool} {tr : List (Op × Unit)} {s : State}
    (_h : (machine p enabled root).Reach tr s) (hr : Rest s) (bs : List Bool)
    (he : (runs (step s .root) bs).queue = []) :
    runs (step s .root) bs = { s with root := true, gain := some s.volume, left := s.left ++ s.gain.toList } := by
  obtain ⟨v, m, p, u, en, r, g, l, c, q⟩ := s
  obtain ⟨rfl, rfl⟩ := hr
  have h1 : step ⟨v, m, p, u, en, r, g, l, false, []⟩ .root = ⟨v, m, p, u, en, true, g, l, false, [.node]⟩ := rfl
  have h2 : ∀ b, step ⟨v, m, p, u, en, true, g, l, false, [.node]⟩ (.run b) =
      ⟨v, m, p, u, en, true, some v, l ++ g.toList, false, [.gain]⟩ := fun _ => rfl
  have h3 : ∀ l b, step ⟨v, m, p, u, en, true, some v, l, false, [.gain]⟩ (.run b) =
      ⟨v, m, p, u, en, true, some v, l, false, []⟩ := fun _ _ => rfl
  rw [h1] at he ⊢
  match bs, he with
  | [], he => cases he
  | [_], he => rw [runs, h2] at he; cases he
  | _ :: _ :: bs, he =>
    rw [runs, h2, runs, h3, runs_nil rfl]

/-! ## Violations -/

/-- A violation: setting a volume while muted unmutes, with the volume from before the muting instead of the one that was
set. -/
theorem c113_override {p : Props} {enabled root : Bool} {tr : List (Op × Unit)} {s : State}
    (h : (machine p enabled root).Reach tr s) (hr : Rest s) (hm : s.muted = true) (v : Rat) (hv : v ≠ 0) (swap : Bool)
    (bs : List Bool) (he : (runs (step s (.volume v swap)) bs).queue = []) :
    runs (step s (.volume v swap)) bs =
      { s with volume := s.unmute, muted := false, enabled := true, gain := s.gain.map fun _ => s.unmute } := by
  have hi := inv_reach h
  have h0 : s.volume = 0 := (c113_fit h hr).1.1 hm
  have hu := hi.audible
  have hend : ∀ (t : State), t.queue = [.mute] → t.closed = false → t.muted = false → t.volume ≠ 0 →
      t.unmute ≠ 0 → (∀ g, t.gain = some g → g = t.volume) → ∀ bs, (runs t bs).queue = [] →
      runs t bs = { t with volume := t.unmute, enabled := true, gain := t.gain.map (fun _ => t.unmute), queue := [] } := by
    intro t hq hc hm hv hu hg bs he
    match bs, he with
    | [], he => simp [runs, hq] at he
    | b :: bs, he =>
      rw [runs] at he ⊢
      have e : step t (.run b) = { setVolume t.unmute b { t with queue := [] } with enabled := true } := by
        obtain ⟨v, m, p, u, en, r, g, l, c, q⟩ := t
        dsimp only at hq hm
        subst hq hm
        rfl
      rw [e, set_enabled] at he ⊢
      rw [drain_set (s := { t with queue := [], enabled := true }) ⟨rfl, hc⟩ (by simp [hm, hu]) b hg bs he]
  obtain ⟨h1, h2⟩ := setVolume_rest hr (v := v) (by rw [h0]; exact Ne.symm hv) swap
  simp only [step] at he ⊢
  generalize setVolume v swap s = t at h1 h2 he
  obtain ⟨vo, m, p, u, en, r, g, l, c, q⟩ := s
  obtain ⟨rfl, rfl⟩ := hr
  obtain ⟨vo', m', p', u', en', r', g', l', c', q'⟩ := t
  dsimp only at *
  subst hm h0
  injection h1 with e1 e2 e3 e4 e5 e6 e7 e8 e9 _
  rw [e1, e2, e3, e4, e5, e6, e7, e8, e9] at he ⊢
  clear e1 e2 e3 e4 e5 e6 e7 e8 e9
  have hlev : ∀ (g : Option Rat) (q : List Effect) (b : Bool), .mute ∉ q →
      step ⟨v, true, p, u, en, r, g, l, false, .level :: q⟩ (.run b) = ⟨v, false, p, u, en, r, g, l, false, q ++ [.mute]⟩ := by
    intro g q b hq
    simp [step, perform, setMuted, hv, notify, hq]
  have hgain : ∀ (m : Bool) (q : List Effect) (b : Bool),
      step ⟨v, m, p, u, en, r, g, l, false, .gain :: q⟩ (.run b) =
        ⟨v, m, p, u, en, r, g.map (fun _ => v), l, false, q⟩ := by
    intro m q b
    cases g <;> rfl
  rcases h2 with ⟨rfl, rfl⟩ | rfl | rfl
  · match bs, he with
    | [], he => cases he
    | b :: bs, he =>
      rw [runs, hlev _ _ _ (by simp)] at he ⊢
      rw [hend _ rfl rfl rfl hv hu (by simp) bs he]
  · match bs, he with
    | [], he => cases he
    | [b], he => rw [runs, hlev _ _ _ (by simp)] at he; cases he
    | b :: b' :: bs, he =>
      rw [runs, hlev _ _ _ (by simp), runs, List.cons_append, hgain] at he ⊢
      rw [hend _ rfl rfl rfl hv hu (by cases g <;> simp) bs he]
      cases g <;> rfl
  · match bs, he with
    | [], he => cases he
    | [b], he => rw [runs, hgain] at he; cases he
    | b :: b' :: bs, he =>
      rw [runs, hgain, runs, hlev _ _ _ (by simp)] at he ⊢
      rw [hend _ rfl rfl rfl hv hu (by cases g <;> simp) bs he]
      cases g <;> rfl

/-- Setting the volume to zero mutes; a violation: unmuting then gives one half instead of the volume from before. -/
theorem c113_zero {p : Props} {enabled root : Bool} {tr : List (Op × Unit)} {s : State}
    (h : (machine p enabled root).Reach tr s) (hr : Rest s) (hm : s.muted = false) (swap : Bool)
    (bs : List Bool) (he : (runs (step s (.volume 0 swap)) bs).queue = []) :
    runs (step s (.volume 0 swap)) bs =
      { s with volume := 0, muted := true, unmute := 1 / 2, enabled := false, gain := s.gain.map fun _ => 0 } := by
  have hi := inv_reach h
  have h0 : s.volume ≠ 0 := by
    intro e
    have := (c113_fit h hr).1.2 e
    simp [hm] at this
  have hend : ∀ (t : State), t.queue = [.mute] → t.closed = false → t.muted = true → t.volume = 0 →
      ∀ bs, (runs t bs).queue = [] → runs t bs = { t with unmute := 1 / 2, enabled := false, queue := [] } := by
    intro t hq hc hm hv bs he
    match bs, he with
    | [], he => simp [runs, hq] at he
    | b :: bs, he =>
      rw [runs] at he ⊢
      have e : step t (.run b) = { t with unmute := 1 / 2, enabled := false, queue := [] } := by
        obtain ⟨v, m, p, u, en, r, g, l, c, q⟩ := t
        dsimp only at hq hm hv
        subst hq hm hv
        simp [step, perform, setVolume]
      rw [e, runs_nil rfl]
  obtain ⟨h1, h2⟩ := setVolume_rest hr (v := 0) h0 swap
  simp only [step] at he ⊢
  generalize setVolume 0 swap s = t at h1 h2 he
  obtain ⟨vo, m, p, u, en, r, g, l, c, q⟩ := s
  obtain ⟨rfl, rfl⟩ := hr
  obtain ⟨vo', m', p', u', en', r', g', l', c', q'⟩ := t
  dsimp only at *
  subst hm
  injection h1 with e1 e2 e3 e4 e5 e6 e7 e8 e9 _
  rw [e1, e2, e3, e4, e5, e6, e7, e8, e9] at he ⊢
  clear e1 e2 e3 e4 e5 e6 e7 e8 e9
  have hlev : ∀ (g : Option Rat) (q : List Effect) (b : Bool), .mute ∉ q →
      step ⟨0, false, p, u, en, r, g, l, false, .level :: q⟩ (.run b) = ⟨0, true, p, u, en, r, g, l, false, q ++ [.mute]⟩ := by
    intro g q b hq
    simp [step, perform, setMuted, notify, hq]
  have hgain : ∀ (m : Bool) (q : List Effect) (b : Bool),
      step ⟨0, m, p, u, en, r, g, l, false, .gain :: q⟩ (.run b) =
        ⟨0, m, p, u, en, r, g.map (fun _ => 0), l, false, q⟩ := by
    intro m q b
    cases g <;> rfl
  rcases h2 with ⟨rfl, rfl⟩ | rfl | rfl
  · match bs, he with
    | [], he => cases he
    | b :: bs, he =>
      rw [runs, hlev _ _ _ (by simp)] at he ⊢
      rw [hend _ rfl rfl rfl rfl bs he]
      rfl
  · match bs, he with
    | [], he => cases he
    | [b], he => rw [runs, hlev _ _ _ (by simp)] at he; cases he
    | b :: b' :: bs, he =>
      rw [runs, hlev _ _ _ (by simp), runs, List.cons_append, hgain] at he ⊢
      rw [hend _ rfl rfl rfl rfl bs he]
  · match bs, he with
    | [], he => cases he
    | [b], he => rw [runs, hgain] at he; cases he
    | b :: b' :: bs, he =>
      rw [runs, hgain, runs, hlev _ _ _ (by simp)] at he ⊢
      rw [hend _ rfl rfl rfl rfl bs he]

/-- A violation: the volume that the constructor is given is not used, except after a later unmuting. -/
theorem c113_new (p : Props) (enabled root : Bool) (bs : List Bool) (he : (runs (init p enabled root) bs).queue = []) :
    (runs (init p enabled root) bs).volume = (if p.muted = some true then 0 else 1 / 2) ∧
    (runs (init p enabled root) bs).muted = p.muted.getD false ∧
    (runs (init p enabled root) bs).enabled = !p.paused.getD (p.muted.getD false) := by
  have h0 : (1 / 2 : Rat) ≠ 0 := by decide +kernel
  obtain ⟨pv, pm, pp⟩ := p
  unfold init at he ⊢
  dsimp only at he ⊢
  have hm : (if pm = some true then (0 : Rat) else 1 / 2) = if pm.getD false = true then 0 else 1 / 2 := by
    cases pm <;> simp
  rw [hm]
  generalize pv.getD (1 / 2) = v at he ⊢
  generalize pp.getD (pm.getD false) = pa at he ⊢
  generalize pm.getD false = m at he ⊢
  have e1 : ∀ b, step ⟨v, m, pa, 1 / 2, enabled, root, none, [], false, [.mute, .level, .node, .gain, .pause]⟩ (.run b) =
      ⟨if m = true then 0 else 1 / 2, m, pa, if m = true then if v = 0 then 1 / 2 else v else 1 / 2, !m, root, none, [],
        false, [.level, .node, .gain, .pause]⟩ := by
    intro b
    cases m
    · by_cases hv : v = 1 / 2 <;> simp [step, perform, setVolume, notify, hv]
    · by_cases hv : v = 0 <;> simp [step, perform, setVolume, notify, hv]
  have e2 : ∀ u b, step ⟨if m = true then 0 else 1 / 2, m, pa, u, !m, root, none, [], false,
        [.level, .node, .gain, .pause]⟩ (.run b) =
      ⟨if m = true then 0 else 1 / 2, m, pa, u, !m, root, none, [], false, [.node, .gain, .pause]⟩ := by
    intro u b
    cases m
    · simp [step, perform, setMuted]
      exact fun h => absurd h h0
    · simp [step, perform, setMuted]
  have e3 : ∀ w u b, step ⟨w, m, pa, u, !m, root, none, [], false, [.node, .gain, .pause]⟩ (.run b) =
      ⟨w, m, pa, u, !m, root, if root = true then some w else none, [], false, [.gain, .pause]⟩ := by
    intro w u b
    cases root <;> simp [step, perform, notify]
  have e4 : ∀ w u b, step ⟨w, m, pa, u, !m, root, if root = true then some w else none, [], false, [.gain, .pause]⟩ (.run b) =
      ⟨w, m, pa, u, !m, root, if root = true then some w else none, [], false, [.pause]⟩ := by
    intro w u b
    cases root <;> simp [step, perform]
  have e5 : ∀ w u g b, step ⟨w, m, pa, u, !m, root, g, [], false, [.pause]⟩ (.run b) =
      ⟨w, m, pa, u, !pa, root, g, [], false, []⟩ := fun _ _ _ _ => rfl
  match bs, he with
  | [], he => cases he
  | [_], he => rw [runs, e1] at he; cases he
  | [_, _], he => rw [runs, e1, runs, e2] at he; cases he
  | [_, _, _], he => rw [runs, e1, runs, e2, runs, e3] at he; cases he
  | [_, _, _, _], he => rw [runs, e1, runs, e2, runs, e3, runs, e4] at he; cases he
  | _ :: _ :: _ :: _ :: _ :: bs, he =>
    rw [runs, e1, runs, e2, runs, e3, runs, e4, runs, e5, runs_nil rfl]
    exact ⟨rfl, rfl, rfl⟩

/-- After `close()` nothing follows from setting a signal. -/
theorem c113_close {p : Props} {enabled root : Bool} {tr : List (Op × Unit)} {s : State}
    (h : (machine p enabled root).Reach tr s) (hc : s.closed = true) :
    s.queue = [] ∧ (∀ v swap, step s (.volume v swap) = { s with volume := v }) ∧
    (∀ b, step s (.muted b) = { s with muted := b }) ∧ (∀ b, step s (.paused b) = { s with paused := b }) ∧
    step s .root = { s with root := true } := by
  refine ⟨(inv_reach h).closed hc, fun v swap => setVolume_closed hc, fun b => ?_, fun b => ?_, ?_⟩
  · obtain ⟨v', m, p, u, en, r, g, l, c, q⟩ := s
    simp only [step, setMuted, notify]
    dsimp only at hc
    subst hc
    split
    · next e => subst e; rfl
    · rfl
  · obtain ⟨v', m, p, u, en, r, g, l, c, q⟩ := s
    simp only [step, setPaused, notify]
    dsimp only at hc
    subst hc
    split
    · next e => subst e; rfl
    · rfl
  · simp [step, notify, hc]

/-! ## Cases -/

/-- Twelve effects. -/
def twelve : List Bool := List.replicate 12 false

/-- A player with a volume of four fifths, at rest. -/
def one : State := runs (runs (init ⟨none, none, none⟩ false true) twelve |> (step · (.volume (4 / 5) true))) twelve

example : one = ⟨4 / 5, false, false, 1 / 2, true, true, some (4 / 5), [], false, []⟩ := by decide +kernel

theorem one_reach : ∃ tr : List (Op × Unit), (machine ⟨none, none, none⟩ false true).Reach tr one := by
  obtain ⟨_, h⟩ := reach_runs (p := ⟨none, none, none⟩) (enabled := false) (root := true) twelve Machine.Reach.init
  exact reach_runs twelve (Machine.Reach.step (M := machine ⟨none, none, none⟩ false true) (.volume (4 / 5) true) h)

/-- At rest, not muted: the cases of `c113_set`, `c113_mute`, `c113_back`, `c113_zero`, `c113_pause` and `c113_root`. -/
example : Rest one ∧ one.muted = false ∧ one.paused ≠ true ∧ (runs (step one (.muted true)) twelve).queue = [] :=
  ⟨⟨by decide +kernel, by decide +kernel⟩, by decide +kernel, by decide +kernel, by decide +kernel⟩

/-- Muted, a volume of three tenths is set: four fifths is heard. -/
example : (runs (step (runs (step one (.muted true)) twelve) (.volume (3 / 10) false)) twelve).gain = some (4 / 5) := by
  decide +kernel

/-- Paused and muted, then unmuted: audio is downloaded though still paused. -/
example : let s := runs (step (runs (step (runs (step one (.muted true)) twelve) (.paused true)) twelve) (.muted false)) twelve
    s.enabled = true ∧ s.paused = true := by decide +kernel

/-- Volume zero, then unmuted: one half instead of four fifths. -/
example : (runs (step (runs (step one (.volume 0 false)) twelve) (.muted false)) twelve).volume = 1 / 2 := by decide +kernel

/-- A player is made with a volume of four fifths: one half is heard. -/
example : (runs (init ⟨some (4 / 5), none, none⟩ false true) twelve).gain = some (1 / 2) := by decide +kernel

/-- Closed. -/
example : (step (step one .close) (.muted true)).volume = 4 / 5 := by decide +kernel

end Verif.Props.JsEmitter
