import Verif.Js.ScheduleLemmas

/-! # Property C103: when samples are played -/

set_option autoImplicit false

namespace Verif.Props.JsSchedule

open Verif Verif.Js.Schedule

variable {tr : Trace} {s : State}

/-- **C103.**  The first sample is played with the maximal latency.  Later ones keep their distance to
the sample that was scheduled before, as long as they are not late, which means that they are dropped, and
not earlier than the maximal latency, with which they are played then.  (Provided that the offset between
timestamps and times is not 0.) -/
theorem c103_sync_partial (h : machine.Reach tr s) (t : Int) (max f : Nat) :
    let o := (step s (.emit t max f)).1
    let i := (emitted tr).length
    let k := (scheduled tr).length
    (offset tr = none → o = .scheduled k i (clock tr + max)) ∧
    ∀ d, offset tr = some d → d ≠ 0 →
      (t - d < clock tr → o = .dropped i) ∧
      (clock tr ≤ t - d → t - d ≤ clock tr + max → o = .scheduled k i (t - d)) ∧
      (clock tr + max < t - d → o = .scheduled k i (clock tr + max)) := by
  have it := tinv_reach h
  have k := step_kind s (.emit t max f)
  dsimp only
  rw [it.ref, it.clock, it.samples, it.len]
  generalize (step s (.emit t max f)).1 = o at k ⊢
  generalize (step s (.emit t max f)).2 = s' at k
  cases k with
  | dropped _ _ _ r hr h0 h =>
    rw [hr]
    refine ⟨by simp, fun d hd _ => ?_⟩
    injection hd with hd
    subst hd
    exact ⟨fun _ => rfl, fun h1 _ => by omega, fun h1 => by omega⟩
  | emit _ _ _ h =>
    refine ⟨fun hr => ?_, fun d hd h0 => ?_⟩
    · have e : reference s t max = t - s.now - max := by unfold reference; rw [hr]
      unfold settled
      rw [e, if_neg (by omega)]
      congr 1
      omega
    · have e : reference s t max = d := by unfold reference; rw [hd]; exact if_neg h0
      rw [e] at h
      unfold settled
      rw [e]
      refine ⟨fun h1 => by omega, fun _ h1 => ?_, fun h1 => ?_⟩
      · rw [if_neg (by omega)]
      · rw [if_pos (by omega)]
        congr 1
        omega

/-- A sample is never scheduled for the past, nor later than the maximal latency allows. -/
theorem c103_window (h : machine.Reach tr s) (t : Int) (max f k i : Nat) (w : Int)
    (ho : (step s (.emit t max f)).1 = .scheduled k i w) :
    clock tr ≤ w ∧ w ≤ clock tr + max ∧ i = (emitted tr).length := by
  have it := tinv_reach h
  have kd := step_kind s (.emit t max f)
  rw [ho] at kd
  generalize (step s (.emit t max f)).2 = s' at kd
  cases kd with
  | emit _ _ _ h =>
    rw [it.clock, it.samples]
    unfold settled
    split
    · exact ⟨by omega, by omega, rfl⟩
    · exact ⟨by omega, by omega, rfl⟩

theorem node_of (it : TInv tr s) {k i : Nat} {w : Int} (hk : (k, i, w) ∈ scheduled tr) (ho : ¬ Over tr k) :
    ∃ n, s.nodes[k]? = some n ∧ n.sample = i ∧ n.when_ = w ∧ n.over = false ∧
      (emitted tr)[i]? = some n.timestamp := by
  obtain ⟨j, hj⟩ := List.mem_iff_getElem?.mp hk
  have hlt : j < s.nodes.length := by
    rw [← it.len]
    exact (List.getElem?_eq_some_iff.mp hj).1
  have hn : s.nodes[j]? = some s.nodes[j] := List.getElem?_eq_getElem hlt
  obtain ⟨h1, h2, h3⟩ := it.node j _ hn
  rw [hj] at h1
  injection h1 with h1
  injection h1 with h1 h4
  injection h4 with h4 h5
  subst h1
  refine ⟨_, hn, h4.symm, h5.symm, ?_, by rw [h4]; exact h2⟩
  cases hx : s.nodes[k].over with
  | false => rfl
  | true => exact absurd (h3.mp hx) ho

/-- A node plays the sample that it was started for, with its format, until it is over: the buffer is not
used for another one meanwhile. -/
theorem c103_plays (h : machine.Reach tr s) (k i : Nat) (w : Int) (hk : (k, i, w) ∈ scheduled tr)
    (ho : ¬ Over tr k) : ∃ f, (formats tr)[i]? = some f ∧ plays s k = some (f, i) := by
  obtain ⟨n, h1, h2, -, h4, -⟩ := node_of (tinv_reach h) hk ho
  have hs := (binv_reach h).sample k n h1 h4
  unfold plays
  rw [h1]
  cases hx : s.buffers[n.buffer]? with
  | none => rw [hx] at hs; cases hs
  | some y =>
    obtain ⟨f, x⟩ := y
    rw [hx] at hs
    injection hs with hs
    dsimp only at hs
    rw [h2] at hs
    subst hs
    exact ⟨f, (finv_reach h).2 _ f x hx, hx⟩

/-- When a node ends before the time that its sample now has, the sample is scheduled for that time;
otherwise not. -/
theorem c103_again (h : machine.Reach tr s) (k i : Nat) (w : Int) (hk : (k, i, w) ∈ scheduled tr)
    (ho : ¬ Over tr k) (hv : (step s (.ended k)).1 ≠ .invalid) :
    ∃ t, (emitted tr)[i]? = some t ∧
    ((∃ d, offset tr = some d ∧ d ≠ 0 ∧ clock tr < t - d ∧
        (step s (.ended k)).1 = .scheduled (scheduled tr).length i (t - d)) ∨
      ((∀ d, offset tr = some d → d = 0 ∨ t - d ≤ clock tr) ∧ (step s (.ended k)).1 = .done)) := by
  have it := tinv_reach h
  obtain ⟨n, h1, h2, -, h4, h5⟩ := node_of it hk ho
  refine ⟨_, h5, ?_⟩
  rw [it.ref, it.clock, it.len]
  have kd := step_kind s (.ended k)
  generalize (step s (.ended k)).1 = o at kd hv ⊢
  generalize (step s (.ended k)).2 = s' at kd
  cases kd with
  | invalid _ h => exact absurd rfl hv
  | again _ m hm _ _ r hr h0 hlt =>
    rw [h1] at hm
    injection hm with hm
    subst hm
    exact .inl ⟨r, hr, h0, hlt, by rw [h2]⟩
  | done _ m hm _ _ hr =>
    rw [h1] at hm
    injection hm with hm
    subst hm
    exact .inr ⟨hr, rfl⟩

theorem stopAll_get (s : State) (k : Nat) (n : Node) (hk : s.nodes[k]? = some n) :
    (stopAll s).nodes[k]? = some (if k ∈ s.active then { n with stopped := true } else n) := by
  unfold stopAll
  dsimp only
  rw [List.getElem?_mapIdx, hk]
  rfl

/-- If nodes end in the order in which they were started, then all that play are stopped when the player
is disabled. -/
theorem c103_stopped_partial (h : machine.Reach tr s) (hf : InOrder tr) (k i : Nat) (w : Int)
    (hk : (k, i, w) ∈ scheduled tr) (ho : ¬ Over tr k) :
    ((step s .disable).2.nodes[k]?).map (·.stopped) = some true := by
  obtain ⟨n, h1, -, -, h4, -⟩ := node_of (tinv_reach h) hk ho
  obtain ⟨m, h5, h6, h7⟩ := ainv_reach h hf
  have hlt := (List.getElem?_eq_some_iff.mp h1).1
  have hm : ¬ k < m := fun hl => by
    have := (h7 k n h1).mpr hl
    rw [h4] at this
    cases this
  have ha : k ∈ s.active := by
    rw [h6, List.mem_range'_1]
    omega
  change ((stopAll s).nodes[k]?).map (·.stopped) = some true
  rw [stopAll_get s k n h1, if_pos ha]
  rfl

/-- And if a sample is early, so that they get new times.  Otherwise a sample stops no node. -/
theorem c103_moved_partial (h : machine.Reach tr s) (t : Int) (max f : Nat) (d : Int) (hd : offset tr = some d)
    (h0 : d ≠ 0) (k i : Nat) (w : Int) (hk : (k, i, w) ∈ scheduled tr) (ho : ¬ Over tr k) :
    (clock tr + max < t - d → InOrder tr →
      ((step s (.emit t max f)).2.nodes[k]?).map (·.stopped) = some true) ∧
    (t - d ≤ clock tr + max → (step s (.emit t max f)).2.nodes[k]? = s.nodes[k]?) := by
  have it := tinv_reach h
  obtain ⟨n, h1, -, -, h4, -⟩ := node_of it hk ho
  have hlt := (List.getElem?_eq_some_iff.mp h1).1
  have kd := step_kind s (.emit t max f)
  rw [it.clock]
  rw [it.ref] at hd
  have e : reference s t max = d := by unfold reference; rw [hd]; exact if_neg h0
  generalize (step s (.emit t max f)).1 = o at kd
  generalize (step s (.emit t max f)).2 = s' at kd
  cases kd with
  | dropped _ _ _ r hr h0 hl =>
    rw [hd] at hr
    injection hr with hr
    subst hr
    exact ⟨fun hc => by omega, fun _ => rfl⟩
  | emit _ _ _ hl =>
    have hsame : (schedule (createBuffer (before s t max) s.samples f).2
          (createBuffer (before s t max) s.samples f).1 s.samples t (t - settled s t max)).2.nodes[k]? =
        (before s t max).nodes[k]? := by
      unfold schedule
      dsimp only
      rw [(createBuffer_same _ _ _).1, List.getElem?_append_left (by rw [(before_same s t max).1]; exact hlt)]
    rw [hsame]
    unfold before
    rw [e]
    refine ⟨fun hc hf => ?_, fun hc => by rw [if_neg (by omega)]⟩
    obtain ⟨m, h5, h6, h7⟩ := ainv_reach h hf
    have hm : ¬ k < m := fun hl => by
      have := (h7 k n h1).mpr hl
      rw [h4] at this
      cases this
    have ha : k ∈ s.active := by
      rw [h6, List.mem_range'_1]
      omega
    rw [if_pos (by omega), stopAll_get { s with samples := s.samples + 1, ref := some (t - s.now - max) } k n h1]
    dsimp only
    rw [if_pos ha]
    rfl

/-! ## What goes wrong -/

/-- **Violation.**  If the offset is 0, it is forgotten: the next sample is played with the maximal latency,
whatever its timestamp is. -/
theorem c103_zero (h : machine.Reach tr s) (hz : offset tr = some 0) (t : Int) (max f : Nat) :
    (step s (.emit t max f)).1 = .scheduled (scheduled tr).length (emitted tr).length (clock tr + max) := by
  have it := tinv_reach h
  have k := step_kind s (.emit t max f)
  rw [it.ref] at hz
  rw [it.clock, it.samples, it.len]
  generalize (step s (.emit t max f)).1 = o at k ⊢
  generalize (step s (.emit t max f)).2 = s' at k
  cases k with
  | dropped _ _ _ r hr h0 h =>
    rw [hz] at hr
    injection hr with hr
    exact absurd hr.symm h0
  | emit _ _ _ h =>
    have e : reference s t max = t - s.now - max := by unfold reference; rw [hz]; exact if_pos rfl
    unfold settled
    rw [e, if_neg (by omega)]
    congr 1
    omega

/-- **Violation.**  Samples whose time has not come yet are not silenced when the player is disabled: the
node is not stopped, or the sample is scheduled again, for the same time. -/
theorem c103_undead (h : machine.Reach tr s) (k i : Nat) (w t d : Int) (hk : (k, i, w) ∈ scheduled tr)
    (ho : ¬ Over tr k) (ht : (emitted tr)[i]? = some t) (hd : offset tr = some d) (h0 : d ≠ 0) (hw : w = t - d)
    (hc : clock tr < w) :
    let s1 := (step s .disable).2
    (s1.nodes[k]?).map (·.stopped) = some false ∨
    (step s1 (.ended k)).1 = .scheduled (scheduled tr).length i w := by
  have it := tinv_reach h
  have h' := Machine.Reach.step (M := machine) .disable h
  have hd' := hd
  rw [it.ref] at hd'
  rw [it.clock] at hc
  obtain ⟨n, h1, h2, h3, h4, h5⟩ := node_of it hk ho
  rw [ht] at h5
  injection h5 with h5
  have hs := stopAll_get s k n h1
  dsimp only
  rw [show (step s .disable).2 = stopAll s from rfl]
  generalize hn' : (if k ∈ s.active then { n with stopped := true } else n) = n' at hs
  have hn1 : n'.over = false ∧ n'.sample = i ∧ n'.timestamp = t ∧ n'.buffer = n.buffer := by
    rw [← hn']
    split <;> exact ⟨h4, h2, h5.symm, rfl⟩
  cases hst : n'.stopped with
  | false => exact .inl (by rw [hs]; exact congrArg some hst)
  | true =>
    right
    rw [step, hs]
    dsimp only
    rw [if_pos ⟨hn1.1, .inl hst⟩]
    unfold ended
    dsimp only
    rw [show (stopAll s).ref = s.ref from rfl, hd']
    dsimp only
    rw [if_pos ⟨h0, by rw [hn1.2.2.1, ← hw]; exact hc⟩]
    unfold schedule
    dsimp only
    rw [List.length_set, stopAll_length, it.len, hn1.2.1, hn1.2.2.1, ← hw]

/-- **Violation.**  If samples are late for good, because the delay grew by more than the maximal latency
or timestamps began anew, they are all dropped: the offset is never made anew. -/
theorem c103_starved (d : Int) (h0 : d ≠ 0) (ops : List Op) : ∀ {tr : Trace} {s : State}, machine.Reach tr s →
    offset tr = some d →
    (∀ pre t m f post, ops = pre ++ .emit t m f :: post → t - d < clock (tr ++ (machine.runFrom s pre).1)) →
    ∀ e ∈ (machine.runFrom s ops).1, ∀ t m f, e.1 = .emit t m f → ∃ i, e.2 = .dropped i := by
  induction ops with
  | nil =>
    intro tr s _ _ _ e he
    cases he
  | cons op ops ih =>
    intro tr s h hd hl e he t m f het
    have hstep : ∀ t m f, op = .emit t m f → (step s op).1 = .dropped (emitted tr).length := by
      rintro t m f rfl
      refine ((c103_sync_partial h t m f).2 d hd h0).1 ?_
      have := hl [] t m f ops rfl
      simpa [Machine.runFrom] using this
    rw [Machine.runFrom] at he
    rcases List.mem_cons.mp he with he | he
    · subst he
      exact ⟨_, hstep t m f het⟩
    · refine ih (Machine.Reach.step (M := machine) op h) ?_ ?_ e he t m f het
      · rw [offset_snoc]
        cases op with
        | emit t m f =>
          have : (machine.step s (.emit t m f)).1 = .dropped (emitted tr).length := hstep t m f rfl
          rw [this]
          exact hd
        | _ => exact hd
      · intro pre t m f post he'
        have := hl (op :: pre) t m f post (by rw [he']; rfl)
        rw [Machine.runFrom] at this
        simpa using this

/-- **Violation.**  The list of active nodes loses a node that plays: two samples wait, and a third one is
too early.  All three get new times, but when the first one ends, the third one is taken off the list,
and not stopped when the player is disabled. -/
theorem c103_orphan : ∃ (ops : List Op) (k : Nat), let r := machine.run ops
    (k, 2, 80) ∈ scheduled r.1 ∧ clock r.1 < 80 ∧ r.1.all (fun e => e.1 ≠ .ended k) ∧
    ((step r.2 .disable).2.nodes[k]?).map (·.stopped) = some false :=
  ⟨[.emit 1000 70 0, .tick 10, .emit 1005 70 0, .emit 1020 70 0, .ended 0, .ended 1, .tick 60, .ended 3],
    2, by decide +kernel⟩

/-! Cases. -/

/-- Samples are scheduled, one is late, one is early and moves another. -/
example : (machine.run [.emit 1000 70 0, .tick 20, .emit 1020 70 0, .tick 60, .ended 0, .emit 1005 70 0,
      .emit 1040 70 0, .emit 1100 70 1, .ended 1, .ended 2, .tick 70, .ended 3]).1.map (·.2) =
    [.scheduled 0 0 70, .ok, .scheduled 1 1 90, .ok, .done, .dropped 2, .scheduled 2 3 110, .scheduled 3 4 150,
      .done, .scheduled 4 3 90, .ok, .done] := by decide +kernel

/-- The hypotheses of `c103_starved`: samples of 20 units arrive one after the other, but from the second
one on 100 later than before. -/
example : let r := machine.run [.emit 1000 70 0]
    offset r.1 = some 930 ∧ (machine.runFrom r.2 [.tick 120, .emit 1020 70 0, .tick 20, .emit 1040 70 0,
      .tick 20, .emit 1060 70 0]).1.map (·.2) = [.ok, .dropped 1, .ok, .dropped 2, .ok, .dropped 3] := by
  decide +kernel

/-- The hypotheses of `c103_undead`. -/
example : let r := machine.run [.emit 1000 70 0, .tick 20, .emit 1020 70 0]
    scheduled r.1 = [(0, 0, 70), (1, 1, 90)] ∧ offset r.1 = some 930 ∧
    (step (step r.2 .disable).2 (.ended 1)).1 = .scheduled 2 1 90 := by decide +kernel

/-- The hypothesis of `c103_zero`: the second sample is played 5 units after the first one, not 10. -/
example : let r := machine.run [.emit 70 70 0, .tick 5, .emit 80 70 0]
    (r.1.map (·.2), offset (r.1.take 1)) = ([.scheduled 0 0 70, .ok, .scheduled 1 1 75], some 0) := by
  decide +kernel

end Verif.Props.JsSchedule
