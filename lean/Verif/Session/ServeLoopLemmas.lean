import Verif.Session.ServeLoopSpec
import Verif.Model.TrackLemmas

/-!
# Lemmas about the serve loop
-/

set_option autoImplicit false

namespace Verif.Session.ServeLoop

open Verif Verif.Session Verif.Session.ServeLoop.Spec
open Verif.Model (Track.Op Track.Out Track.State Track.Grp Track.step)
open Verif.Model.Track.Spec (received ConsumerAlive)

theorem started_snoc (tr : Trace) (e : Op × Out) : started (tr ++ [e]) = started tr ++ started [e] := by
  simp [started]

theorem completed_snoc (tr : Trace) (e : Op × Out) :
    completed (tr ++ [e]) = completed tr ++ completed [e] := by
  simp [completed]

theorem dropped_snoc (tr : Trace) (e : Op × Out) :
    dropped (tr ++ [e]) = dropped tr ++ droppedBy e.2 := by
  simp [dropped]

theorem trackTrace_snoc (c : Nat) (tr : Trace) (e : Op × Out) :
    trackTrace c (tr ++ [e]) = trackTrace c tr ++ trackTrace c [e] := by
  simp [trackTrace]

theorem inFlight_snoc (tr : Trace) (e : Op × Out) :
    inFlight (tr ++ [e]) =
      (inFlight tr ++ (started [e]).filter fun g => g ∉ completed tr ∧ g ∉ dropped tr).filter
        fun g => g ∉ completed [e] ∧ g ∉ droppedBy e.2 := by
  unfold inFlight
  rw [started_snoc, completed_snoc, dropped_snoc]
  rw [← List.filter_append, List.filter_filter]
  apply List.filter_congr
  intro g _
  simp only [List.mem_append, not_or, Bool.decide_and, decide_not]
  by_cases h1 : g ∈ completed tr <;> by_cases h2 : g ∈ dropped tr <;>
    by_cases h3 : g ∈ completed [e] <;> by_cases h4 : g ∈ droppedBy e.2 <;> simp [h1, h2, h3, h4]

theorem over_snoc (tr : Trace) (e : Op × Out) : Over (tr ++ [e]) ↔ Over tr ∨ Over [e] := by
  unfold Over
  simp only [List.mem_append]
  constructor
  · rintro ⟨op, o, h | h, ho⟩
    · exact .inl ⟨op, o, h, ho⟩
    · exact .inr ⟨op, o, h, ho⟩
  · rintro (⟨op, o, h, ho⟩ | ⟨op, o, h, ho⟩)
    · exact ⟨op, o, .inl h, ho⟩
    · exact ⟨op, o, .inr h, ho⟩

/-- The invariant of the loop with consumer `c` on a track with history `tr0` at its start. -/
structure Inv (tr0 : Model.Track.Spec.Trace) (c : Nat) (tr : Trace) (s : State) : Prop where
  reach : Model.Track.machine.Reach (tr0 ++ trackTrace c tr) s.track
  alive : ConsumerAlive (tr0 ++ trackTrace c tr) c
  recv : received (tr0 ++ trackTrace c tr) c = received tr0 c ++ started tr
  flight : inFlight tr = s.old.toList ++ s.new.toList
  oldNew : s.new = none → s.old = none
  newest : ∀ g, s.new = some g → (started tr).getLast? = some g
  last : s.running = true → ∀ g, (started tr).getLast? = some g → g ∈ completed tr ∨ s.new = some g
  running : s.running = true ↔ ¬ Over tr
  stopped : s.running = false → s.old = none ∧ s.new = none
  fresh : ∀ g, g ∈ completed tr ∨ g ∈ dropped tr → g ∈ started tr

theorem inv_init {tr0 : Model.Track.Spec.Trace} {c : Nat} {t0 : Track.State}
    (h : Model.Track.machine.Reach tr0 t0) (hc : ConsumerAlive tr0 c) :
    Inv tr0 c [] (machine t0 c).init := by
  refine ⟨?_, ?_, ?_, rfl, fun _ => rfl, ?_, ?_, ?_, ?_, ?_⟩
  · simpa [trackTrace] using h
  · simpa [trackTrace] using hc
  · simp [trackTrace, started]
  · intro g hg; cases hg
  · intro _ g hg; cases hg
  · refine iff_of_true rfl ?_
    rintro ⟨_, _, h, _⟩; cases h
  · intro h; cases h
  · rintro g (h | h) <;> cases h

theorem Inv.increasing {tr0 c tr s} (h : Inv tr0 c tr s) :
    (received tr0 c ++ started tr).Pairwise fun a b => a.seq < b.seq := by
  have hT := Model.Track.inv_reach h.reach
  obtain ⟨v, hv⟩ := (hT.alive_iff c).1 h.alive
  have := hT.ordered.received c v hv
  rw [h.recv] at this
  exact this

/-- Nothing about the loop changes, and the track stays or is used by somebody else. -/
theorem Inv.quiet {tr0 c tr s} (h : Inv tr0 c tr s) {e : Op × Out} {t : Track.State}
    (hs : started [e] = []) (hc : completed [e] = []) (hd : droppedBy e.2 = []) (ho : ¬ Over [e])
    (hr : Model.Track.machine.Reach (tr0 ++ trackTrace c (tr ++ [e])) t)
    (ha : ConsumerAlive (tr0 ++ trackTrace c (tr ++ [e])) c)
    (hv : received (tr0 ++ trackTrace c (tr ++ [e])) c = received (tr0 ++ trackTrace c tr) c) :
    Inv tr0 c (tr ++ [e]) { s with track := t } := by
  have es : started (tr ++ [e]) = started tr := by rw [started_snoc, hs, List.append_nil]
  have ec : completed (tr ++ [e]) = completed tr := by rw [completed_snoc, hc, List.append_nil]
  have ed : dropped (tr ++ [e]) = dropped tr := by rw [dropped_snoc, hd, List.append_nil]
  have eo : Over (tr ++ [e]) ↔ Over tr := by rw [over_snoc]; exact or_iff_left ho
  refine ⟨hr, ha, ?_, ?_, h.oldNew, ?_, ?_, ?_, h.stopped, ?_⟩
  · rw [hv, es]; exact h.recv
  · unfold inFlight; rw [es, ec, ed]; exact h.flight
  · rw [es]; exact h.newest
  · rw [es, ec]; exact h.last
  · rw [eo]; exact h.running
  · rw [es, ec, ed]; exact h.fresh

/-- Nothing changes at all. -/
theorem Inv.same {tr0 c tr s} (h : Inv tr0 c tr s) {e : Op × Out}
    (hs : started [e] = []) (hc : completed [e] = []) (hd : droppedBy e.2 = []) (ho : ¬ Over [e])
    (ht : trackTrace c [e] = []) : Inv tr0 c (tr ++ [e]) s := by
  have e : trackTrace c (tr ++ [e]) = trackTrace c tr := by
    rw [trackTrace_snoc, ht, List.append_nil]
  refine h.quiet (t := s.track) hs hc hd ho ?_ ?_ ?_
  · rw [e]; exact h.reach
  · rw [e]; exact h.alive
  · rw [e]

theorem not_over_one {op : Op} {o : Out} (h1 : o ≠ .finished) (h2 : ∀ e ds, o ≠ .failed e ds)
    (h3 : ∀ ds, o ≠ .cancelled ds) : ¬ Over [(op, o)] := by
  rintro ⟨op', o', h, ho⟩
  have := List.mem_singleton.1 h
  injection this with _ ho'
  subst ho'
  rcases ho with h | ⟨e, ds, h⟩ | ⟨ds, h⟩
  · exact h1 h
  · exact h2 e ds h
  · exact h3 ds h

theorem over_one {op : Op} {o : Out} (h : o = .finished ∨ (∃ e ds, o = .failed e ds) ∨
    ∃ ds, o = .cancelled ds) : Over [(op, o)] := ⟨op, o, List.mem_singleton.2 rfl, h⟩

/-- The consumer of the loop stays when somebody else uses the track. -/
theorem alive_foreign {tr : Model.Track.Spec.Trace} {c : Nat} (h : ConsumerAlive tr c)
    {op : Track.Op} {o : Track.Out} (hf : foreign c op = true) : ConsumerAlive (tr ++ [(op, o)]) c := by
  refine ⟨?_, ?_⟩
  · rcases h.1 with ⟨p, hp⟩ | ⟨d, hd⟩
    · exact .inl ⟨p, List.mem_append_left _ hp⟩
    · exact .inr ⟨d, List.mem_append_left _ hd⟩
  · intro hm
    rcases List.mem_append.1 hm with hm | hm
    · exact h.2 hm
    · have := List.mem_singleton.1 hm
      injection this with this _
      subst this
      simp [foreign] at hf

theorem received_foreign {tr : Model.Track.Spec.Trace} {t : Track.State} {c : Nat}
    (hr : Model.Track.machine.Reach tr t) (h : ConsumerAlive tr c)
    {op : Track.Op} (hf : foreign c op = true) :
    received (tr ++ [(op, (Track.step t op).1)]) c = received tr c := by
  have hT := Model.Track.inv_reach hr
  obtain ⟨v, hv⟩ := (hT.alive_iff c).1 h
  have hlt := Slots.get_some_lt hv
  rw [Model.Track.received_snoc]
  cases op with
  | consume p =>
    simp only [Model.Track.step]
    split
    · simp only [Model.Track.Spec.give]; rw [if_neg (by omega)]
    · rfl
  | cloneConsumer d =>
    simp only [Model.Track.step]
    split
    · rfl
    · simp only [Model.Track.Spec.give]; rw [if_neg (by omega)]
  | next d =>
    have hd : c ≠ d := by
      intro hcd; subst hcd; simp [foreign] at hf
    generalize (Track.step t (.next d)).1 = o
    cases o <;> simp only [Model.Track.Spec.give]
    rw [if_neg hd]
  | _ => rfl

/-- The outcomes of a poll of `next_group`. -/
theorem next_cases (t : Track.State) (c : Nat) :
    (∃ g t', Track.step t (.next c) = (.group g, t')) ∨
    ((Track.step t (.next c)).2 = t ∧ ∀ g, (Track.step t (.next c)).1 ≠ .group g) := by
  simp only [Model.Track.step]
  repeat' split
  all_goals first
    | exact .inr ⟨rfl, fun g hg => by cases hg⟩
    | exact .inl ⟨_, _, rfl⟩

theorem filter_all {l : List Track.Grp} {p : Track.Grp → Bool} (h : ∀ g ∈ l, p g = true) :
    l.filter p = l := List.filter_eq_self.2 h

/-- A new group starts. -/
theorem Inv.start {tr0 c tr s} (h : Inv tr0 c tr s) (hrun : s.running = true) {g : Track.Grp}
    {t : Track.State} (hg : Track.step s.track (.next c) = (.group g, t)) :
    Inv tr0 c (tr ++ [(.next, (step c s .next).1)]) (step c s .next).2 := by
  have hreach : ∀ ds, Model.Track.machine.Reach
      (tr0 ++ trackTrace c (tr ++ [(Op.next, Out.started g ds)])) t := by
    intro ds
    have := Machine.Reach.step (M := Model.Track.machine) (.next c) h.reach
    simp only [hg] at this
    rw [trackTrace_snoc, ← List.append_assoc]
    exact this
  have halive : ∀ ds, ConsumerAlive (tr0 ++ trackTrace c (tr ++ [(Op.next, Out.started g ds)])) c := by
    intro ds
    rw [trackTrace_snoc, ← List.append_assoc]
    refine ⟨?_, ?_⟩
    · rcases h.alive.1 with ⟨p, hp⟩ | ⟨d, hd⟩
      · exact .inl ⟨p, List.mem_append_left _ hp⟩
      · exact .inr ⟨d, List.mem_append_left _ hd⟩
    · intro hm
      rcases List.mem_append.1 hm with hm | hm
      · exact h.alive.2 hm
      · have := List.mem_singleton.1 hm
        injection this with this _
        cases this
  have hrecv : ∀ ds, received (tr0 ++ trackTrace c (tr ++ [(Op.next, Out.started g ds)])) c =
      received tr0 c ++ started (tr ++ [(Op.next, Out.started g ds)]) := by
    intro ds
    rw [trackTrace_snoc, ← List.append_assoc]
    have : trackTrace c [(Op.next, Out.started g ds)] = [(.next c, .group g)] := rfl
    rw [this, Model.Track.received_snoc]
    simp only [Model.Track.Spec.give, if_true]
    rw [h.recv, started_snoc, List.append_assoc]
    rfl
  have hnew : ∀ x ∈ started tr, x.seq < g.seq := by
    intro x hx
    have hT := Model.Track.inv_reach (hreach [])
    obtain ⟨v, hv⟩ := (hT.alive_iff c).1 (halive [])
    have := hT.ordered.received c v hv
    rw [hrecv [], started_snoc, ← List.append_assoc] at this
    exact (List.pairwise_append.1 this).2.2 x (List.mem_append_right _ hx) g
      (List.mem_singleton.2 rfl)
  have hfresh : g ∉ started tr := fun hx => Nat.lt_irrefl _ (hnew g hx)
  have hsub : ∀ x ∈ inFlight tr, x ∈ started tr := fun x hx => (List.mem_filter.1 hx).1
  have hfl : ∀ ds, inFlight (tr ++ [(Op.next, Out.started g ds)]) =
      (inFlight tr ++ [g]).filter fun x => x ∉ ds := by
    intro ds
    rw [inFlight_snoc]
    have e1 : started [(Op.next, Out.started g ds)] = [g] := rfl
    have e2 : completed [(Op.next, Out.started g ds)] = [] := rfl
    have e3 : droppedBy (Out.started g ds) = ds := rfl
    rw [e1, e2, e3]
    have : [g].filter (fun x => decide (x ∉ completed tr ∧ x ∉ dropped tr)) = [g] := by
      apply filter_all
      intro x hx
      rw [List.mem_singleton.1 hx]
      simp only [decide_eq_true_eq]
      exact ⟨fun hy => hfresh (h.fresh g (.inl hy)), fun hy => hfresh (h.fresh g (.inr hy))⟩
    rw [this]
    apply List.filter_congr
    intro x _
    simp
  have hinc := (List.pairwise_append.1 h.increasing).2.1
  have hflinc : (inFlight tr).Pairwise fun a b => a.seq < b.seq :=
    hinc.sublist List.filter_sublist
  have hover : ∀ ds, Over (tr ++ [(Op.next, Out.started g ds)]) ↔ Over tr := by
    intro ds
    rw [over_snoc]
    exact or_iff_left (not_over_one (by simp) (by simp) (by simp))
  have hlast : ∀ ds, (started (tr ++ [(Op.next, Out.started g ds)])).getLast? = some g := by
    intro ds; rw [started_snoc]
    show (started tr ++ [g]).getLast? = some g
    simp
  have hmem : ∀ ds x, x ∈ started tr → x ∈ started (tr ++ [(Op.next, Out.started g ds)]) := by
    intro ds x hx; rw [started_snoc]; exact List.mem_append_left _ hx
  simp only [step]
  rw [if_pos hrun, hg]
  dsimp only
  cases hn : s.new with
  | none =>
    simp only
    refine ⟨hreach _, halive _, hrecv _, ?_, fun (hx : some g = none) => (by cases hx), ?_, ?_, ?_,
      fun (hx : s.running = false) => (by rw [hrun] at hx; cases hx), ?_⟩
    · rw [hfl, h.flight, hn, h.oldNew hn]
      simp
    · intro x hx; rw [hlast]; exact hx
    · intro _ x hx; rw [hlast] at hx; exact .inr hx
    · rw [hover]; exact h.running
    · intro x hx
      rw [completed_snoc, dropped_snoc] at hx
      apply hmem
      apply h.fresh
      simpa [completed, droppedBy] using hx
  | some n =>
    simp only
    refine ⟨hreach _, halive _, hrecv _, ?_, fun (hx : some g = none) => (by cases hx), ?_, ?_, ?_,
      fun (hx : s.running = false) => (by rw [hrun] at hx; cases hx), ?_⟩
    · rw [hfl, h.flight, hn]
      have hfl' := h.flight
      rw [hn] at hfl'
      rw [hfl'] at hflinc hsub
      cases ho : s.old with
      | none => simp
      | some o =>
        rw [ho] at hflinc hsub
        simp at hflinc hsub
        have h1 : ¬ n = o := by intro hx; rw [hx] at hflinc; omega
        have h2 : ¬ g = o := by intro hx; rw [hx] at hfresh; exact hfresh hsub.1
        simp [h1, h2]
    · intro x hx; rw [hlast]; exact hx
    · intro _ x hx; rw [hlast] at hx; exact .inr hx
    · rw [hover]; exact h.running
    · intro x hx
      rw [completed_snoc, dropped_snoc] at hx
      apply hmem
      rcases hx with hx | hx
      · exact h.fresh x (.inl (by simpa [completed] using hx))
      · rcases List.mem_append.1 hx with hx | hx
        · exact h.fresh x (.inr hx)
        · apply hsub
          rw [h.flight]
          exact List.mem_append_left _ hx

/-- A future completes or futures are dropped. -/
theorem Inv.less {tr0 c tr s} (h : Inv tr0 c tr s) (hrun : s.running = true) {op : Op} {o : Out}
    {old new : Option Track.Grp} {run : Bool}
    (hs : started [(op, o)] = []) (ht : trackTrace c [(op, o)] = [])
    (hrunO : run = true ↔ ¬ Over [(op, o)])
    (hon : new = none → old = none)
    (hnew : new = none ∨ new = s.new)
    (hlast : run = true → new = none → ∀ g, s.new = some g → g ∈ completed [(op, o)])
    (hstop : run = false → old = none ∧ new = none)
    (hflight : (s.old.toList ++ s.new.toList).filter
      (fun g => g ∉ completed [(op, o)] ∧ g ∉ droppedBy o) = old.toList ++ new.toList)
    (hsub : ∀ g, g ∈ completed [(op, o)] ∨ g ∈ droppedBy o → g ∈ s.old.toList ++ s.new.toList) :
    Inv tr0 c (tr ++ [(op, o)]) { s with old := old, new := new, running := run } := by
  have et : trackTrace c (tr ++ [(op, o)]) = trackTrace c tr := by
    rw [trackTrace_snoc, ht, List.append_nil]
  have es : started (tr ++ [(op, o)]) = started tr := by rw [started_snoc, hs, List.append_nil]
  refine ⟨?_, ?_, ?_, ?_, hon, ?_, ?_, ?_, hstop, ?_⟩
  · rw [et]; exact h.reach
  · rw [et]; exact h.alive
  · rw [et, es]; exact h.recv
  · rw [inFlight_snoc, hs, h.flight]
    simpa using hflight
  · intro g hg
    rw [es]
    rcases hnew with hx | hx
    · rw [hx] at hg; cases hg
    · exact h.newest g (by rw [← hx]; exact hg)
  · intro hr g hg
    rw [es] at hg
    rw [completed_snoc]
    rcases h.last hrun g hg with hx | hx
    · exact .inl (List.mem_append_left _ hx)
    · rcases hnew with hy | hy
      · exact .inl (List.mem_append_right _ (hlast hr hy g hx))
      · exact .inr (by show new = some g; rw [hy]; exact hx)
  · rw [over_snoc]
    show run = true ↔ _
    rw [hrunO]
    have := h.running.1 hrun
    constructor
    · rintro h1 (h2 | h2)
      · exact this h2
      · exact h1 h2
    · intro h1 h2; exact h1 (.inr h2)
  · intro g hg
    rw [es]
    rw [completed_snoc, dropped_snoc] at hg
    have hin : g ∈ s.old.toList ++ s.new.toList → g ∈ started tr := by
      intro hx; rw [← h.flight] at hx; exact (List.mem_filter.1 hx).1
    rcases hg with hg | hg
    · rcases List.mem_append.1 hg with hg | hg
      · exact h.fresh g (.inl hg)
      · exact hin (hsub g (.inl hg))
    · rcases List.mem_append.1 hg with hg | hg
      · exact h.fresh g (.inr hg)
      · exact hin (hsub g (.inr hg))

theorem Inv.step {tr0 c tr s} (h : Inv tr0 c tr s) (op : Op) :
    Inv tr0 c (tr ++ [(op, (step c s op).1)]) (ServeLoop.step c s op).2 := by
  have q : Inv tr0 c (tr ++ [(op, .invalid)]) s :=
    h.same rfl rfl rfl (not_over_one (by simp) (by simp) (by simp)) (by cases op <;> rfl)
  have qp : Inv tr0 c (tr ++ [(op, .pending)]) s :=
    h.same rfl rfl rfl (not_over_one (by simp) (by simp) (by simp)) (by cases op <;> rfl)
  have hdist : ∀ a b, s.old = some a → s.new = some b → ¬ b = a := by
    intro a b ha hb hab
    have hinc := (List.pairwise_append.1 h.increasing).2.1
    have hflinc : (inFlight tr).Pairwise fun a b => a.seq < b.seq :=
      hinc.sublist List.filter_sublist
    rw [h.flight, ha, hb, hab] at hflinc
    simp at hflinc
  cases op with
  | track op =>
    simp only [ServeLoop.step]
    split
    · rename_i hf
      have et : trackTrace c [(Op.track op, Out.track (Track.step s.track op).1)] =
        [(op, (Track.step s.track op).1)] := rfl
      refine h.quiet rfl rfl rfl (not_over_one (by simp) (by simp) (by simp)) ?_ ?_ ?_
      · rw [trackTrace_snoc, et, ← List.append_assoc]
        exact Machine.Reach.step (M := Model.Track.machine) op h.reach
      · rw [trackTrace_snoc, et, ← List.append_assoc]
        exact alive_foreign h.alive hf
      · rw [trackTrace_snoc, et, ← List.append_assoc]
        exact received_foreign h.reach h.alive hf
    · exact q
  | next =>
    by_cases hrun : s.running = true
    · rcases next_cases s.track c with ⟨g, t', hg⟩ | ⟨h1, h2⟩
      · exact h.start hrun hg
      · simp only [ServeLoop.step]
        rw [if_pos hrun]
        generalize hx : Track.step s.track (.next c) = x at h1 h2
        obtain ⟨o, t⟩ := x
        simp only at h1 h2
        subst h1
        cases o with
        | group g => exact absurd rfl (h2 g)
        | err e =>
          refine h.less hrun (op := .next) rfl rfl ?_ (fun _ => rfl) (.inl rfl)
            (fun hx => by cases hx) (fun _ => ⟨rfl, rfl⟩) ?_ ?_
          · refine iff_of_false (by simp) ?_
            intro hx; exact hx (over_one (.inr (.inl ⟨_, _, rfl⟩)))
          · simp only [completed, droppedBy]
            cases s.old <;> cases s.new <;> simp
          · rintro g (hx | hx)
            · cases hx
            · exact hx
        | ended =>
          simp only
          split
          · rename_i ho hn
            have := h.less hrun (op := .next) (o := .finished) (old := none) (new := none)
              (run := false) rfl rfl ?_ (fun _ => rfl) (.inl rfl)
              (fun hx => by cases hx) (fun _ => ⟨rfl, rfl⟩) ?_ ?_
            · obtain ⟨a, b, c, d⟩ := s
              simp only at ho hn
              subst ho hn
              exact this
            · refine iff_of_false (by simp) ?_
              intro hx; exact hx (over_one (.inl rfl))
            · rw [ho, hn]; rfl
            · rintro g (hx | hx) <;> cases hx
          · exact qp
        | pending => exact qp
        | _ => exact q
    · simp only [ServeLoop.step, hrun]; exact q
  | oldDone =>
    simp only [ServeLoop.step]
    split
    · rename_i hrun
      cases ho : s.old with
      | none => exact q
      | some g =>
        have := h.less hrun (op := .oldDone) (o := .done g []) (old := none) (new := s.new)
          (run := s.running) rfl rfl ?_ (fun _ => rfl) (.inr rfl) ?_
          (fun hx => by rw [hrun] at hx; cases hx) ?_ ?_
        · exact this
        · refine iff_of_true hrun (not_over_one (by simp) (by simp) (by simp))
        · intro _ hn g' hg'; rw [hn] at hg'; cases hg'
        · rw [ho]
          have e : completed [(Op.oldDone, Out.done g [])] = [g] := rfl
          rw [e]
          cases hn : s.new with
          | none => simp [droppedBy]
          | some n => simp [droppedBy, hdist g n ho hn]
        · rintro x (hx | hx)
          · have : x = g := List.mem_singleton.1 hx
            rw [this, ho]; simp
          · cases hx
    · exact q
  | newDone =>
    simp only [ServeLoop.step]
    split
    · rename_i hrun
      cases hn : s.new with
      | none => exact q
      | some g =>
        have e : completed [(Op.newDone, Out.done g s.old.toList)] = [g] := rfl
        have := h.less hrun (op := .newDone) (o := .done g s.old.toList) (old := none)
          (new := none) (run := s.running) rfl rfl ?_ (fun _ => rfl) (.inl rfl) ?_
          (fun hx => by rw [hrun] at hx; cases hx) ?_ ?_
        · exact this
        · refine iff_of_true hrun (not_over_one (by simp) (by simp) (by simp))
        · intro _ _ g' hg'; rw [hn] at hg'; injection hg' with hg'; subst hg'
          rw [e]; exact List.mem_singleton.2 rfl
        · rw [hn, e]
          simp only [droppedBy]
          cases s.old <;> simp
        · rintro x (hx | hx)
          · have : x = g := List.mem_singleton.1 hx
            rw [this, hn]; simp
          · exact List.mem_append_left _ hx
    · exact q
  | cancel =>
    simp only [ServeLoop.step]
    split
    · rename_i hrun
      refine h.less hrun (op := .cancel) rfl rfl ?_ (fun _ => rfl) (.inl rfl)
        (fun hx => by cases hx) (fun _ => ⟨rfl, rfl⟩) ?_ ?_
      · refine iff_of_false (by simp) ?_
        intro hx; exact hx (over_one (.inr (.inr ⟨_, rfl⟩)))
      · simp only [completed, droppedBy]
        cases s.old <;> cases s.new <;> simp
      · rintro g (hx | hx)
        · cases hx
        · exact hx
    · exact q

theorem inv_reach {tr0 : Model.Track.Spec.Trace} {c : Nat} {t0 : Track.State}
    (h0 : Model.Track.machine.Reach tr0 t0) (hc : ConsumerAlive tr0 c)
    {tr : Trace} {s : State} (h : (machine t0 c).Reach tr s) : Inv tr0 c tr s :=
  Machine.Reach.induct (M := machine t0 c) (P := fun tr s => Inv tr0 c tr s)
    (inv_init h0 hc) (fun _ _ op _ ih => ih.step op) h

end Verif.Session.ServeLoop
