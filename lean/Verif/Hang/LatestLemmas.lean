import Verif.Hang.LatestSpec
import Verif.Session.ServeLoopLemmas

/-!
# Lemmas about the readers that take one frame per group
-/

set_option autoImplicit false

namespace Verif.Hang.Latest

open Verif Verif.Hang.Latest.Spec
open Verif.Session (Error)
open Verif.Session.ServeLoop (foreign alive_foreign received_foreign)
open Verif.Model.Track.Spec (ConsumerAlive)
open Verif.Model (Track.Op Track.Out Track.State Track.Grp Track.step)

variable {V : Type}

theorem framesOf_snoc (tr : Trace V) (e : Op × Out V) (gid : Nat) :
    framesOf (tr ++ [e]) gid = framesOf tr gid ++ framesOf [e] gid := by
  simp [framesOf]

theorem received_snoc (tr : Trace V) (e : Op × Out V) :
    received (tr ++ [e]) = received tr ++ received [e] := by
  simp [received]

theorem reported_snoc (tr : Trace V) (e : Op × Out V) :
    reported (tr ++ [e]) = reported tr ++ reported [e] := by
  simp [reported]

theorem values_snoc (tr : Trace V) (e : Op × Out V) :
    values (tr ++ [e]) = values tr ++ values [e] := by
  simp [values]

theorem trackTrace_snoc (c : Nat) (tr : Trace V) (e : Op × Out V) :
    trackTrace c (tr ++ [e]) = trackTrace c tr ++ trackTrace c [e] := by
  simp [trackTrace]

theorem closed_snoc (tr : Trace V) (e : Op × Out V) (gid : Nat) (r : Except Error Unit) :
    Closed (tr ++ [e]) gid r ↔ Closed tr gid r ∨ e = (Op.close gid r, Out.ok) := by
  unfold Closed
  rw [List.mem_append, List.mem_singleton]
  exact or_congr Iff.rfl eq_comm

/-- The invariant of a reader with consumer `c` on a track with history `tr0` at its start. -/
structure Inv (parse : Bytes → Option V) (tr0 : Model.Track.Spec.Trace) (c : Nat) (tr : Trace V)
    (s : State) : Prop where
  reach : Model.Track.machine.Reach (tr0 ++ trackTrace c tr) s.track
  alive : ConsumerAlive (tr0 ++ trackTrace c tr) c
  recv : Model.Track.Spec.received (tr0 ++ trackTrace c tr) c =
    Model.Track.Spec.received tr0 c ++ received tr
  frames : ∀ gid, (s.content gid).frames = framesOf tr gid
  closed : ∀ gid r, (s.content gid).closed = some r ↔ Closed tr gid r
  sub : ∀ g ∈ reported tr, g ∈ received tr
  order : (reported tr).Pairwise fun a b => a.seq < b.seq
  held : ∀ g, s.held = some g →
    (received tr).getLast? = some g ∧ ∀ x ∈ reported tr, x.seq < g.seq
  last : ∀ g, (received tr).getLast? = some g →
    s.held = some g ∨ g ∈ reported tr ∨ (Op.cancel, Out.cancelled (some g)) ∈ tr
  value : ∀ x ∈ values tr, ∃ b, (framesOf tr x.1.gid).head? = some b ∧ parse b = some x.2

theorem inv_init {parse : Bytes → Option V} {k : Kind} {tr0 : Model.Track.Spec.Trace} {c : Nat}
    {t0 : Track.State} (h : Model.Track.machine.Reach tr0 t0) (hc : ConsumerAlive tr0 c) :
    Inv parse tr0 c [] (machine k parse t0 c).init := by
  refine ⟨?_, ?_, ?_, fun _ => rfl, ?_, ?_, .nil, ?_, ?_, ?_⟩
  · simpa [trackTrace] using h
  · simpa [trackTrace] using hc
  · simp [trackTrace, received]
  · intro gid r
    exact iff_of_false (fun h => by cases h) (fun h => by cases h)
  · intro g h; cases h
  · intro g h; cases h
  · intro g h; cases h
  · intro x h; cases h

theorem head?_append {α : Type} {l m : List α} {b : α} (h : l.head? = some b) :
    (l ++ m).head? = some b := by
  cases l with
  | nil => cases h
  | cons a l => exact h

theorem Inv.increasing {parse : Bytes → Option V} {tr0 c tr s} (h : Inv parse tr0 c tr s) :
    (Model.Track.Spec.received tr0 c ++ received tr).Pairwise fun a b => a.seq < b.seq := by
  have hT := Model.Track.inv_reach h.reach
  obtain ⟨v, hv⟩ := (hT.alive_iff c).1 h.alive
  have := hT.ordered.received c v hv
  rw [h.recv] at this
  exact this

/-- A step that receives and reports nothing. -/
theorem Inv.quiet {parse : Bytes → Option V} {tr0 c tr s} (h : Inv parse tr0 c tr s)
    {e : Op × Out V} {s' : State}
    (hr : Model.Track.machine.Reach (tr0 ++ (trackTrace c tr ++ trackTrace c [e])) s'.track)
    (ha : ConsumerAlive (tr0 ++ (trackTrace c tr ++ trackTrace c [e])) c)
    (hv : Model.Track.Spec.received (tr0 ++ (trackTrace c tr ++ trackTrace c [e])) c =
      Model.Track.Spec.received (tr0 ++ trackTrace c tr) c)
    (er : received [e] = []) (ep : reported [e] = []) (ev : values [e] = [])
    (ef : ∀ gid, (s'.content gid).frames = framesOf tr gid ++ framesOf [e] gid)
    (ec : ∀ gid r, (s'.content gid).closed = some r ↔
      Closed tr gid r ∨ e = (Op.close gid r, Out.ok))
    (hh : s'.held = s.held ∨ s'.held = none ∧ ∃ g, s.held = some g ∧
      e = (Op.cancel, Out.cancelled (some g))) :
    Inv parse tr0 c (tr ++ [e]) s' := by
  have er' : received (tr ++ [e]) = received tr := by rw [received_snoc, er, List.append_nil]
  have ep' : reported (tr ++ [e]) = reported tr := by rw [reported_snoc, ep, List.append_nil]
  have ev' : values (tr ++ [e]) = values tr := by rw [values_snoc, ev, List.append_nil]
  refine ⟨?_, ?_, ?_, ?_, ?_, ?_, ?_, ?_, ?_, ?_⟩
  · rw [trackTrace_snoc]; exact hr
  · rw [trackTrace_snoc]; exact ha
  · rw [trackTrace_snoc, hv, h.recv, er']
  · intro gid; rw [framesOf_snoc]; exact ef gid
  · intro gid r; rw [closed_snoc]; exact ec gid r
  · rw [ep', er']; exact h.sub
  · rw [ep']; exact h.order
  · rw [er', ep']
    intro g hg
    rcases hh with hh | ⟨hh, _⟩
    · exact h.held g (hh ▸ hg)
    · rw [hh] at hg; cases hg
  · rw [er', ep']
    intro g hg
    rcases h.last g hg with hx | hx | hx
    · rcases hh with hh | ⟨_, g', hg', rfl⟩
      · exact .inl (hh.trans hx)
      · rw [hx] at hg'
        cases hg'
        exact .inr (.inr (List.mem_append_right _ (.head _)))
    · exact .inr (.inl hx)
    · exact .inr (.inr (List.mem_append_left _ hx))
  · rw [ev']
    intro x hx
    obtain ⟨b, hb, hp⟩ := h.value x hx
    exact ⟨b, by rw [framesOf_snoc]; exact head?_append hb, hp⟩

/-- The reader reports the group that it holds. -/
theorem Inv.report {parse : Bytes → Option V} {tr0 c tr s} (h : Inv parse tr0 c tr s)
    {e : Op × Out V} {g : Track.Grp} (hg : s.held = some g)
    (et : trackTrace c [e] = []) (er : received [e] = []) (ep : reported [e] = [g])
    (ef : ∀ gid, framesOf [e] gid = []) (ec : ∀ gid r, e ≠ (Op.close gid r, Out.ok))
    (ev : ∀ x ∈ values [e], ∃ b, (framesOf tr x.1.gid).head? = some b ∧ parse b = some x.2) :
    Inv parse tr0 c (tr ++ [e]) { s with held := none } := by
  have et' : trackTrace c (tr ++ [e]) = trackTrace c tr := by
    rw [trackTrace_snoc, et, List.append_nil]
  have er' : received (tr ++ [e]) = received tr := by rw [received_snoc, er, List.append_nil]
  have ep' : reported (tr ++ [e]) = reported tr ++ [g] := by rw [reported_snoc, ep]
  have ef' : ∀ gid, framesOf (tr ++ [e]) gid = framesOf tr gid := by
    intro gid; rw [framesOf_snoc, ef, List.append_nil]
  obtain ⟨hl, hlt⟩ := h.held g hg
  refine ⟨?_, ?_, ?_, ?_, ?_, ?_, ?_, ?_, ?_, ?_⟩
  · rw [et']; exact h.reach
  · rw [et']; exact h.alive
  · rw [et', er']; exact h.recv
  · intro gid; rw [ef']; exact h.frames gid
  · intro gid r; rw [closed_snoc, or_iff_left (ec gid r)]; exact h.closed gid r
  · rw [ep', er']
    intro x hx
    rcases List.mem_append.1 hx with hx | hx
    · exact h.sub x hx
    · rw [List.mem_singleton.1 hx]; exact List.mem_of_getLast? hl
  · rw [ep', List.pairwise_append]
    refine ⟨h.order, List.pairwise_singleton _ _, fun a ha b hb => ?_⟩
    rw [List.mem_singleton.1 hb]
    exact hlt a ha
  · intro x hx; cases hx
  · rw [er', ep']
    intro x hx
    rw [hl] at hx
    cases hx
    exact .inr (.inl (List.mem_append_right _ (.head _)))
  · rw [values_snoc]
    intro x hx
    rw [ef']
    rcases List.mem_append.1 hx with hx | hx
    · exact h.value x hx
    · exact ev x hx

/-- A new group is received. -/
theorem Inv.receive {parse : Bytes → Option V} {tr0 c tr s} (h : Inv parse tr0 c tr s)
    {f : Bool} {g : Track.Grp} {t : Track.State} (ht : Track.step s.track (.next c) = (.group g, t)) :
    Inv parse tr0 c (tr ++ [(.poll f, .received g)]) { s with track := t, held := some g } := by
  have et : trackTrace c (tr ++ [(Op.poll f, (Out.received g : Out V))]) =
      trackTrace c tr ++ [(.next c, .group g)] := by
    rw [trackTrace_snoc]; rfl
  have er : received (tr ++ [(Op.poll f, (Out.received g : Out V))]) = received tr ++ [g] := by
    rw [received_snoc]; rfl
  have ep : reported (tr ++ [(Op.poll f, (Out.received g : Out V))]) = reported tr := by
    rw [reported_snoc]; exact List.append_nil _
  have ef : ∀ gid, framesOf (tr ++ [(Op.poll f, (Out.received g : Out V))]) gid = framesOf tr gid := by
    intro gid; rw [framesOf_snoc]; exact List.append_nil _
  have h1 : Model.Track.machine.Reach (tr0 ++ trackTrace c tr ++ [(.next c, .group g)]) t := by
    have := Machine.Reach.step (M := Model.Track.machine) (.next c) h.reach
    rw [show Model.Track.machine.step s.track (.next c) = (.group g, t) from ht] at this
    exact this
  have ha : ConsumerAlive (tr0 ++ trackTrace c tr ++ [(.next c, .group g)]) c := by
    refine ⟨?_, ?_⟩
    · rcases h.alive.1 with ⟨p, hp⟩ | ⟨d, hd⟩
      · exact .inl ⟨p, List.mem_append_left _ hp⟩
      · exact .inr ⟨d, List.mem_append_left _ hd⟩
    · intro hm
      rcases List.mem_append.1 hm with hm | hm
      · exact h.alive.2 hm
      · cases List.mem_singleton.1 hm
  have hr : Model.Track.Spec.received (tr0 ++ trackTrace c tr ++ [(.next c, .group g)]) c =
      Model.Track.Spec.received tr0 c ++ (received tr ++ [g]) := by
    rw [Model.Track.received_snoc]
    simp only [Model.Track.Spec.give, if_true]
    rw [h.recv, List.append_assoc]
  have hnew : ∀ x ∈ received tr, x.seq < g.seq := by
    have hT := Model.Track.inv_reach h1
    obtain ⟨v, hv⟩ := (hT.alive_iff c).1 ha
    have : (Model.Track.Spec.received (tr0 ++ trackTrace c tr ++ [(.next c, .group g)]) c).Pairwise
        fun a b => a.seq < b.seq := hT.ordered.received c v hv
    rw [hr, ← List.append_assoc, List.pairwise_append] at this
    intro x hx
    exact this.2.2 x (List.mem_append_right _ hx) g (.head _)
  refine ⟨?_, ?_, ?_, ?_, ?_, ?_, ?_, ?_, ?_, ?_⟩
  · rw [et, ← List.append_assoc]; exact h1
  · rw [et, ← List.append_assoc]; exact ha
  · rw [et, ← List.append_assoc, er]; exact hr
  · intro gid; rw [ef]; exact h.frames gid
  · intro gid r; rw [closed_snoc, or_iff_left (by rintro ⟨⟩)]; exact h.closed gid r
  · rw [ep, er]; exact fun x hx => List.mem_append_left _ (h.sub x hx)
  · rw [ep]; exact h.order
  · rw [er, ep]
    rintro x hx
    cases hx
    exact ⟨List.getLast?_concat, fun x hx => hnew x (h.sub x hx)⟩
  · rw [er]
    intro x hx
    rw [List.getLast?_concat] at hx
    cases hx
    exact .inl rfl
  · rw [values_snoc]
    intro x hx
    rw [ef]
    rcases List.mem_append.1 hx with hx | hx
    · exact h.value x hx
    · cases hx

/-- A poll that changes nothing. -/
theorem Inv.same {parse : Bytes → Option V} {tr0 c tr s} (h : Inv parse tr0 c tr s)
    {e : Op × Out V} (et : trackTrace c [e] = []) (er : received [e] = []) (ep : reported [e] = [])
    (ev : values [e] = []) (ef : ∀ gid, framesOf [e] gid = [])
    (ec : ∀ gid r, e ≠ (Op.close gid r, Out.ok)) : Inv parse tr0 c (tr ++ [e]) s := by
  refine h.quiet ?_ ?_ ?_ er ep ev ?_ ?_ (.inl rfl)
  · rw [et, List.append_nil]; exact h.reach
  · rw [et, List.append_nil]; exact h.alive
  · rw [et, List.append_nil]
  · intro gid; rw [ef, List.append_nil]; exact h.frames gid
  · intro gid r; rw [or_iff_left (ec gid r)]; exact h.closed gid r

theorem Inv.frameBranch {parse : Bytes → Option V} {tr0 c tr s} (h : Inv parse tr0 c tr s)
    {k : Kind} {f : Bool} {o : Out V} {s' : State}
    (hb : Latest.frameBranch k parse s = some (o, s')) :
    Inv parse tr0 c (tr ++ [(.poll f, o)]) s' := by
  unfold Latest.frameBranch at hb
  cases hg : s.held with
  | none => rw [hg] at hb; cases hb
  | some g =>
    rw [hg] at hb
    dsimp only at hb
    have key : ∀ o : Out V, trackTrace c [(Op.poll f, o)] = [] → received [(Op.poll f, o)] = [] →
        reported [(Op.poll f, o)] = [g] →
        (∀ x ∈ values [(Op.poll f, o)],
          ∃ b, (framesOf tr x.1.gid).head? = some b ∧ parse b = some x.2) →
        Inv parse tr0 c (tr ++ [(.poll f, o)]) { s with held := none } := fun o h1 h2 h3 h4 =>
      h.report hg h1 h2 h3 (fun _ => rfl) (fun _ _ hx => by cases hx) h4
    cases hf : (s.content g.gid).frames with
    | cons b bs =>
      rw [hf] at hb
      dsimp only at hb
      cases hp : parse b with
      | some v =>
        rw [hp] at hb
        cases hb
        refine key _ rfl rfl rfl fun x hx => ?_
        rw [List.mem_singleton.1 (show x ∈ [(g, v)] from hx)]
        exact ⟨b, by rw [← h.frames, hf]; rfl, hp⟩
      | none =>
        rw [hp] at hb
        cases hb
        exact key _ rfl rfl rfl fun x hx => by cases hx
    | nil =>
      rw [hf] at hb
      dsimp only at hb
      split at hb
      · cases hb
      · cases hb; exact key _ rfl rfl rfl fun x hx => by cases hx
      · cases hb
      · cases hb; exact key _ rfl rfl rfl fun x hx => by cases hx

theorem Inv.groupBranch {parse : Bytes → Option V} {tr0 c tr s} (h : Inv parse tr0 c tr s)
    {f : Bool} {o : Out V} {s' : State} (hb : Latest.groupBranch c s = some (o, s')) :
    Inv parse tr0 c (tr ++ [(.poll f, o)]) s' := by
  unfold Latest.groupBranch at hb
  rcases Session.ServeLoop.next_cases s.track c with ⟨g, t, ht⟩ | ⟨ht, hn⟩
  · rw [ht] at hb
    cases hb
    exact h.receive ht
  · have key : ∀ o : Out V, o = .ended ∨ (∃ e, o = .err e) ∨ o = .invalid →
        Inv parse tr0 c (tr ++ [(.poll f, o)]) s := by
      rintro o (rfl | ⟨e, rfl⟩ | rfl) <;>
        exact h.same rfl rfl rfl rfl (fun _ => rfl) (fun _ _ hx => by cases hx)
    have hs : ({ s with track := (Track.step s.track (.next c)).2 } : State) = s := by rw [ht]
    revert hb
    generalize hq : Track.step s.track (.next c) = q at ht hn hs
    obtain ⟨a, t⟩ := q
    dsimp only at ht hn hs
    subst ht
    cases a <;> intro hb <;> cases hb <;>
      first | exact key _ (.inl rfl) | exact key _ (.inr (.inl ⟨_, rfl⟩)) | exact key _ (.inr (.inr rfl)) |
        exact absurd rfl (hn _)

theorem Inv.pending {parse : Bytes → Option V} {tr0 c tr s} (h : Inv parse tr0 c tr s) (f : Bool) :
    Inv parse tr0 c (tr ++ [(.poll f, .pending)]) s :=
  h.same rfl rfl rfl rfl (fun _ => rfl) (fun _ _ hx => by cases hx)

theorem Inv.poll {parse : Bytes → Option V} {tr0 c tr s} (h : Inv parse tr0 c tr s) (k : Kind)
    (f : Bool) : Inv parse tr0 c (tr ++ [(.poll f, (Latest.poll k parse c s f).1)])
      (Latest.poll k parse c s f).2 := by
  unfold Latest.poll
  have hF : ∀ k, ∀ q, Latest.frameBranch k parse s = some q →
      Inv parse tr0 c (tr ++ [(.poll f, q.1)]) q.2 := fun k q hq => h.frameBranch hq
  have hG : ∀ q, Latest.groupBranch c s = some q →
      Inv parse tr0 c (tr ++ [(.poll f, q.1)]) q.2 := fun q hq => h.groupBranch hq
  cases k <;> dsimp only
  · cases hf : Latest.frameBranch .catalog parse s <;> cases hg : Latest.groupBranch (V := V) c s <;>
      split <;> simp only [Option.orElse, Option.getD]
    all_goals first | exact h.pending f | exact hG _ hg | exact hF _ _ hf
  · cases hf : Latest.frameBranch .location parse s <;> cases hg : Latest.groupBranch (V := V) c s <;>
      split <;> simp only [Option.getD]
    all_goals first | exact h.pending f | exact hG _ hg | exact hF _ _ hf

theorem Inv.step {parse : Bytes → Option V} {tr0 c tr s} (h : Inv parse tr0 c tr s) (k : Kind)
    (op : Op) : Inv parse tr0 c (tr ++ [(op, (step k parse c s op).1)]) (step k parse c s op).2 := by
  cases op with
  | poll f => exact h.poll k f
  | track op =>
    simp only [Latest.step]
    split
    · rename_i hf
      have et : trackTrace c [(Op.track op, (Out.track (Track.step s.track op).1 : Out V))] =
          [(op, (Track.step s.track op).1)] := rfl
      refine h.quiet ?_ ?_ ?_ rfl rfl rfl ?_ ?_ (.inl rfl)
      · rw [et, ← List.append_assoc]; exact Machine.Reach.step (M := Model.Track.machine) op h.reach
      · rw [et, ← List.append_assoc]; exact alive_foreign h.alive hf
      · rw [et, ← List.append_assoc, received_foreign h.reach h.alive hf]
      · intro gid; simpa [framesOf] using h.frames gid
      · intro gid r; simpa using h.closed gid r
    · exact h.same rfl rfl rfl rfl (fun _ => rfl) (fun _ _ hx => by cases hx)
  | frame gid b =>
    simp only [Latest.step]
    split
    · exact h.same rfl rfl rfl rfl (fun _ => rfl) (fun _ _ hx => by cases hx)
    · have et : trackTrace c [(Op.frame gid b, (Out.ok : Out V))] = [] := rfl
      refine h.quiet ?_ ?_ ?_ rfl rfl rfl ?_ ?_ (.inl rfl)
      · rw [et, List.append_nil]; exact h.reach
      · rw [et, List.append_nil]; exact h.alive
      · rw [et, List.append_nil]
      · intro g
        dsimp only
        by_cases hg : g = gid
        · subst hg; simp [framesOf, h.frames]
        · rw [if_neg hg, h.frames g]; simp [framesOf, Ne.symm hg]
      · intro g r
        dsimp only
        by_cases hg : g = gid
        · subst hg; simpa using h.closed g r
        · rw [if_neg hg]; simpa using h.closed g r
  | close gid r =>
    simp only [Latest.step]
    split
    · exact h.same rfl rfl rfl rfl (fun _ => rfl) (fun _ _ hx => by cases hx)
    · rename_i ho
      have ho : (s.content gid).closed = none := by simpa using ho
      have et : trackTrace c [(Op.close gid r, (Out.ok : Out V))] = [] := rfl
      refine h.quiet ?_ ?_ ?_ rfl rfl rfl ?_ ?_ (.inl rfl)
      · rw [et, List.append_nil]; exact h.reach
      · rw [et, List.append_nil]; exact h.alive
      · rw [et, List.append_nil]
      · intro g
        dsimp only
        by_cases hg : g = gid
        · subst hg; simp [framesOf, h.frames]
        · rw [if_neg hg, h.frames g]; simp [framesOf]
      · intro g r'
        dsimp only
        have hcl := h.closed g r'
        by_cases hg : g = gid
        · subst hg
          rw [ho] at hcl
          simp only [if_true]
          constructor
          · intro hx; cases hx; exact .inr rfl
          · rintro (hx | hx)
            · cases hcl.2 hx
            · cases hx; rfl
        · rw [if_neg hg, hcl]
          constructor
          · exact .inl
          · rintro (hx | hx)
            · exact hx
            · cases hx; exact absurd rfl hg
  | cancel =>
    cases k <;> simp only [Latest.step]
    · exact h.same rfl rfl rfl rfl (fun _ => rfl) (fun _ _ hx => by cases hx)
    · have et : trackTrace c [(Op.cancel, (Out.cancelled s.held : Out V))] = [] := rfl
      refine h.quiet ?_ ?_ ?_ rfl rfl rfl ?_ ?_ ?_
      · rw [et, List.append_nil]; exact h.reach
      · rw [et, List.append_nil]; exact h.alive
      · rw [et, List.append_nil]
      · intro g; simpa [framesOf] using h.frames g
      · intro g r; simpa using h.closed g r
      · cases hg : s.held with
        | none => exact .inl rfl
        | some g => exact .inr ⟨rfl, g, rfl, rfl⟩

theorem inv_reach {k : Kind} {parse : Bytes → Option V} {tr0 : Model.Track.Spec.Trace}
    {t0 : Track.State} {c : Nat} (h0 : Model.Track.machine.Reach tr0 t0)
    (hc : ConsumerAlive tr0 c) {tr : Trace V} {s : State}
    (h : (machine k parse t0 c).Reach tr s) : Inv parse tr0 c tr s := by
  refine Machine.Reach.induct (M := machine k parse t0 c) (P := fun tr s => Inv parse tr0 c tr s) ?_ ?_ h
  · exact inv_init h0 hc
  · intro tr s op _ ih
    exact ih.step k op

end Verif.Hang.Latest
