import Verif.Model.TrackLemmas

/-!
# Properties of tracks: C23 to C28

The vocabulary (`accepted`, `closing`, `received`, `Abandoned`, …) is defined from the history of
calls and answers in `Verif/Model/TrackSpec.lean`.
-/

set_option autoImplicit false

namespace Verif.Props.Track

open Verif Verif.Session Verif.Model Verif.Model.Track Verif.Model.Track.Spec

/-! ## C23: a track reader sees strictly increasing groups -/

/-- **C23.**  The groups given to one consumer (continuing, for a clone, those given to the
original before the cloning) have strictly increasing sequence numbers, and each was accepted by
the track. -/
theorem c23_increasing {tr : Trace} {s : State} (h : machine.Reach tr s) {c : Nat}
    (hc : ConsumerAlive tr c) :
    (received tr c).Pairwise (fun a b => a.seq < b.seq) ∧
      ∀ g ∈ received tr c, g ∈ accepted tr := by
  have hI := inv_reach h
  obtain ⟨v, hv⟩ := (hI.alive_iff c).1 hc
  exact ⟨hI.ordered.received c v hv, hI.ordered.subset c v hv⟩

/-- A concrete run: group 5 is read, group 3 is refused, group 7 is accepted, a clone reads it. -/
def exampleOps : List Op :=
  [.consume 0, .insert 0 ⟨5, 100⟩, .next 0, .insert 0 ⟨3, 101⟩, .cloneConsumer 0,
   .insert 0 ⟨7, 102⟩, .next 1]

/-- The history of that run. -/
def exampleTrace : Trace :=
  [(.consume 0, .handle 0), (.insert 0 ⟨5, 100⟩, .inserted true), (.next 0, .group ⟨5, 100⟩),
   (.insert 0 ⟨3, 101⟩, .inserted false), (.cloneConsumer 0, .handle 1),
   (.insert 0 ⟨7, 102⟩, .inserted true), (.next 1, .group ⟨7, 102⟩)]

theorem example_run : (machine.run exampleOps).1 = exampleTrace := rfl

example : machine.Reach exampleTrace (machine.run exampleOps).2 ∧
    ConsumerAlive exampleTrace 1 ∧ received exampleTrace 1 = [⟨5, 100⟩, ⟨7, 102⟩] ∧
    accepted exampleTrace = [⟨5, 100⟩, ⟨7, 102⟩] ∧ received exampleTrace 0 = [⟨5, 100⟩] := by
  refine ⟨machine.reach_run exampleOps, ?_, rfl, rfl, rfl⟩
  simp [ConsumerAlive, exampleTrace]

/-! ## C24: a track accepts exactly the newer groups -/

/-- **C24.**  Offering a group to an open track is accepted if and only if its sequence number is
larger than that of every group accepted before; a refused group changes nothing at all. -/
theorem c24_accepts_newer {tr : Trace} {s : State} (h : machine.Reach tr s) {p : Nat} {g : Grp}
    (hv : (step s (.insert p g)).1 ≠ .invalid) (ho : closing tr = none) :
    ((step s (.insert p g)).1 = .inserted true ↔ ∀ x ∈ accepted tr, x.seq < g.seq) ∧
    ((step s (.insert p g)).1 ≠ .inserted true →
      (step s (.insert p g)).1 = .inserted false ∧ (step s (.insert p g)).2 = s) := by
  have hI := inv_reach h
  have hacc := hI.ordered.accepted.newer_iff g
  rw [hI.agrees.latest] at hacc
  rw [hI.agrees.closed] at ho
  have key : ∀ o, o = step s (.insert p g) → o.1 ≠ .invalid →
      (o.1 = .inserted true ↔ ∀ x ∈ accepted tr, x.seq < g.seq) ∧
      (o.1 ≠ .inserted true → o.1 = .inserted false ∧ o.2 = s) := by
    intro o ho' hv
    simp only [step] at ho'
    split at ho'
    · split at ho'
      · subst ho'; exact absurd rfl hv
      · rcases insertGroup_cases s g with ⟨hx, e⟩ | ⟨_, ⟨l, hl, hle⟩, e⟩ | ⟨_, hl, e⟩ <;>
          rw [e] at ho' <;> subst ho'
        · rw [ho] at hx; cases hx
        · refine ⟨⟨fun hx => by simp at hx, fun hx => ?_⟩, fun _ => ⟨rfl, rfl⟩⟩
          have := hacc.1 hx l hl
          omega
        · exact ⟨⟨fun _ => hacc.2 hl, fun _ => rfl⟩, fun hx => absurd rfl hx⟩
    · subst ho'; exact absurd rfl hv
  exact key _ rfl hv

/-- **C24.**  The call is possible on every live producer that is not inside `append_group`; on a
closed track it panics. -/
theorem c24_closed_panics {tr : Trace} {s : State} (h : machine.Reach tr s) {p : Nat} {g : Grp}
    (hv : (step s (.insert p g)).1 ≠ .invalid) (ho : closing tr ≠ none) :
    step s (.insert p g) = (.panic, s) := by
  have hI := inv_reach h
  rw [hI.agrees.closed] at ho
  simp only [step] at hv ⊢
  split at hv
  · split at hv
    · exact absurd rfl hv
    · rename_i hp hs
      rw [if_neg hs]
      rcases insertGroup_cases s g with ⟨hx, e⟩ | ⟨hx, _⟩ | ⟨hx, _⟩
      · rw [e]
      · exact absurd hx ho
      · exact absurd hx ho
  · exact absurd rfl hv

example : (step (machine.run exampleOps).2 (.insert 0 ⟨7, 1⟩)).1 = .inserted false ∧
    closing exampleTrace = none := ⟨rfl, rfl⟩

/-! ## C25: appending groups numbers them consecutively -/

theorem pending_step {s : State} {p n : Nat} (hp : s.producers.get p = some (some n)) (op : Op)
    (hop : ∀ gid, op ≠ .appendFinish p gid) :
    (step s op).2.producers.get p = some (some n) := by
  have put_ne : ∀ (q : Nat) (x : Option (Option Nat)), s.producers.get q ≠ some (some n) ∨ q ≠ p →
      (s.producers.put q x).get p = some (some n) := by
    intro q x hq
    have : q ≠ p := by
      rintro rfl
      rcases hq with hq | hq
      · exact hq hp
      · exact hq rfl
    rw [Slots.get_put_ne _ this]
    exact hp
  cases op with
  | insert q g =>
    simp only [step]
    split
    · split
      · exact hp
      · rcases insertGroup_cases s g with ⟨_, e⟩ | ⟨_, _, e⟩ | ⟨_, _, e⟩ <;> rw [e] <;> exact hp
    · exact hp
  | appendStart q =>
    simp only [step]
    split
    · rename_i hq
      have hq' : s.producers.get q ≠ some (some n) := by rw [hq]; simp
      split
      · exact put_ne _ _ (.inl hq')
      · split
        · exact hp
        · exact put_ne _ _ (.inl hq')
    · exact hp
  | appendFinish q gid =>
    simp only [step]
    have hne : q ≠ p := by rintro rfl; exact hop gid rfl
    split
    · rename_i m hq
      rcases insertGroup_cases { s with producers := s.producers.put q (some none) } ⟨m, gid⟩ with
        ⟨_, e⟩ | ⟨_, _, e⟩ | ⟨_, _, e⟩ <;> rw [e] <;> exact put_ne _ _ (.inr hne)
    · exact hp
  | finish q =>
    simp only [step]
    split
    · rename_i hq
      exact put_ne _ _ (.inl (by rw [hq]; simp))
    · exact hp
  | abort q e =>
    simp only [step]
    split
    · rename_i hq
      exact put_ne _ _ (.inl (by rw [hq]; simp))
    · exact hp
  | dropProducer q =>
    simp only [step]
    split
    · rename_i hq
      exact put_ne _ _ (.inl (by rw [hq]; simp))
    · exact hp
  | cloneProducer q =>
    simp only [step]
    split
    · rw [Slots.get_add, if_neg]
      · exact hp
      · have := Slots.get_some_lt hp; omega
    · exact hp
  | _ =>
    simp only [step]
    repeat' (first | split | exact hp)

theorem pending_run {s : State} {p n : Nat} (hp : s.producers.get p = some (some n))
    (mid : List Op) (hm : ∀ gid, Op.appendFinish p gid ∉ mid) :
    (Machine.runFrom machine s mid).2.producers.get p = some (some n) := by
  induction mid generalizing s with
  | nil => exact hp
  | cons op mid ih =>
    exact ih (pending_step hp op fun gid hx => hm gid (by simp [hx]))
      fun gid hx => hm gid (List.mem_cons_of_mem _ hx)

theorem finish_of {t : State} {p n gid : Nat} (hp : t.producers.get p = some (some n))
    (hcl : t.closed = none) (hl : ∀ l, t.latest = some l → l.seq < n) :
    (step t (.appendFinish p gid)).1 = .appended n := by
  simp only [step, hp]
  rcases insertGroup_cases { t with producers := t.producers.put p (some none) } ⟨n, gid⟩ with
    ⟨hx, e⟩ | ⟨_, ⟨l, hx, hle⟩, e⟩ | ⟨_, _, e⟩
  · dsimp only at hx
    rw [hcl] at hx
    cases hx
  · have := hl l hx
    dsimp only at hle
    omega
  · rw [e]

/-- **C25**, partial: `append_group` is called by producer `p` after the history `tr`; while it
runs, other handles do `mid`.  If `mid` neither gets a group accepted nor closes the track, the
new group gets number 0 on an empty track and otherwise one more than the largest number so far.

Missing: without the condition on `mid` the property is false, see `c25_append_race`. -/
theorem c25_append_partial {tr : Trace} {s : State} (h : machine.Reach tr s) {p : Nat}
    (hs : (step s (.appendStart p)).1 = .ok) (mid : List Op)
    (hm : ∀ gid, Op.appendFinish p gid ∉ mid)
    (hacc : accepted (machine.runFrom (step s (.appendStart p)).2 mid).1 = [])
    (hop : closing (tr ++ (machine.runFrom (step s (.appendStart p)).2 mid).1) = none) (gid : Nat) :
    ∃ n, (step (machine.runFrom (step s (.appendStart p)).2 mid).2 (.appendFinish p gid)).1 =
        .appended n ∧
      (accepted tr = [] → n = 0) ∧
      (accepted tr ≠ [] → (∃ g ∈ accepted tr, n = g.seq + 1) ∧ ∀ g ∈ accepted tr, g.seq < n) := by
  have hI := inv_reach h
  have h1 : machine.Reach (tr ++ [(.appendStart p, (step s (.appendStart p)).1)])
      (step s (.appendStart p)).2 := Machine.Reach.step _ h
  have h2 := machine.reach_runFrom h1 mid
  have hI2 := inv_reach h2
  obtain ⟨n, hn, hz, hnz⟩ : ∃ n, (step s (.appendStart p)).2.producers.get p = some (some n) ∧
      (accepted tr = [] → n = 0) ∧
      (accepted tr ≠ [] → (∃ g ∈ accepted tr, n = g.seq + 1) ∧ ∀ g ∈ accepted tr, g.seq < n) := by
    simp only [step] at hs ⊢
    split at hs
    · rename_i hp
      split at hs
      · rename_i hl
        refine ⟨0, by simp [Slots.get_put_self _ hp], fun _ => rfl, fun hx => ?_⟩
        rw [← hI.agrees.latest, List.getLast?_eq_none_iff] at hl
        exact absurd hl hx
      · rename_i l hl
        split at hs
        · cases hs
        · rename_i hlt
          rw [← hI.agrees.latest] at hl
          refine ⟨l.seq + 1, by simp [hlt, Slots.get_put_self _ hp], ?_, fun _ => ⟨⟨l, ?_, rfl⟩, ?_⟩⟩
          · intro hx; rw [hx] at hl; cases hl
          · exact List.mem_of_getLast? hl
          · intro g hg
            have := hI.ordered.accepted.le_last hl g hg
            omega
    · cases hs
  refine ⟨n, ?_, hz, hnz⟩
  have hp := pending_run hn mid hm
  have hacc2 : accepted (tr ++ [(.appendStart p, (step s (.appendStart p)).1)] ++
      (machine.runFrom (step s (.appendStart p)).2 mid).1) = accepted tr := by
    rw [hs]
    unfold accepted at hacc ⊢
    rw [List.filterMap_append, List.filterMap_append, hacc]
    simp
  have hop2 : closing (tr ++ [(.appendStart p, (step s (.appendStart p)).1)] ++
      (machine.runFrom (step s (.appendStart p)).2 mid).1) = none := by
    rw [hs]
    unfold closing at hop ⊢
    rw [List.filterMap_append, List.filterMap_append]
    rw [List.filterMap_append] at hop
    simpa using hop
  have hl := hI2.agrees.latest
  rw [hacc2] at hl
  have hcl := hI2.agrees.closed
  rw [hop2] at hcl
  refine finish_of hp hcl.symm fun l hx => ?_
  rw [← hl] at hx
  have hm' := List.mem_of_getLast? hx
  exact (hnz (List.ne_nil_of_mem hm')).2 l hm'

/-- The start of `append_group` succeeds on a usable producer unless the numbers are exhausted. -/
theorem c25_append_start {tr : Trace} {s : State} (h : machine.Reach tr s) {p : Nat}
    (hv : (step s (.appendStart p)).1 ≠ .invalid) :
    (step s (.appendStart p)).1 = .ok ↔ ∀ g ∈ accepted tr, g.seq + 1 < 2 ^ 64 := by
  have hI := inv_reach h
  have key : ∀ o, o = step s (.appendStart p) → o.1 ≠ .invalid →
      (o.1 = .ok ↔ ∀ g ∈ accepted tr, g.seq + 1 < 2 ^ 64) := by
    intro o ho hv
    simp only [step] at ho
    split at ho
    · split at ho
      · rename_i hl
        rw [← hI.agrees.latest, List.getLast?_eq_none_iff] at hl
        subst ho
        simp [hl]
      · rename_i l hl
        rw [← hI.agrees.latest] at hl
        split at ho
        · subst ho
          constructor
          · intro hx; cases hx
          · intro hx
            have := hx l (List.mem_of_getLast? hl)
            omega
        · subst ho
          refine ⟨fun _ g hg => ?_, fun _ => rfl⟩
          have := hI.ordered.accepted.le_last hl g hg
          omega
    · subst ho; exact absurd rfl hv
  exact key _ rfl hv

example : (step (machine.run exampleOps).2 (.appendStart 0)).1 = .ok ∧
    (machine.run (exampleOps ++ [.appendStart 0, .next 0, .appendFinish 0 9])).1.getLast? =
      some (.appendFinish 0 9, .appended 8) := ⟨rfl, rfl⟩

/-- **C25 is violated by concurrent appends**: two clones of a producer append at the same time
on an open track, and the slower one panics. -/
theorem c25_append_race :
    ∃ tr s, machine.Reach tr s ∧ closing tr = none ∧
      (step s (.appendFinish 1 11)).1 = .panic :=
  ⟨_, _, machine.reach_run [.cloneProducer 0, .appendStart 0, .appendStart 1, .appendFinish 0 10],
    rfl, rfl⟩

/-! ## C26: a track reader is never served a stale group -/

/-- The full answer to `next_group`. -/
theorem next_answer {tr : Trace} {s : State} (h : machine.Reach tr s) {c : Nat}
    (hc : ConsumerAlive tr c) : (step s (.next c)).1 = nextAnswer tr (received tr c) := by
  have hI := inv_reach h
  obtain ⟨v, hv⟩ := (hI.alive_iff c).1 hc
  simp only [step, hv]
  unfold nextAnswer
  rw [hI.agrees.closed, hI.agrees.latest]
  have hsend := hI.agrees.senders
  cases hcl : s.closed with
  | some r =>
    simp only [Option.isSome_some, Bool.or_true, if_true]
    cases r <;> rfl
  | none =>
    simp only [Option.isSome_none, Bool.or_false]
    cases hl : s.latest with
    | none =>
      simp only [newer, Option.map_none, Bool.false_eq_true, if_false]
      by_cases ha : Abandoned tr
      · rw [if_pos (hsend.2 ha), if_pos ha]
      · rw [if_neg (fun hx => ha (hsend.1 hx)), if_neg ha]
    | some g =>
      have hn := newer_true hI.ordered hv hl
      rw [hl] at hn
      by_cases hx : NewerThan g (received tr c)
      · rw [if_pos (hn.2 hx)]
        simp only
        rw [if_pos hx]
      · rw [if_neg (fun hy => hx (hn.1 hy))]
        simp only
        rw [if_neg hx]
        by_cases ha : Abandoned tr
        · rw [if_pos (hsend.2 ha), if_pos ha]
        · rw [if_neg (fun hx => ha (hsend.1 hx)), if_neg ha]

/-- **C26.**  When a consumer obtains a group, it is the newest group accepted so far and newer
than everything the consumer was given before. -/
theorem c26_never_stale {tr : Trace} {s : State} (h : machine.Reach tr s) {c : Nat} {g : Grp}
    (hg : (step s (.next c)).1 = .group g) :
    g ∈ accepted tr ∧ (∀ x ∈ accepted tr, x.seq ≤ g.seq) ∧
      ∀ x ∈ received tr c, x.seq < g.seq := by
  have hI := inv_reach h
  have hc : ConsumerAlive tr c := by
    rw [hI.alive_iff]
    cases hx : s.consumers.get c with
    | none => simp [step, hx] at hg
    | some v => exact ⟨v, rfl⟩
  rw [next_answer h hc] at hg
  unfold nextAnswer at hg
  split at hg
  · cases hg
  · cases hg
  · split at hg
    · rename_i l hl
      split at hg
      · rename_i hn
        injection hg with hg
        subst hg
        exact ⟨List.mem_of_getLast? hl, hI.ordered.accepted.le_last hl, hn⟩
      · split at hg <;> cases hg
    · split at hg <;> cases hg

/-- **C26.**  If the track is open and a group newer than everything the consumer was given has
been accepted, the consumer does not wait: it gets a group. -/
theorem c26_does_not_block {tr : Trace} {s : State} (h : machine.Reach tr s) {c : Nat}
    (hc : ConsumerAlive tr c) (ho : closing tr = none)
    (hn : ∃ g ∈ accepted tr, ∀ x ∈ received tr c, x.seq < g.seq) :
    ∃ g, (step s (.next c)).1 = .group g := by
  have hI := inv_reach h
  obtain ⟨g, hg, hlt⟩ := hn
  rw [next_answer h hc]
  unfold nextAnswer
  rw [ho]
  cases hl : (accepted tr).getLast? with
  | none => rw [List.getLast?_eq_none_iff] at hl; rw [hl] at hg; cases hg
  | some l =>
    have hle := hI.ordered.accepted.le_last hl g hg
    have hnew : NewerThan l (received tr c) := fun x hx => Nat.lt_of_lt_of_le (hlt x hx) hle
    simp only
    rw [if_pos hnew]
    exact ⟨l, rfl⟩

example : (∃ g ∈ accepted exampleTrace, ∀ x ∈ received exampleTrace 0, x.seq < g.seq) := by
  refine ⟨⟨7, 102⟩, by simp [accepted, exampleTrace], ?_⟩
  intro x hx
  have : received exampleTrace 0 = [⟨5, 100⟩] := rfl
  rw [this] at hx
  rw [List.mem_singleton.1 hx]
  decide

/-! ## C27: the end of a track does not hide its last group -/

theorem received_mono (tr : Trace) (e : Op × Out) (c : Nat) (g : Grp)
    (hne : ∀ d, e ≠ (.cloneConsumer d, .handle c)) (hne' : ∀ p, e ≠ (.consume p, .handle c))
    (hg : g ∈ received tr c) : g ∈ received (tr ++ [e]) c := by
  rw [received_snoc]
  unfold give
  split
  · rename_i p id
    split
    · rename_i he; subst he; exact absurd rfl (hne' p)
    · exact hg
  · rename_i d id
    split
    · rename_i he; subst he; exact absurd rfl (hne d)
    · exact hg
  · split
    · rename_i he; subst he; exact List.mem_append_left _ hg
    · exact hg
  · exact hg

/-- **C27**, partial: a consumer that polls after the last group was accepted and before the
track is closed has been given that last group.

Missing: the property claims this for every consumer; for one that is not scheduled in between
it is false, see `c27_last_group_hidden`. -/
theorem c27_last_group_partial {tr : Trace} {s : State} (h : machine.Reach tr s) {c : Nat}
    (hc : ConsumerAlive tr c) (ho : closing tr = none) {g : Grp}
    (hg : (accepted tr).getLast? = some g) :
    g ∈ received (tr ++ [(.next c, (step s (.next c)).1)]) c := by
  have hI := inv_reach h
  by_cases hn : NewerThan g (received tr c)
  · have : (step s (.next c)).1 = .group g := by
      rw [next_answer h hc]
      unfold nextAnswer
      rw [ho, hg]
      simp only
      rw [if_pos hn]
    rw [this, received_snoc]
    simp [give]
  · refine received_mono _ _ _ _ (by simp) (by simp) ?_
    obtain ⟨h1, h2⟩ := c23_increasing h hc
    -- something at least as new was given, and everything given was accepted
    unfold NewerThan at hn
    have : ∃ x ∈ received tr c, ¬ x.seq < g.seq := by
      apply Classical.byContradiction
      intro hx
      apply hn
      intro x hm
      apply Classical.byContradiction
      intro hy
      exact hx ⟨x, hm, hy⟩
    obtain ⟨x, hx, hge⟩ := this
    have hxa := h2 x hx
    obtain ⟨ys, hys⟩ := List.getLast?_eq_some_iff.1 hg
    rw [hys] at hxa
    rcases List.mem_append.1 hxa with hxa | hxa
    · have hp := hI.ordered.accepted
      unfold Increasing at hp
      rw [hys] at hp
      have := (List.pairwise_append.1 hp).2.2 x hxa g (by simp)
      omega
    · rw [List.mem_singleton.1 hxa] at hx
      exact hx

/-- **C27 is violated**: a group is accepted, the track is finished, and a consumer that existed
all the time and never read sees the end without the group. -/
theorem c27_last_group_hidden :
    ∃ tr s, machine.Reach tr s ∧ ConsumerAlive tr 0 ∧ accepted tr = [⟨0, 100⟩] ∧
      closing tr = some (.ok ()) ∧ received tr 0 = [] ∧ (step s (.next 0)).1 = .ended := by
  refine ⟨_, _, machine.reach_run [.consume 0, .insert 0 ⟨0, 100⟩, .finish 0], ?_, rfl, rfl, rfl, rfl⟩
  have e : (machine.run [.consume 0, .insert 0 ⟨0, 100⟩, .finish 0]).1 =
    [(.consume 0, .handle 0), (.insert 0 ⟨0, 100⟩, .inserted true), (.finish 0, .ok)] := rfl
  rw [e]
  simp [ConsumerAlive]

/-! ## C28: the end of a track reaches every reader -/

/-- **C28.**  After a finish every consumer is told the end, after an abort the error; if the
track was neither finished nor aborted but abandoned, a consumer with nothing newer to read is
told `Cancel`.  The `closed` notification resolves with the same result. -/
theorem c28_end_reaches_all {tr : Trace} {s : State} (h : machine.Reach tr s) {c : Nat}
    (hc : ConsumerAlive tr c) :
    (closing tr = some (.ok ()) →
      (step s (.next c)).1 = .ended ∧ (step s (.pollClosed c)).1 = .ended) ∧
    (∀ e, closing tr = some (.error e) →
      (step s (.next c)).1 = .err e ∧ (step s (.pollClosed c)).1 = .err e) ∧
    (closing tr = none → Abandoned tr →
      (step s (.pollClosed c)).1 = .err .cancel ∧
      ((∀ g ∈ accepted tr, ∃ x ∈ received tr c, g.seq ≤ x.seq) →
        (step s (.next c)).1 = .err .cancel)) ∧
    (closing tr = none → ¬ Abandoned tr → (step s (.pollClosed c)).1 = .pending) := by
  have hI := inv_reach h
  have hcl : (step s (.pollClosed c)).1 = closedAnswer tr := by
    obtain ⟨v, hv⟩ := (hI.alive_iff c).1 hc
    simp only [step, hv]
    unfold closedAnswer
    rw [hI.agrees.closed]
    have hsend := hI.agrees.senders
    cases s.closed with
    | some r => cases r <;> rfl
    | none =>
      simp only
      by_cases ha : Abandoned tr
      · rw [if_pos (hsend.2 ha), if_pos ha]
      · rw [if_neg (fun hx => ha (hsend.1 hx)), if_neg ha]
  rw [hcl, next_answer h hc]
  unfold nextAnswer closedAnswer
  refine ⟨fun hx => ?_, fun e hx => ?_, fun hx ha => ?_, fun hx ha => ?_⟩
  · rw [hx]; exact ⟨rfl, rfl⟩
  · rw [hx]; exact ⟨rfl, rfl⟩
  · rw [hx]
    simp only
    rw [if_pos ha]
    refine ⟨rfl, fun hall => ?_⟩
    cases hl : (accepted tr).getLast? with
    | none => rfl
    | some g =>
      simp only
      rw [if_neg]
      intro hn
      obtain ⟨x, hx, hle⟩ := hall g (List.mem_of_getLast? hl)
      have := hn x hx
      omega
  · rw [hx]
    simp only
    rw [if_neg ha]

example : Abandoned [((.consume 0 : Op), (.handle 0 : Out)), (.dropProducer 0, .ok)] := by
  simp [Abandoned, ProducerMade, ProducerGone, FutureMade]

/-! ## C73: unused notifications -/

open Classical in
/-- **C73.**  After any history, a live `unused()` future of a track is ready exactly if no consumer
exists. -/
theorem c73_track {tr : Trace} {s : State} (h : machine.Reach tr s) (f : Nat) :
    (step s (.pollUnused f)).1 =
      if FutureMade tr f ∧ ¬ FutureGone tr f then
        if ∃ c, ConsumerAlive tr c then .pending else .ok
      else .invalid := by
  have hl := (inv_reach h).agrees.futures.live f
  have hc : s.consumers.count = 0 ↔ ¬ ∃ c, ConsumerAlive tr c := by
    rw [Slots.count_eq_zero]
    constructor
    · rintro hn ⟨c, hc⟩
      obtain ⟨i, hi⟩ := ((inv_reach h).alive_iff c).1 hc
      rw [hn c] at hi
      cases hi
    · intro hn c
      cases hx : s.consumers.get c with
      | none => rfl
      | some i => exact absurd ⟨c, ((inv_reach h).alive_iff c).2 ⟨i, hx⟩⟩ hn
  simp only [step]
  cases hf : s.futures.get f with
  | none =>
    rw [hf] at hl
    show Out.invalid = _
    rw [if_neg (by rw [← hl]; simp)]
  | some w =>
    rw [hf] at hl
    show (if s.consumers.count = 0 then Out.ok else .pending) = _
    rw [if_pos (hl.1 rfl)]
    by_cases hx : ∃ c, ConsumerAlive tr c
    · rw [if_pos hx, if_neg (by rw [hc]; simpa using hx)]
    · rw [if_neg hx, if_pos (hc.2 hx)]

/-- A run in which the future exists: pending with a consumer, ready after it is dropped. -/
example : (machine.step (machine.run [.unused 0, .consume 0]).2 (.pollUnused 0)).1 = .pending ∧
    (machine.step (machine.run [.unused 0, .consume 0, .dropConsumer 0]).2
      (.pollUnused 0)).1 = .ok := ⟨rfl, rfl⟩

end Verif.Props.Track
