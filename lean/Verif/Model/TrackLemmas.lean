import Verif.Model.TrackSpec

/-!
# Invariants of the track machine
-/

set_option autoImplicit false

namespace Verif.Model.Track

open Verif Verif.Session Verif.Model.Track.Spec

/-- Consumer `c` was created. -/
def ConsumerMade (tr : Trace) (c : Nat) : Prop :=
  (∃ p, (Op.consume p, Out.handle c) ∈ tr) ∨ (∃ d, (Op.cloneConsumer d, Out.handle c) ∈ tr)

/-- Consumer `c` was dropped. -/
def ConsumerGone (tr : Trace) (c : Nat) : Prop := (Op.dropConsumer c, Out.ok) ∈ tr

/-- The invariant about the shared state and the handle tables. -/
structure Agrees (tr : Trace) (s : State) : Prop where
  latest : (accepted tr).getLast? = s.latest
  closed : closing tr = s.closed
  producers : s.producers.Tracks (ProducerMade tr) (ProducerGone tr)
  futures : s.futures.Tracks (FutureMade tr) (FutureGone tr)
  consumers : s.consumers.Tracks (ConsumerMade tr) (ConsumerGone tr)

theorem accepted_snoc (tr : Trace) (e : Op × Out) :
    accepted (tr ++ [e]) = accepted tr ++ accepted [e] := by
  simp [accepted]

theorem closing_snoc (tr : Trace) (e : Op × Out) :
    closing (tr ++ [e]) = (closing [e]).or (closing tr) := by
  unfold closing
  rw [List.filterMap_append, List.getLast?_append]

theorem received_snoc (tr : Trace) (e : Op × Out) (c : Nat) :
    received (tr ++ [e]) c = give (received tr) e c := by
  simp [received, List.foldl_append]

theorem agrees_init : Agrees [] init := by
  constructor
  · rfl
  · rfl
  · constructor
    · intro i
      unfold init ProducerMade ProducerGone
      cases i <;> simp [Slots.get]
    · intro i
      unfold init ProducerMade ProducerGone
      simp
  · constructor
    · intro i; simp [init, FutureMade, Slots.get]
    · intro i; simp [FutureMade, FutureGone]
  · constructor
    · intro i; simp [init, ConsumerMade, Slots.get]
    · intro i; simp [ConsumerMade, ConsumerGone]

theorem Agrees.senders {tr s} (h : Agrees tr s) : s.senders = 0 ↔ Abandoned tr := by
  unfold State.senders Abandoned
  have e1 : s.producers.count = 0 ↔ ∀ p, ProducerMade tr p → ProducerGone tr p := by
    rw [Slots.count_eq_zero]
    refine forall_congr' fun p => ?_
    have := h.producers.live p
    cases hg : s.producers.get p <;> simp_all
  have e2 : s.futures.count = 0 ↔ ∀ f, FutureMade tr f → FutureGone tr f := by
    rw [Slots.count_eq_zero]
    refine forall_congr' fun p => ?_
    have := h.futures.live p
    cases hg : s.futures.get p <;> simp_all
  rw [← e1, ← e2]
  omega

/-- The events that change nothing in `Agrees`. -/
def Plain (e : Op × Out) : Prop :=
  match e.1, e.2 with
  | .insert _ _, .inserted true | .appendFinish _ _, .appended _
  | .finish _, .ok | .abort _ _, .ok
  | .cloneProducer _, .handle _ | .dropProducer _, .ok | .unused _, .handle _
  | .dropUnused _, .ok | .consume _, .handle _ | .cloneConsumer _, .handle _
  | .dropConsumer _, .ok => False
  | _, _ => True

/-- An event seen as a change of nothing but the accepted groups. -/
theorem tables_plain {tr : Trace} {e : Op × Out} (he : Plain e ∨
    (∃ p g, e = (.insert p g, .inserted true)) ∨ (∃ p g n, e = (.appendFinish p g, .appended n))) :
    closing (tr ++ [e]) = closing tr ∧
    (∀ i, (ProducerMade (tr ++ [e]) i ↔ ProducerMade tr i)) ∧
    (∀ i, (ProducerGone (tr ++ [e]) i ↔ ProducerGone tr i)) ∧
    (∀ i, (FutureMade (tr ++ [e]) i ↔ FutureMade tr i)) ∧
    (∀ i, (FutureGone (tr ++ [e]) i ↔ FutureGone tr i)) ∧
    (∀ i, (ConsumerMade (tr ++ [e]) i ↔ ConsumerMade tr i)) ∧
    (∀ i, (ConsumerGone (tr ++ [e]) i ↔ ConsumerGone tr i)) := by
  rcases he with he | ⟨p, g, rfl⟩ | ⟨p, g, n, rfl⟩
  · obtain ⟨op, out⟩ := e
    unfold Plain at he
    rw [closing_snoc]
    refine ⟨?_, fun i => ?_, fun i => ?_, fun i => ?_, fun i => ?_, fun i => ?_, fun i => ?_⟩
    · cases op <;> cases out <;> simp_all [closing]
    · unfold ProducerMade; cases op <;> cases out <;> simp_all
    · unfold ProducerGone; cases op <;> cases out <;> simp_all
    · unfold FutureMade; cases op <;> cases out <;> simp_all
    · unfold FutureGone; cases op <;> cases out <;> simp_all
    · unfold ConsumerMade; cases op <;> cases out <;> simp_all
    · unfold ConsumerGone; cases op <;> cases out <;> simp_all
  · simp [closing, ProducerMade, ProducerGone, FutureMade, FutureGone, ConsumerMade, ConsumerGone]
  · simp [closing, ProducerMade, ProducerGone, FutureMade, FutureGone, ConsumerMade, ConsumerGone]

theorem accepted_plain {e : Op × Out} (he : Plain e) : accepted [e] = [] := by
  obtain ⟨op, out⟩ := e
  unfold Plain at he
  cases op <;> cases out <;> (try (rename_i b; cases b)) <;> simp_all [accepted]

theorem Agrees.plain {tr s} {s' : State} {e : Op × Out} (h : Agrees tr s) (he : Plain e)
    (h1 : s'.latest = s.latest) (h2 : s'.closed = s.closed)
    (h3 : s'.producers.Tracks (ProducerMade tr) (ProducerGone tr))
    (h4 : s'.futures = s.futures)
    (h5 : s'.consumers.Tracks (ConsumerMade tr) (ConsumerGone tr)) : Agrees (tr ++ [e]) s' := by
  obtain ⟨t1, t2, t3, t4, t5, t6, t7⟩ := tables_plain (tr := tr) (Or.inl he)
  constructor
  · rw [accepted_snoc, h1, ← h.latest, accepted_plain he, List.append_nil]
  · rw [t1, h2, h.closed]
  · exact h3.congr t2 t3
  · rw [h4]; exact h.futures.congr t4 t5
  · exact h5.congr t6 t7

theorem Agrees.plain' {tr s} {e : Op × Out} (h : Agrees tr s) (he : Plain e) :
    Agrees (tr ++ [e]) s :=
  h.plain he rfl rfl h.producers rfl h.consumers

theorem Agrees.put {tr s} (h : Agrees tr s) {c x} (hc : s.consumers.get c = some x)
    (v : Option Nat) :
    (s.consumers.put c (some v)).Tracks (ConsumerMade tr) (ConsumerGone tr) :=
  h.consumers.put_some v hc (fun _ => Iff.rfl) (fun _ => Iff.rfl)

theorem Agrees.putP {tr s} (h : Agrees tr s) {p x} (hc : s.producers.get p = some x)
    (v : Option Nat) :
    (s.producers.put p (some v)).Tracks (ProducerMade tr) (ProducerGone tr) :=
  h.producers.put_some v hc (fun _ => Iff.rfl) (fun _ => Iff.rfl)

/-- What `insert_group` does. -/
theorem insertGroup_cases (s : State) (g : Grp) :
    (s.closed.isSome ∧ insertGroup s g = none) ∨
    (s.closed = none ∧ (∃ l, s.latest = some l ∧ g.seq ≤ l.seq) ∧
      insertGroup s g = some (false, s)) ∨
    (s.closed = none ∧ (∀ l, s.latest = some l → l.seq < g.seq) ∧
      insertGroup s g = some (true, { s with latest := some g })) := by
  unfold insertGroup
  cases hc : s.closed with
  | some x => exact .inl ⟨rfl, rfl⟩
  | none =>
    right
    cases hl : s.latest with
    | none => exact .inr ⟨rfl, (fun l hx => by cases hx), rfl⟩
    | some l =>
      rcases Nat.lt_trichotomy g.seq l.seq with hlt | heq | hgt
      · left
        refine ⟨rfl, ⟨l, rfl, by omega⟩, ?_⟩
        simp [Nat.compare_eq_lt.2 hlt]
      · left
        refine ⟨rfl, ⟨l, rfl, by omega⟩, ?_⟩
        simp [Nat.compare_eq_eq.2 heq]
      · right
        refine ⟨rfl, ?_, ?_⟩
        · intro l' hx
          injection hx with hx
          subst hx
          exact hgt
        · simp [Nat.compare_eq_gt.2 hgt]

theorem Agrees.step {tr s} (h : Agrees tr s) (op : Op) :
    Agrees (tr ++ [(op, (step s op).1)]) (step s op).2 := by
  cases op with
  | insert p g =>
    simp only [Track.step]
    split
    · split
      · exact h.plain' trivial
      · rcases insertGroup_cases s g with ⟨_, e⟩ | ⟨_, _, e⟩ | ⟨_, _, e⟩ <;> rw [e]
        · exact h.plain' trivial
        · exact h.plain' trivial
        · obtain ⟨t1, t2, t3, t4, t5, t6, t7⟩ := tables_plain (tr := tr)
            (Or.inr (Or.inl ⟨p, g, rfl⟩))
          exact ⟨by rw [accepted_snoc]; simp [accepted], by rw [t1]; exact h.closed,
            h.producers.congr t2 t3, h.futures.congr t4 t5, h.consumers.congr t6 t7⟩
    · exact h.plain' trivial
  | appendStart p =>
    simp only [Track.step]
    split
    · rename_i hp
      split
      · exact h.plain trivial rfl rfl (h.putP hp _) rfl h.consumers
      · split
        · exact h.plain' trivial
        · exact h.plain trivial rfl rfl (h.putP hp _) rfl h.consumers
    · exact h.plain' trivial
  | appendFinish p gid =>
    simp only [Track.step]
    split
    · rename_i n hp
      rcases insertGroup_cases { s with producers := s.producers.put p (some none) } ⟨n, gid⟩ with
        ⟨_, e⟩ | ⟨_, _, e⟩ | ⟨_, _, e⟩ <;> rw [e]
      · exact h.plain trivial rfl rfl (h.putP hp _) rfl h.consumers
      · exact h.plain trivial rfl rfl (h.putP hp _) rfl h.consumers
      · obtain ⟨t1, t2, t3, t4, t5, t6, t7⟩ := tables_plain (tr := tr)
          (Or.inr (Or.inr ⟨p, gid, n, rfl⟩))
        exact ⟨by rw [accepted_snoc]; simp [accepted], by rw [t1]; exact h.closed,
          (h.putP hp _).congr t2 t3, h.futures.congr t4 t5, h.consumers.congr t6 t7⟩
    · exact h.plain' trivial
  | finish p =>
    simp only [Track.step]
    split
    · rename_i hw
      constructor
      · rw [accepted_snoc]; simpa [accepted] using h.latest
      · rw [closing_snoc]; simp [closing]
      · exact h.producers.put_none hw (fun i => by simp [ProducerMade])
          (fun i => by simp [ProducerGone]; grind)
      · exact h.futures.congr (fun i => by simp [FutureMade]) (fun i => by simp [FutureGone])
      · exact h.consumers.congr (fun i => by simp [ConsumerMade]) (fun i => by simp [ConsumerGone])
    · exact h.plain' trivial
  | abort p e =>
    simp only [Track.step]
    split
    · rename_i hw
      constructor
      · rw [accepted_snoc]; simpa [accepted] using h.latest
      · rw [closing_snoc]; simp [closing]
      · exact h.producers.put_none hw (fun i => by simp [ProducerMade])
          (fun i => by simp [ProducerGone]; grind)
      · exact h.futures.congr (fun i => by simp [FutureMade]) (fun i => by simp [FutureGone])
      · exact h.consumers.congr (fun i => by simp [ConsumerMade]) (fun i => by simp [ConsumerGone])
    · exact h.plain' trivial
  | cloneProducer p =>
    simp only [Track.step]
    split
    · constructor
      · rw [accepted_snoc]; simpa [accepted] using h.latest
      · rw [closing_snoc]; simpa [closing] using h.closed
      · exact h.producers.add none (fun i => by simp [ProducerMade]; grind)
          (fun i => by simp [ProducerGone])
      · exact h.futures.congr (fun i => by simp [FutureMade]) (fun i => by simp [FutureGone])
      · exact h.consumers.congr (fun i => by simp [ConsumerMade]) (fun i => by simp [ConsumerGone])
    · exact h.plain' trivial
  | dropProducer p =>
    simp only [Track.step]
    split
    · rename_i hw
      constructor
      · rw [accepted_snoc]; simpa [accepted] using h.latest
      · rw [closing_snoc]; simpa [closing] using h.closed
      · exact h.producers.put_none hw (fun i => by simp [ProducerMade])
          (fun i => by simp [ProducerGone]; grind)
      · exact h.futures.congr (fun i => by simp [FutureMade]) (fun i => by simp [FutureGone])
      · exact h.consumers.congr (fun i => by simp [ConsumerMade]) (fun i => by simp [ConsumerGone])
    · exact h.plain' trivial
  | consume p =>
    simp only [Track.step]
    split
    · constructor
      · rw [accepted_snoc]; simpa [accepted] using h.latest
      · rw [closing_snoc]; simpa [closing] using h.closed
      · exact h.producers.congr (fun i => by simp [ProducerMade]) (fun i => by simp [ProducerGone])
      · exact h.futures.congr (fun i => by simp [FutureMade]) (fun i => by simp [FutureGone])
      · exact h.consumers.add _ (fun i => by simp [ConsumerMade]; grind)
          (fun i => by simp [ConsumerGone])
    · exact h.plain' trivial
  | unused p =>
    simp only [Track.step]
    split
    · constructor
      · rw [accepted_snoc]; simpa [accepted] using h.latest
      · rw [closing_snoc]; simpa [closing] using h.closed
      · exact h.producers.congr (fun i => by simp [ProducerMade]) (fun i => by simp [ProducerGone])
      · exact h.futures.add () (fun i => by simp [FutureMade]; grind) (fun i => by simp [FutureGone])
      · exact h.consumers.congr (fun i => by simp [ConsumerMade]) (fun i => by simp [ConsumerGone])
    · exact h.plain' trivial
  | pollUnused f =>
    simp only [Track.step]
    split <;> exact h.plain' trivial
  | dropUnused f =>
    simp only [Track.step]
    split
    · exact h.plain' trivial
    · rename_i hw
      constructor
      · rw [accepted_snoc]; simpa [accepted] using h.latest
      · rw [closing_snoc]; simpa [closing] using h.closed
      · exact h.producers.congr (fun i => by simp [ProducerMade]) (fun i => by simp [ProducerGone])
      · exact h.futures.put_none hw (fun i => by simp [FutureMade]) (fun i => by simp [FutureGone])
      · exact h.consumers.congr (fun i => by simp [ConsumerMade]) (fun i => by simp [ConsumerGone])
  | cloneConsumer c =>
    simp only [Track.step]
    split
    · exact h.plain' trivial
    · constructor
      · rw [accepted_snoc]; simpa [accepted] using h.latest
      · rw [closing_snoc]; simpa [closing] using h.closed
      · exact h.producers.congr (fun i => by simp [ProducerMade]) (fun i => by simp [ProducerGone])
      · exact h.futures.congr (fun i => by simp [FutureMade]) (fun i => by simp [FutureGone])
      · exact h.consumers.add _ (fun i => by simp [ConsumerMade]; grind)
          (fun i => by simp [ConsumerGone])
  | dropConsumer c =>
    simp only [Track.step]
    split
    · exact h.plain' trivial
    · rename_i hw
      constructor
      · rw [accepted_snoc]; simpa [accepted] using h.latest
      · rw [closing_snoc]; simpa [closing] using h.closed
      · exact h.producers.congr (fun i => by simp [ProducerMade]) (fun i => by simp [ProducerGone])
      · exact h.futures.congr (fun i => by simp [FutureMade]) (fun i => by simp [FutureGone])
      · exact h.consumers.put_none hw (fun i => by simp [ConsumerMade])
          (fun i => by simp [ConsumerGone])
  | next c =>
    simp only [Track.step]
    split
    · exact h.plain' trivial
    · rename_i hc
      split
      · split
        · exact h.plain' trivial
        · exact h.plain' trivial
        · split
          · exact h.plain' trivial
          · exact h.plain trivial rfl rfl h.producers rfl (h.put hc _)
      · split <;> exact h.plain' trivial
  | pollClosed c =>
    simp only [Track.step]
    split
    · exact h.plain' trivial
    · split
      · exact h.plain' trivial
      · exact h.plain' trivial
      · split <;> exact h.plain' trivial

/-! ## The order of accepted and delivered groups -/

/-- Strictly increasing sequence numbers. -/
def Increasing (gs : List Grp) : Prop := gs.Pairwise fun a b => a.seq < b.seq

theorem Increasing.snoc {gs : List Grp} (h : Increasing gs) {g : Grp}
    (hg : ∀ l, gs.getLast? = some l → l.seq < g.seq) : Increasing (gs ++ [g]) := by
  unfold Increasing at h ⊢
  rw [List.pairwise_append]
  refine ⟨h, by simp, ?_⟩
  intro a ha b hb
  rw [List.mem_singleton.1 hb]
  have hne : gs ≠ [] := by intro hx; rw [hx] at ha; cases ha
  obtain ⟨ys, y, hy⟩ := List.eq_nil_or_concat gs |>.resolve_left hne
  rw [List.concat_eq_append] at hy
  subst hy
  have hy := hg y (by simp)
  rcases List.mem_append.1 ha with ha | ha
  · have := (List.pairwise_append.1 h).2.2 a ha y (by simp)
    omega
  · rw [List.mem_singleton.1 ha]; exact hy

theorem Increasing.le_last {gs : List Grp} (h : Increasing gs) {l : Grp}
    (hl : gs.getLast? = some l) : ∀ a ∈ gs, a.seq ≤ l.seq := by
  intro a ha
  obtain ⟨ys, rfl⟩ := List.getLast?_eq_some_iff.1 hl
  rcases List.mem_append.1 ha with ha | ha
  · have := (List.pairwise_append.1 h).2.2 a ha l (by simp)
    omega
  · rw [List.mem_singleton.1 ha]; exact Nat.le_refl _

/-- A group is newer than an increasing list exactly if it is newer than its last element. -/
theorem Increasing.newer_iff {gs : List Grp} (h : Increasing gs) (g : Grp) :
    NewerThan g gs ↔ ∀ l, gs.getLast? = some l → l.seq < g.seq := by
  constructor
  · intro hn l hl
    exact hn l (List.mem_of_getLast? hl)
  · intro hn x hx
    cases hl : gs.getLast? with
    | none => rw [List.getLast?_eq_none_iff] at hl; rw [hl] at hx; cases hx
    | some l =>
      have := h.le_last hl x hx
      have := hn l hl
      omega

/-- The invariant about order and consumers. -/
structure Ordered (tr : Trace) (s : State) : Prop where
  accepted : Increasing (Spec.accepted tr)
  prev : ∀ c v, s.consumers.get c = some v → v = (Spec.received tr c).getLast?.map (·.seq)
  received : ∀ c v, s.consumers.get c = some v → Increasing (Spec.received tr c)
  subset : ∀ c v, s.consumers.get c = some v → ∀ g ∈ Spec.received tr c, g ∈ Spec.accepted tr

theorem ordered_init : Ordered [] init := by
  constructor
  · exact List.Pairwise.nil
  all_goals (intro c v h; simp [init, Slots.get] at h)

theorem Ordered.keep {tr s} (hA : Agrees tr s) (h : Ordered tr s) (op : Op)
    (hc : (Track.step s op).2.consumers = s.consumers)
    (hg : give (Spec.received tr) (op, (Track.step s op).1) = Spec.received tr)
    (ha : Spec.accepted [(op, (Track.step s op).1)] = [] ∨
      ∃ g, Spec.accepted [(op, (Track.step s op).1)] = [g] ∧
        ∀ l, s.latest = some l → l.seq < g.seq) :
    Ordered (tr ++ [(op, (Track.step s op).1)]) (Track.step s op).2 := by
  have hs : ∀ g ∈ Spec.accepted tr, g ∈ Spec.accepted (tr ++ [(op, (Track.step s op).1)]) := by
    intro g hg
    rw [accepted_snoc]
    exact List.mem_append_left _ hg
  constructor
  · rw [accepted_snoc]
    rcases ha with ha | ⟨g, ha, hl⟩
    · rw [ha, List.append_nil]; exact h.accepted
    · rw [ha]
      exact h.accepted.snoc fun l hx => hl l (by rw [← hA.latest]; exact hx)
  · intro c v hv; rw [received_snoc, hg]; rw [hc] at hv; exact h.prev c v hv
  · intro c v hv; rw [received_snoc, hg]; rw [hc] at hv; exact h.received c v hv
  · intro c v hv g hx
    rw [received_snoc, hg] at hx; rw [hc] at hv; exact hs g (h.subset c v hv g hx)

theorem Ordered.silent {tr s} {e : Op × Out} (h : Ordered tr s) (ha : Spec.accepted [e] = [])
    (hg : give (Spec.received tr) e = Spec.received tr) : Ordered (tr ++ [e]) s := by
  have ha' : Spec.accepted (tr ++ [e]) = Spec.accepted tr := by
    rw [accepted_snoc, ha, List.append_nil]
  exact ⟨by rw [ha']; exact h.accepted,
    (fun c v hv => by rw [received_snoc, hg]; exact h.prev c v hv),
    (fun c v hv => by rw [received_snoc, hg]; exact h.received c v hv),
    (fun c v hv g hx => by
      rw [received_snoc, hg] at hx
      rw [ha']
      exact h.subset c v hv g hx)⟩

theorem newer_true {tr s} (h : Ordered tr s) {c v}
    (hc : s.consumers.get c = some v) {g} (hg : s.latest = some g) :
    newer (s.latest.map (·.seq)) v = true ↔ NewerThan g (Spec.received tr c) := by
  rw [(h.received c v hc).newer_iff, h.prev c v hc, hg]
  cases hl : (Spec.received tr c).getLast? with
  | none => simp [newer]
  | some l => simp [newer]

theorem Ordered.step {tr s} (hA : Agrees tr s) (h : Ordered tr s) (op : Op) :
    Ordered (tr ++ [(op, (step s op).1)]) (step s op).2 := by
  cases op with
  | insert p g =>
    apply h.keep hA
    · simp only [Track.step]
      split
      · split
        · rfl
        · rcases insertGroup_cases s g with ⟨_, e⟩ | ⟨_, _, e⟩ | ⟨_, _, e⟩ <;> rw [e]
      · rfl
    · simp only [Track.step]
      repeat' (first | split | rfl)
    · simp only [Track.step]
      split
      · split
        · exact .inl rfl
        · rcases insertGroup_cases s g with ⟨_, e⟩ | ⟨_, _, e⟩ | ⟨_, hl, e⟩ <;> rw [e]
          · exact .inl rfl
          · exact .inl rfl
          · exact .inr ⟨g, rfl, hl⟩
      · exact .inl rfl
  | appendFinish p gid =>
    apply h.keep hA
    · simp only [Track.step]
      split
      · rename_i n hp
        rcases insertGroup_cases { s with producers := s.producers.put p (some none) } ⟨n, gid⟩ with
          ⟨_, e⟩ | ⟨_, _, e⟩ | ⟨_, _, e⟩ <;> rw [e]
      · rfl
    · simp only [Track.step]
      repeat' (first | split | rfl)
    · simp only [Track.step]
      split
      · rename_i n hp
        rcases insertGroup_cases { s with producers := s.producers.put p (some none) } ⟨n, gid⟩ with
          ⟨_, e⟩ | ⟨_, _, e⟩ | ⟨_, hl, e⟩ <;> rw [e]
        · exact .inl rfl
        · exact .inl rfl
        · exact .inr ⟨⟨n, gid⟩, rfl, hl⟩
      · exact .inl rfl
  | consume p =>
    simp only [Track.step]
    split
    · have ha : Spec.accepted (tr ++ [(Op.consume p, Out.handle s.consumers.length)]) =
          Spec.accepted tr := by rw [accepted_snoc]; exact List.append_nil _
      have hr : ∀ c v, (s.consumers.add none).get c = some v →
          (s.consumers.get c = some v ∧
            Spec.received (tr ++ [(Op.consume p, Out.handle s.consumers.length)]) c =
              Spec.received tr c) ∨
          (v = none ∧
            Spec.received (tr ++ [(Op.consume p, Out.handle s.consumers.length)]) c = []) := by
        intro c v hv
        rw [received_snoc]
        simp only [give]
        rw [Slots.get_add] at hv
        split at hv
        · rename_i he
          rw [if_pos he]
          injection hv with hv
          exact .inr ⟨hv.symm, rfl⟩
        · rename_i he
          rw [if_neg he]
          exact .inl ⟨hv, rfl⟩
      constructor
      · rw [ha]; exact h.accepted
      · intro c v hv
        rcases hr c v hv with ⟨h1, h2⟩ | ⟨h1, h2⟩
        · rw [h2]; exact h.prev c v h1
        · rw [h2]; exact h1
      · intro c v hv
        rcases hr c v hv with ⟨h1, h2⟩ | ⟨h1, h2⟩
        · rw [h2]; exact h.received c v h1
        · rw [h2]; exact List.Pairwise.nil
      · intro c v hv g hg
        rw [ha]
        rcases hr c v hv with ⟨h1, h2⟩ | ⟨h1, h2⟩
        · rw [h2] at hg; exact h.subset c v h1 g hg
        · rw [h2] at hg; cases hg
    · exact h.silent rfl rfl
  | cloneConsumer d =>
    simp only [Track.step]
    split
    · exact h.silent rfl rfl
    · rename_i prev hd
      have ha : Spec.accepted (tr ++ [(Op.cloneConsumer d, Out.handle s.consumers.length)]) =
          Spec.accepted tr := by rw [accepted_snoc]; exact List.append_nil _
      have hr : ∀ c v, (s.consumers.add prev).get c = some v → ∃ c', s.consumers.get c' = some v ∧
          Spec.received (tr ++ [(Op.cloneConsumer d, Out.handle s.consumers.length)]) c =
            Spec.received tr c' := by
        intro c v hv
        rw [received_snoc]
        simp only [give]
        rw [Slots.get_add] at hv
        split at hv
        · rename_i he
          rw [if_pos he]
          injection hv with hv
          exact ⟨d, by rw [hd, hv], rfl⟩
        · rename_i he
          rw [if_neg he]
          exact ⟨c, hv, rfl⟩
      constructor
      · rw [ha]; exact h.accepted
      · intro c v hv
        obtain ⟨c', h1, h2⟩ := hr c v hv
        rw [h2]; exact h.prev c' v h1
      · intro c v hv
        obtain ⟨c', h1, h2⟩ := hr c v hv
        rw [h2]; exact h.received c' v h1
      · intro c v hv g hg
        obtain ⟨c', h1, h2⟩ := hr c v hv
        rw [h2] at hg
        rw [ha]
        exact h.subset c' v h1 g hg
  | dropConsumer d =>
    simp only [Track.step]
    split
    · exact h.silent rfl rfl
    · have hr : ∀ c v, (s.consumers.put d none).get c = some v → s.consumers.get c = some v := by
        intro c v hv
        rw [Slots.get_put] at hv
        split at hv
        · split at hv <;> cases hv
        · exact hv
      have ha : Spec.accepted (tr ++ [(Op.dropConsumer d, Out.ok)]) =
          Spec.accepted tr := by rw [accepted_snoc]; exact List.append_nil _
      exact ⟨by rw [ha]; exact h.accepted,
        (fun c v hv => by rw [received_snoc]; exact h.prev c v (hr c v hv)),
        (fun c v hv => by rw [received_snoc]; exact h.received c v (hr c v hv)),
        (fun c v hv g hg => by
          rw [received_snoc] at hg
          rw [ha]
          exact h.subset c v (hr c v hv) g hg)⟩
  | next d =>
    have same : ∀ o : Out, (∀ g, o ≠ .group g) → Ordered (tr ++ [(.next d, o)]) s := by
      intro o ho
      have hg : give (Spec.received tr) (Op.next d, o) = Spec.received tr := by
        cases o <;> first | rfl | exact absurd rfl (ho _)
      have ha : Spec.accepted (tr ++ [(Op.next d, o)]) = Spec.accepted tr := by
        rw [accepted_snoc]
        cases o <;> exact List.append_nil _
      exact ⟨by rw [ha]; exact h.accepted,
        (fun c v hv => by rw [received_snoc, hg]; exact h.prev c v hv),
        (fun c v hv => by rw [received_snoc, hg]; exact h.received c v hv),
        (fun c v hv g hx => by
          rw [received_snoc, hg] at hx
          rw [ha]
          exact h.subset c v hv g hx)⟩
    simp only [Track.step]
    split
    · exact same _ (by simp)
    · rename_i prev hd
      split
      · rename_i hn
        split
        · exact same _ (by simp)
        · exact same _ (by simp)
        · rename_i hcl
          split
          · exact same _ (by simp)
          · rename_i g hg
            have hnew : NewerThan g (Spec.received tr d) := by
              rw [hcl] at hn
              simp only [Option.isSome_none, Bool.or_false] at hn
              exact (newer_true h hd hg).1 hn
            have hacc : g ∈ Spec.accepted tr := by
              have := hA.latest
              rw [hg] at this
              exact List.mem_of_getLast? this
            have ha : Spec.accepted (tr ++ [(Op.next d, Out.group g)]) = Spec.accepted tr := by
              rw [accepted_snoc]; exact List.append_nil _
            have hr : ∀ c v, (s.consumers.put d (some (some g.seq))).get c = some v →
                (c = d ∧ v = some g.seq) ∨ (c ≠ d ∧ s.consumers.get c = some v) := by
              intro c v hv
              rw [Slots.get_put] at hv
              split at hv
              · rename_i he
                rw [if_pos (Slots.get_some_lt hd)] at hv
                injection hv with hv
                exact .inl ⟨he.symm, hv.symm⟩
              · rename_i he
                exact .inr ⟨fun hx => he hx.symm, hv⟩
            constructor
            · rw [ha]; exact h.accepted
            · intro c v hv
              rw [received_snoc]
              simp only [give]
              rcases hr c v hv with ⟨rfl, rfl⟩ | ⟨h1, h2⟩
              · rw [if_pos rfl]; simp
              · rw [if_neg h1]; exact h.prev c v h2
            · intro c v hv
              rw [received_snoc]
              simp only [give]
              rcases hr c v hv with ⟨rfl, rfl⟩ | ⟨h1, h2⟩
              · rw [if_pos rfl]
                exact (h.received c _ hd).snoc (((h.received c _ hd).newer_iff g).1 hnew)
              · rw [if_neg h1]; exact h.received c v h2
            · intro c v hv x hx
              rw [received_snoc] at hx
              simp only [give] at hx
              rw [ha]
              rcases hr c v hv with ⟨rfl, rfl⟩ | ⟨h1, h2⟩
              · rw [if_pos rfl] at hx
                rcases List.mem_append.1 hx with hx | hx
                · exact h.subset c _ hd x hx
                · rw [List.mem_singleton.1 hx]; exact hacc
              · rw [if_neg h1] at hx; exact h.subset c v h2 x hx
      · split <;> exact same _ (by simp)
  | _ =>
    apply h.keep hA
    · simp only [Track.step]; repeat' (first | split | rfl)
    · simp only [Track.step]; repeat' (first | split | rfl)
    · left; simp only [Track.step]; repeat' (first | split | rfl)

/-! ## All invariants together -/

/-- The complete invariant. -/
structure Inv (tr : Trace) (s : State) : Prop where
  agrees : Agrees tr s
  ordered : Ordered tr s

theorem inv_reach {tr : Trace} {s : State} (h : machine.Reach tr s) : Inv tr s :=
  Machine.Reach.induct (M := machine) (P := Inv) ⟨agrees_init, ordered_init⟩
    (fun _ _ op _ ih => ⟨ih.agrees.step op, ih.ordered.step ih.agrees op⟩) h

theorem Inv.alive_iff {tr : Trace} {s : State} (h : Inv tr s) (c : Nat) :
    ConsumerAlive tr c ↔ ∃ i, s.consumers.get c = some i := by
  have := h.agrees.consumers.live c
  unfold ConsumerMade ConsumerGone at this
  unfold ConsumerAlive
  rw [← this, Option.isSome_iff_exists]

end Verif.Model.Track
