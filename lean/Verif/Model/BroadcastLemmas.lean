import Verif.Model.BroadcastSpec

/-!
# Invariants of the broadcast machine
-/

set_option autoImplicit false

namespace Verif.Model.Broadcast

open Verif Verif.Session Verif.Model.Broadcast.Spec

/-! ## Handle tables -/

theorem consumers_step {tr : Trace} {s : State} (op : Op)
    (h : s.consumers.Tracks (ConsumerMade tr) (ConsumerGone tr)) :
    (step s op).2.consumers.Tracks (ConsumerMade (tr ++ [(op, (step s op).1)]))
      (ConsumerGone (tr ++ [(op, (step s op).1)])) := by
  cases op <;> simp only [step] <;> (repeat' split) <;> first
    | exact h.congr (fun i => by simp [ConsumerMade]) (fun i => by simp [ConsumerGone])
    | exact h.add _ (fun i => by simp [ConsumerMade]; grind) (fun i => by simp [ConsumerGone])
    | exact h.put_none (by assumption) (fun i => by simp [ConsumerMade])
        (fun i => by simp [ConsumerGone])

theorem unused_step {tr : Trace} {s : State} (op : Op)
    (h : s.unusedFutures.Tracks (UnusedMade tr) (UnusedGone tr)) :
    (step s op).2.unusedFutures.Tracks (UnusedMade (tr ++ [(op, (step s op).1)]))
      (UnusedGone (tr ++ [(op, (step s op).1)])) := by
  cases op <;> simp only [step] <;> (repeat' split) <;> first
    | exact h.congr (fun i => by simp [UnusedMade]) (fun i => by simp [UnusedGone])
    | exact h.add _ (fun i => by simp [UnusedMade]; grind) (fun i => by simp [UnusedGone])
    | exact h.put_none (by assumption) (fun i => by simp [UnusedMade])
        (fun i => by simp [UnusedGone])

theorem closed_step {tr : Trace} {s : State} (op : Op)
    (h : s.closedFutures.Tracks (ClosedMade tr) (ClosedGone tr)) :
    (step s op).2.closedFutures.Tracks (ClosedMade (tr ++ [(op, (step s op).1)]))
      (ClosedGone (tr ++ [(op, (step s op).1)])) := by
  cases op <;> simp only [step] <;> (repeat' split) <;> first
    | exact h.congr (fun i => by simp [ClosedMade]) (fun i => by simp [ClosedGone])
    | exact h.add _ (fun i => by simp [ClosedMade]; grind) (fun i => by simp [ClosedGone])
    | exact h.put_none (by assumption) (fun i => by simp [ClosedMade])
        (fun i => by simp [ClosedGone])

theorem producers_step {tr : Trace} {s : State} (op : Op)
    (h : s.producers.Tracks (ProducerMade tr) (ProducerGone tr)) :
    (step s op).2.producers.Tracks (ProducerMade (tr ++ [(op, (step s op).1)]))
      (ProducerGone (tr ++ [(op, (step s op).1)])) := by
  cases op <;> simp only [step] <;> (repeat' split) <;> first
    | exact h.congr (fun i => by simp [ProducerMade]) (fun i => by simp [ProducerGone])
    | exact h.add _ (fun i => by simp [ProducerMade]; grind) (fun i => by simp [ProducerGone])
    | exact h.put_none (by assumption) (fun i => by simp [ProducerMade])
        (fun i => by simp [ProducerGone]; grind)
    | exact h.put_some _ (by assumption) (fun i => by simp [ProducerMade])
        (fun i => by simp [ProducerGone])

theorem finished_step {tr : Trace} {s : State} (op : Op)
    (h : s.finished = true ↔ ∃ p, (Op.finish p, Out.ok) ∈ tr) :
    (step s op).2.finished = true ↔ ∃ p, (Op.finish p, Out.ok) ∈ tr ++ [(op, (step s op).1)] := by
  cases op <;> simp only [step] <;> (repeat' split) <;> first
    | (simp; exact h)
    | simp

/-- The handle tables agree with the history. -/
structure Tables (tr : Trace) (s : State) : Prop where
  producers : s.producers.Tracks (ProducerMade tr) (ProducerGone tr)
  consumers : s.consumers.Tracks (ConsumerMade tr) (ConsumerGone tr)
  unused : s.unusedFutures.Tracks (UnusedMade tr) (UnusedGone tr)
  closed : s.closedFutures.Tracks (ClosedMade tr) (ClosedGone tr)
  finished : s.finished = true ↔ ∃ p, (Op.finish p, Out.ok) ∈ tr

theorem tables_reach {tr : Trace} {s : State} (h : machine.Reach tr s) : Tables tr s := by
  refine Machine.Reach.induct (M := machine) (P := fun tr s => Tables tr s) ?_ ?_ h
  · constructor
    · constructor
      · intro i
        cases i <;> simp [machine, init, ProducerMade, ProducerGone, Slots.get]
      · intro i
        simp [machine, init, ProducerMade, ProducerGone]
    · constructor <;> intro i <;> simp [machine, init, ConsumerMade, ConsumerGone, Slots.get]
    · constructor <;> intro i <;> simp [machine, init, UnusedMade, UnusedGone, Slots.get]
    · constructor <;> intro i <;> simp [machine, init, ClosedMade, ClosedGone, Slots.get]
    · simp [machine, init]
  · intro tr s op _ ih
    exact ⟨producers_step op ih.producers, consumers_step op ih.consumers,
      unused_step op ih.unused, closed_step op ih.closed, finished_step op ih.finished⟩

/-! ## Phases -/

theorem cleanups_snoc (tr : Trace) (e : Op × Out) :
    cleanups (tr ++ [e]) = cleanups tr + cleanups [e] := by
  simp [cleanups]

theorem get_put_cases {α : Type} {s : Slots α} {i j : Nat} {v : Option α} {x : α}
    (h : (s.put i v).get j = some x) : (i = j ∧ v = some x) ∨ (i ≠ j ∧ s.get j = some x) := by
  rw [Slots.get_put] at h
  split at h
  · split at h
    · exact .inl ⟨by assumption, h⟩
    · cases h
  · exact .inr ⟨by assumption, h⟩

theorem get_add_cases {α : Type} {s : Slots α} {j : Nat} {v x : α}
    (h : (s.add v).get j = some x) : (j = s.length ∧ x = v) ∨ (j ≠ s.length ∧ s.get j = some x) := by
  rw [Slots.get_add] at h
  split at h
  · injection h with h; exact .inl ⟨by assumption, h.symm⟩
  · exact .inr ⟨by assumption, h⟩

/-- How far the broadcast is in its life. -/
inductive Mode (tr : Trace) (s : State) : Prop
  /-- no clean-up has begun -/
  | running (open' : s.queueOpen = true) (count : s.producers.count = s.cloned + 1)
      (live : ∀ p φ, s.producers.get p = some φ → φ = .live) (once : cleanups tr = 0)
  /-- producer `p` is cleaning up and is the only one -/
  | ending (p : Nat) (φ : Phase) (at' : s.producers.get p = some φ) (ne : φ ≠ .live)
      (only : ∀ q, q ≠ p → s.producers.get q = none) (open' : s.queueOpen = true ↔ φ = .close)
      (empty : φ = .clear ∨ φ = .fields → s.queue = []) (once : cleanups tr = 1)
  /-- no producer is left -/
  | over (none : ∀ p, s.producers.get p = none) (closed : s.queueOpen = false)
      (empty : s.queue = []) (once : cleanups tr = 1)

/-- A step that does not concern the life of the broadcast. -/
theorem Mode.silent {tr : Trace} {s s' : State} {e : Op × Out} (h : Mode tr s)
    (h1 : s'.queueOpen = s.queueOpen) (h2 : s'.producers = s.producers)
    (h3 : s'.cloned = s.cloned) (h4 : s.queueOpen = false → s.queue = [] → s'.queue = [])
    (h5 : cleanups [e] = 0) : Mode (tr ++ [e]) s' := by
  cases h with
  | running ho hc hl hn =>
    exact .running (by rw [h1, ho]) (by rw [h2, h3, hc]) (by rw [h2]; exact hl)
      (by rw [cleanups_snoc, hn, h5])
  | ending p φ hat hne hon ho hem hn =>
    refine .ending p φ (by rw [h2]; exact hat) hne (by rw [h2]; exact hon) (by rw [h1]; exact ho)
      (fun hx => h4 ?_ (hem hx)) (by rw [cleanups_snoc, hn, h5])
    cases hq : s.queueOpen with
    | false => rfl
    | true => rw [ho] at hq; subst hq; simp at hx
  | over hno hcl hem hn =>
    exact .over (by rw [h2]; exact hno) (by rw [h1, hcl]) (h4 hcl hem)
      (by rw [cleanups_snoc, hn, h5])

theorem Mode.step {tr : Trace} {s : State} (op : Op) (h : Mode tr s) :
    Mode (tr ++ [(op, (step s op).1)]) (step s op).2 := by
  cases op with
  | cloneProducer p =>
    simp only [Broadcast.step]
    split
    · rename_i hp
      cases h with
      | running ho hc hl hn =>
        refine .running ho ?_ ?_ (by rw [cleanups_snoc, hn]; rfl)
        · rw [Slots.count_add, hc]
        · intro q φ hq
          rcases get_add_cases hq with ⟨_, hx⟩ | ⟨_, hx⟩
          · exact hx
          · exact hl q φ hx
      | ending q φ hat hne hon ho hem hn =>
        by_cases hpq : p = q
        · subst hpq; rw [hp] at hat; injection hat with hat; exact absurd hat.symm hne
        · rw [hon p hpq] at hp; cases hp
      | over hno hcl hem hn => rw [hno] at hp; cases hp
    · exact h.silent rfl rfl rfl (fun _ h => h) rfl
  | dropProducer p =>
    simp only [Broadcast.step]
    split
    · rename_i hp
      cases h with
      | running ho hc hl hn =>
        have hcount := Slots.count_put_none hp
        split
        · refine .running ho ?_ ?_ (by rw [cleanups_snoc, hn]; rfl)
          · dsimp only; omega
          · intro q φ hq
            rcases get_put_cases hq with ⟨_, hx⟩ | ⟨_, hx⟩
            · cases hx
            · exact hl q φ hx
        · refine .ending p .close (Slots.get_put_self _ hp) (by simp) ?_ (by simp [ho]) (by simp)
            (by rw [cleanups_snoc, hn]; rfl)
          intro q hq
          dsimp only
          rw [Slots.get_put_ne _ (Ne.symm hq)]
          have : (s.producers.put p none).count = 0 := by omega
          have := Slots.count_eq_zero.1 this q
          rwa [Slots.get_put_ne _ (Ne.symm hq)] at this
      | ending q φ hat hne hon ho hem hn =>
        by_cases hpq : p = q
        · subst hpq; rw [hp] at hat; injection hat with hat; exact absurd hat.symm hne
        · rw [hon p hpq] at hp; cases hp
      | over hno hcl hem hn => rw [hno] at hp; cases hp
    · exact h.silent rfl rfl rfl (fun _ h => h) rfl
  | dropStep p =>
    have hmain : ∀ φ, s.producers.get p = some φ → φ ≠ .live →
        (∀ q, q ≠ p → s.producers.get q = none) ∧ (s.queueOpen = true ↔ φ = .close) ∧
        (φ = .clear ∨ φ = .fields → s.queue = []) ∧ cleanups tr = 1 := by
      intro φ hp hne
      cases h with
      | running ho hc hl hn => exact absurd (hl p φ hp) hne
      | ending q ψ hat hne' hon ho hem hn =>
        by_cases hpq : p = q
        · subst hpq
          rw [hp] at hat
          injection hat with hat
          subst hat
          exact ⟨hon, ho, hem, hn⟩
        · rw [hon p hpq] at hp; cases hp
      | over hno hcl hem hn => rw [hno] at hp; cases hp
    simp only [Broadcast.step]
    split
    · rename_i hp
      obtain ⟨hon, ho, hem, hn⟩ := hmain _ hp (by simp)
      refine .ending p (.drain none) (Slots.get_put_self _ hp) (by simp) (fun q hq => ?_) (by simp)
        (by simp) (by rw [cleanups_snoc, hn]; rfl)
      exact (Slots.get_put_ne _ (Ne.symm hq)).trans (hon q hq)
    · rename_i hp
      obtain ⟨hon, ho, hem, hn⟩ := hmain _ hp (by simp)
      split
      · refine .ending p (.drain (some _)) (Slots.get_put_self _ hp) (by simp) (fun q hq => ?_)
          (by simpa using ho) (by simp) (by rw [cleanups_snoc, hn]; rfl)
        exact (Slots.get_put_ne _ (Ne.symm hq)).trans (hon q hq)
      · rename_i hq0
        refine .ending p .clear (Slots.get_put_self _ hp) (by simp) (fun q hq => ?_)
          (by simpa using ho) (fun _ => hq0) (by rw [cleanups_snoc, hn]; rfl)
        exact (Slots.get_put_ne _ (Ne.symm hq)).trans (hon q hq)
    · rename_i hp
      obtain ⟨hon, ho, hem, hn⟩ := hmain _ hp (by simp)
      refine .ending p (.drain none) (Slots.get_put_self _ hp) (by simp) (fun q hq => ?_)
        (by simpa [State.setClosed] using ho) (by simp) (by rw [cleanups_snoc, hn]; rfl)
      exact (Slots.get_put_ne _ (Ne.symm hq)).trans (hon q hq)
    · rename_i hp
      obtain ⟨hon, ho, hem, hn⟩ := hmain _ hp (by simp)
      refine .ending p .fields (Slots.get_put_self _ hp) (by simp) (fun q hq => ?_)
        (by simpa using ho) (fun _ => hem (by simp)) (by rw [cleanups_snoc, hn]; rfl)
      exact (Slots.get_put_ne _ (Ne.symm hq)).trans (hon q hq)
    · rename_i hp
      obtain ⟨hon, ho, hem, hn⟩ := hmain _ hp (by simp)
      refine .over (fun q => ?_) (by simpa using ho) (hem (by simp)) (by rw [cleanups_snoc, hn]; rfl)
      dsimp only
      by_cases hq : q = p
      · subst hq; exact Slots.get_put_self _ hp
      · exact (Slots.get_put_ne _ (Ne.symm hq)).trans (hon q hq)
    · exact h.silent rfl rfl rfl (fun _ h => h) rfl
  | request p =>
    simp only [Broadcast.step]
    repeat' split
    · rename_i hq
      exact h.silent rfl rfl rfl (fun _ h => by rw [h] at hq; cases hq) rfl
    all_goals exact h.silent rfl rfl rfl (fun _ h => h) rfl
  | subscribe c name =>
    simp only [Broadcast.step]
    repeat' split
    · exact h.silent rfl rfl rfl (fun _ h => h) rfl
    · exact h.silent rfl rfl rfl (fun _ h => h) rfl
    · rename_i ho
      exact h.silent rfl rfl rfl (fun h _ => by rw [h] at ho; cases ho) rfl
    · exact h.silent rfl rfl rfl (fun _ h => h) rfl
  | _ =>
    simp only [Broadcast.step]
    repeat' split
    all_goals exact h.silent rfl rfl rfl (fun _ h => h) rfl

theorem mode_reach {tr : Trace} {s : State} (h : machine.Reach tr s) : Mode tr s := by
  refine Machine.Reach.induct (M := machine) (P := fun tr s => Mode tr s) ?_ ?_ h
  · refine .running rfl rfl (fun p φ hp => ?_) rfl
    have : p = 0 := by
      have := Slots.get_some_lt hp
      simp [init] at this
      exact this
    subst this
    simp [init, Slots.get] at hp
    exact hp.symm
  · intro tr s op _ ih
    exact ih.step op

/-- The producers that are not being dropped, and the others. -/
structure Lives (tr : Trace) (s : State) : Prop where
  bound : ∀ p, DropBegun tr p → p < s.producers.length
  live : ∀ p, s.producers.get p = some .live ↔ Live tr p

theorem Lives.silent {tr : Trace} {s s' : State} {e : Op × Out} (h : Lives tr s)
    (h1 : s'.producers = s.producers) (h2 : ∀ p, ProducerMade (tr ++ [e]) p ↔ ProducerMade tr p)
    (h3 : ∀ p, DropBegun (tr ++ [e]) p ↔ DropBegun tr p) : Lives (tr ++ [e]) s' := by
  constructor
  · intro p; rw [h1, h3]; exact h.bound p
  · intro p; unfold Live; rw [h1, h2, h3]; exact h.live p

/-- A step of the drop of a producer whose drop has begun. -/
theorem Lives.dropping {tr : Trace} {s s' : State} {e : Op × Out} {q : Nat} {φ : Phase}
    {v : Option Phase} (h : Lives tr s) (hq : s.producers.get q = some φ) (hne : φ ≠ .live)
    (hv : v ≠ some .live)
    (h1 : s'.producers = s.producers.put q v)
    (h2 : ∀ p, ProducerMade (tr ++ [e]) p ↔ ProducerMade tr p)
    (h3 : ∀ p, DropBegun (tr ++ [e]) p ↔ DropBegun tr p) : Lives (tr ++ [e]) s' := by
  constructor
  · intro p; rw [h1, h3, Slots.length_put]; exact h.bound p
  · intro p
    unfold Live
    rw [h1, h2, h3]
    by_cases hp : q = p
    · subst hp
      rw [Slots.get_put_self _ hq, show (ProducerMade tr q ∧ ¬ DropBegun tr q) = Live tr q from rfl,
        ← h.live, hq]
      simp [hv, hne]
    · rw [Slots.get_put_ne _ hp]; exact h.live p

theorem Lives.step {tr : Trace} {s : State} (op : Op) (h : Lives tr s) :
    Lives (tr ++ [(op, (step s op).1)]) (step s op).2 := by
  cases op with
  | cloneProducer p =>
    simp only [Broadcast.step]
    split
    · constructor
      · intro q hq
        have : DropBegun tr q := by simpa [DropBegun] using hq
        have := h.bound q this
        simp only [Slots.length_add]
        omega
      · intro q
        dsimp only
        rw [Slots.get_add]
        have e1 : DropBegun (tr ++ [(Op.cloneProducer p, Out.handle s.producers.length)]) q ↔
          DropBegun tr q := by simp [DropBegun]
        have e2 : ProducerMade (tr ++ [(Op.cloneProducer p, Out.handle s.producers.length)]) q ↔
          ProducerMade tr q ∨ q = s.producers.length := by simp [ProducerMade]; grind
        unfold Live
        rw [e1, e2]
        split
        · rename_i hx
          subst hx
          have : ¬ DropBegun tr s.producers.length := fun hx =>
            Nat.lt_irrefl _ (h.bound _ hx)
          simp [this]
        · rename_i hx
          rw [h.live]
          simp [hx, Live]
    · exact h.silent rfl (fun i => by simp [ProducerMade]) (fun i => by simp [DropBegun])
  | dropProducer p =>
    simp only [Broadcast.step]
    split
    · rename_i hp
      have key : ∀ (o : Out) (v : Option Phase) (s' : State), (o = .ok ∨ o = .pending) →
          v ≠ some .live → s'.producers = s.producers.put p v →
          Lives (tr ++ [(Op.dropProducer p, o)]) s' := by
        intro o v s' ho hv hs
        have e1 : ∀ q, DropBegun (tr ++ [(Op.dropProducer p, o)]) q ↔ DropBegun tr q ∨ q = p := by
          intro q
          rcases ho with rfl | rfl <;> simp [DropBegun] <;> grind
        have e2 : ∀ q, ProducerMade (tr ++ [(Op.dropProducer p, o)]) q ↔ ProducerMade tr q := by
          intro q
          rcases ho with rfl | rfl <;> simp [ProducerMade]
        constructor
        · intro q
          rw [e1, hs, Slots.length_put]
          rintro (hq | rfl)
          · exact h.bound q hq
          · exact Slots.get_some_lt hp
        · intro q
          unfold Live
          rw [e1, e2, hs]
          by_cases hq : p = q
          · subst hq
            rw [Slots.get_put_self _ hp]
            simp [hv]
          · rw [Slots.get_put_ne _ hq, h.live]
            have : q ≠ p := fun hx => hq hx.symm
            simp [Live, this]
      split
      · exact key _ none _ (.inl rfl) (by simp) rfl
      · exact key _ (some .close) _ (.inr rfl) (by simp) rfl
    · exact h.silent rfl (fun i => by simp [ProducerMade]) (fun i => by simp [DropBegun])
  | dropStep p =>
    simp only [Broadcast.step]
    repeat' split
    · exact h.dropping (v := some (.drain none)) (by assumption) (by simp) (by simp) rfl
        (fun i => by simp [ProducerMade]) (fun i => by simp [DropBegun])
    · exact h.dropping (v := some (.drain (some _))) (by assumption) (by simp) (by simp) rfl
        (fun i => by simp [ProducerMade]) (fun i => by simp [DropBegun])
    · exact h.dropping (v := some .clear) (by assumption) (by simp) (by simp) rfl
        (fun i => by simp [ProducerMade]) (fun i => by simp [DropBegun])
    · exact h.dropping (v := some (.drain none)) (by assumption) (by simp) (by simp) rfl
        (fun i => by simp [ProducerMade]) (fun i => by simp [DropBegun])
    · exact h.dropping (v := some .fields) (by assumption) (by simp) (by simp) rfl
        (fun i => by simp [ProducerMade]) (fun i => by simp [DropBegun])
    · exact h.dropping (v := none) (by assumption) (by simp) (by simp) rfl
        (fun i => by simp [ProducerMade]) (fun i => by simp [DropBegun])
    · exact h.silent rfl (fun i => by simp [ProducerMade]) (fun i => by simp [DropBegun])
  | _ =>
    simp only [Broadcast.step]
    repeat' split
    all_goals exact h.silent rfl (fun i => by simp [ProducerMade]) (fun i => by simp [DropBegun])

theorem lives_reach {tr : Trace} {s : State} (h : machine.Reach tr s) : Lives tr s := by
  refine Machine.Reach.induct (M := machine) (P := fun tr s => Lives tr s) ?_ ?_ h
  · constructor
    · intro p; simp [DropBegun]
    · intro p
      cases p <;> simp [init, Slots.get, Live, ProducerMade, DropBegun]
  · intro tr s op _ ih
    exact ih.step op

/-! ## Tracks and requests -/

/-- The tracks that exist, as references. -/
def State.refs (s : State) : List Ref := s.tracks.mapIdx fun i k => ⟨k.name, i⟩

/-- The reference of track `i`. -/
def State.ref (s : State) (i : Nat) : Ref := ⟨s.name i, i⟩

theorem refs_get (s : State) (i : Nat) :
    s.refs[i]? = (s.tracks[i]?).map fun k => ⟨k.name, i⟩ := by
  simp [State.refs]

theorem mem_refs {s : State} {t : Ref} : t ∈ s.refs ↔ t.id < s.tracks.length ∧ s.name t.id = t.name := by
  rw [List.mem_iff_getElem?]
  constructor
  · rintro ⟨i, hi⟩
    rw [refs_get] at hi
    cases hk : s.tracks[i]? with
    | none => rw [hk] at hi; cases hi
    | some k =>
      rw [hk] at hi
      simp only [Option.map_some, Option.some.injEq] at hi
      subst hi
      refine ⟨?_, ?_⟩
      · rcases Nat.lt_or_ge i s.tracks.length with h | h
        · exact h
        · rw [List.getElem?_eq_none h] at hk; cases hk
      · simp [State.name, hk]
  · rintro ⟨h1, h2⟩
    refine ⟨t.id, ?_⟩
    rw [refs_get, List.getElem?_eq_getElem h1]
    simp only [State.name, List.getElem?_eq_getElem h1] at h2
    simp only [Option.map_some, h2]

theorem ref_mem {s : State} {i : Nat} (h : i < s.tracks.length) : s.ref i ∈ s.refs :=
  mem_refs.2 ⟨h, rfl⟩

theorem refs_inj {s : State} {t u : Ref} (ht : t ∈ s.refs) (hu : u ∈ s.refs) (h : t.id = u.id) :
    t = u := by
  have h1 := (mem_refs.1 ht).2
  have h2 := (mem_refs.1 hu).2
  rw [h, h2] at h1
  cases t; cases u; simp_all

theorem refs_nodup (s : State) : s.refs.Nodup := by
  have : (s.refs.map (·.id)) = List.range s.tracks.length := by
    apply List.ext_getElem?
    intro i
    rw [List.getElem?_map, refs_get]
    by_cases h : i < s.tracks.length
    · rw [List.getElem?_eq_getElem h, List.getElem?_range h]; rfl
    · rw [List.getElem?_eq_none (by omega), List.getElem?_eq_none (by simp; omega)]; rfl
  have h2 : (s.refs.map (·.id)).Nodup := by rw [this]; exact List.nodup_range
  exact (List.pairwise_map.1 h2).imp fun h hx => h (by rw [hx])

/-- Appending a track. -/
theorem refs_append {s s' : State} {k : Trk} (h : s'.tracks = s.tracks ++ [k]) :
    s'.refs = s.refs ++ [⟨k.name, s.tracks.length⟩] := by
  unfold State.refs
  rw [h, List.mapIdx_concat]

theorem fresh_not_mem (s : State) (n : String) : (⟨n, s.tracks.length⟩ : Ref) ∉ s.refs := by
  intro h
  exact Nat.lt_irrefl _ (mem_refs.1 h).1

theorem refs_of_names {s s' : State} (h : s'.tracks.map (·.name) = s.tracks.map (·.name)) :
    s'.refs = s.refs := by
  apply List.ext_getElem?
  intro i
  have := congrArg (fun l => l[i]?) h
  simp only [List.getElem?_map] at this
  rw [refs_get, refs_get]
  cases h1 : s'.tracks[i]? <;> cases h2 : s.tracks[i]? <;> simp_all

theorem names_modify (l : List Trk) (t : Nat) (f : Trk → Trk) (hf : ∀ k, (f k).name = k.name) :
    (l.modify t f).map (·.name) = l.map (·.name) := by
  apply List.ext_getElem?
  intro i
  simp only [List.getElem?_map, List.getElem?_modify]
  cases l[i]? with
  | none => simp
  | some k => simp only [Option.map_some]; split <;> simp [hf]

theorem refs_setHeld (s : State) (t : Nat) (f : Nat → Nat) : (s.setHeld t f).refs = s.refs :=
  refs_of_names (names_modify _ _ _ fun _ => rfl)

theorem refs_setClosed (s : State) (t : Nat) (r) : (s.setClosed t r).refs = s.refs :=
  refs_of_names (names_modify _ _ _ fun _ => rfl)

theorem name_of_refs {s s' : State} {i : Nat} (h : s.refs <+: s'.refs) (hi : i < s.tracks.length) :
    s'.name i = s.name i := by
  have := h.subset (ref_mem hi)
  exact (mem_refs.1 this).2

/-- A dropping producer holds track `t`. -/
def State.Holds (s : State) (t : Nat) : Prop :=
  ∃ p, s.producers.get p = some (.drain (some t))

theorem holds_iff (s : State) (t : Nat) : s.producers.any (Phase.holds t) = true ↔ s.Holds t := by
  unfold State.Holds
  rw [List.any_eq_true]
  constructor
  · rintro ⟨φ, hm, h⟩
    obtain ⟨p, hp⟩ := List.mem_iff_getElem?.1 hm
    refine ⟨p, ?_⟩
    unfold Slots.get
    rw [hp]
    unfold Phase.holds at h
    split at h
    · simp at h; subst h; rfl
    · cases h
  · rintro ⟨p, hp⟩
    refine ⟨some (.drain (some t)), ?_, by simp [Phase.holds]⟩
    rw [List.mem_iff_getElem?]
    refine ⟨p, ?_⟩
    unfold Slots.get at hp
    cases hx : s.producers[p]? with
    | none => rw [hx] at hp; cases hp
    | some x => rw [hx] at hp; simp at hp; rw [hp]

theorem made_snoc (tr : Trace) (e : Op × Out) :
    made (tr ++ [e]) = (note (made tr, requested tr) e).1 := by
  simp [made, requested, List.foldl_append]

theorem requested_snoc (tr : Trace) (e : Op × Out) :
    requested (tr ++ [e]) = (note (made tr, requested tr) e).2 := by
  simp [made, requested, List.foldl_append]

theorem handed_snoc (tr : Trace) (e : Op × Out) :
    handed (tr ++ [e]) = handed tr ++ handed [e] := by
  simp [handed]

/-- The tracks agree with the history. -/
structure Trks (tr : Trace) (s : State) : Prop where
  made : made tr = s.refs
  sub : (requested tr).Sublist (Spec.made tr)
  valid : ∀ t ∈ s.queue, t < s.tracks.length
  open' : s.queueOpen = true → requested tr = handed tr ++ s.queue.map s.ref
  pre : handed tr <+: requested tr
  pub : ∀ n t, s.published n = some t → (⟨n, t⟩ : Ref) ∈ s.refs
  fate : ∀ t ∈ requested tr, t ∈ handed tr ∨ ∃ k, s.tracks[t.id]? = some k ∧ k.held = 0 ∧
    (t.id ∈ s.queue ∨ s.Holds t.id ∨ k.closed = some (.error .cancel))

theorem map_ref_congr {s s' : State} {q : List Nat} (h : s.refs <+: s'.refs)
    (hq : ∀ t ∈ q, t < s.tracks.length) : q.map s'.ref = q.map s.ref := by
  apply List.map_congr_left
  intro t ht
  unfold State.ref
  rw [name_of_refs h (hq t ht)]

theorem length_of_refs {s s' : State} (h : s'.refs = s.refs) :
    s'.tracks.length = s.tracks.length := by
  have := congrArg List.length h
  simpa [State.refs] using this

theorem bind_cases {f : String → Option Nat} {k : String} {t : Nat} {n : String} {u : Nat}
    (h : bind f k (some t) n = some u) : f n = some u ∨ (⟨n, u⟩ : Ref) = ⟨k, t⟩ := by
  unfold bind at h
  split at h
  · right
    rename_i hx
    injection h with h
    rw [hx, h]
  · exact .inl h

/-- A step that changes only tracks with outside producers. -/
theorem Trks.silent {tr : Trace} {s s' : State} {e : Op × Out} (h : Trks tr s)
    (h1 : s'.refs = s.refs) (h2 : s'.queue = s.queue)
    (h3 : s'.queueOpen = true → s.queueOpen = true)
    (h4 : ∀ t, s.Holds t → s'.Holds t)
    (h5 : ∀ (i : Nat) (k : Trk), s.tracks[i]? = some k → k.held = 0 → s'.tracks[i]? = some k)
    (h6 : ∀ b, note b e = b) (h7 : handed [e] = [])
    (h8 : ∀ n t, s'.published n = some t → s.published n = some t ∨ (⟨n, t⟩ : Ref) ∈ s.refs) :
    Trks (tr ++ [e]) s' := by
  have e1 : Spec.made (tr ++ [e]) = Spec.made tr := by rw [made_snoc, h6]
  have e2 : requested (tr ++ [e]) = requested tr := by rw [requested_snoc, h6]
  have e3 : handed (tr ++ [e]) = handed tr := by rw [handed_snoc, h7, List.append_nil]
  constructor
  · rw [e1, h1, h.made]
  · rw [e1, e2]; exact h.sub
  · rw [h2, length_of_refs h1]; exact h.valid
  · intro ho
    rw [e2, e3, h2, map_ref_congr (s := s) (by rw [h1]; exact List.prefix_rfl) h.valid]
    exact h.open' (h3 ho)
  · rw [e2, e3]; exact h.pre
  · intro n t hp
    rw [h1]
    rcases h8 n t hp with hp | hp
    · exact h.pub n t hp
    · exact hp
  · intro t ht
    rw [e2] at ht
    rw [e3]
    rcases h.fate t ht with hh | ⟨k, hk, hz, hf⟩
    · exact .inl hh
    · refine .inr ⟨k, h5 _ _ hk hz, hz, ?_⟩
      rw [h2]
      rcases hf with hf | hf | hf
      · exact .inl hf
      · exact .inr (.inl (h4 _ hf))
      · exact .inr (.inr hf)

/-- A step that creates a track other than by a subscription. -/
theorem Trks.grow {tr : Trace} {s s' : State} {e : Op × Out} (h : Trks tr s) {k : Trk}
    (h1 : s'.tracks = s.tracks ++ [k]) (h2 : s'.queue = s.queue)
    (h3 : s'.queueOpen = s.queueOpen) (h4 : s'.producers = s.producers)
    (h6 : ∀ b, note b e = (b.1 ++ [⟨k.name, s.tracks.length⟩], b.2)) (h7 : handed [e] = [])
    (h8 : ∀ n t, s'.published n = some t → s.published n = some t ∨
      (⟨n, t⟩ : Ref) = ⟨k.name, s.tracks.length⟩) :
    Trks (tr ++ [e]) s' := by
  have e1 : Spec.made (tr ++ [e]) = Spec.made tr ++ [⟨k.name, s.tracks.length⟩] := by
    rw [made_snoc, h6]
  have e2 : requested (tr ++ [e]) = requested tr := by rw [requested_snoc, h6]
  have e3 : handed (tr ++ [e]) = handed tr := by rw [handed_snoc, h7, List.append_nil]
  have hr := refs_append h1
  constructor
  · rw [e1, hr, h.made]
  · rw [e1, e2]; exact h.sub.trans (List.sublist_append_left _ _)
  · intro t ht
    rw [h2] at ht
    have := h.valid t ht
    rw [h1]; simp; omega
  · intro ho
    rw [e2, e3, h2, map_ref_congr (s := s) (by rw [hr]; exact List.prefix_append _ _) h.valid]
    exact h.open' (h3 ▸ ho)
  · rw [e2, e3]; exact h.pre
  · intro n t hp
    rw [hr]
    rcases h8 n t hp with hp | hp
    · exact List.mem_append_left _ (h.pub n t hp)
    · rw [hp]; simp
  · intro t ht
    rw [e2] at ht
    rw [e3]
    rcases h.fate t ht with hh | ⟨k', hk, hz, hf⟩
    · exact .inl hh
    · refine .inr ⟨k', ?_, hz, ?_⟩
      · rw [h1, List.getElem?_append_left]
        · exact hk
        · rcases Nat.lt_or_ge t.id s.tracks.length with hx | hx
          · exact hx
          · rw [List.getElem?_eq_none hx] at hk; cases hk
      · rw [h2]
        unfold State.Holds
        rw [h4]
        exact hf

theorem outside_some {s : State} {t : Nat} (h : s.outside t = true) :
    ∃ k, s.tracks[t]? = some k ∧ 0 < k.held := by
  unfold State.outside at h
  split at h
  · exact ⟨_, by assumption, by simpa using h⟩
  · cases h

/-- Changing a track that has an outside producer. -/
theorem modify_outside {s : State} {t : Nat} (h : s.outside t = true) (f : Trk → Trk)
    (i : Nat) (k : Trk) (hk : s.tracks[i]? = some k) (hz : k.held = 0) :
    (s.tracks.modify t f)[i]? = some k := by
  obtain ⟨k', hk', hpos⟩ := outside_some h
  rw [List.getElem?_modify, hk]
  have : t ≠ i := by
    rintro rfl
    rw [hk] at hk'
    injection hk' with hk'
    subst hk'
    omega
  simp [this]

theorem Trks.step {tr : Trace} {s : State} (op : Op) (hm : Mode tr s) (h : Trks tr s) :
    Trks (tr ++ [(op, (step s op).1)]) (step s op).2 := by
  cases op with
  | newTrack name =>
    exact h.grow (k := ⟨name, none, 1⟩) rfl rfl rfl rfl (fun _ => rfl) rfl (fun _ _ h => .inl h)
  | create p name =>
    simp only [Broadcast.step]
    split
    · exact h.grow (k := ⟨name, none, 1⟩) rfl rfl rfl rfl (fun _ => rfl) rfl
        (fun n t hp => bind_cases hp)
    · exact h.silent rfl rfl id (fun _ h => h) (fun _ _ h _ => h) (fun _ => rfl) rfl (fun _ _ h => .inl h)
  | cloneTrack t =>
    simp only [Broadcast.step]
    split
    · rename_i ht
      exact h.silent (refs_setHeld _ _ _) rfl id (fun _ h => h)
        (fun i k hk hz => modify_outside ht _ i k hk hz) (fun _ => rfl) rfl (fun _ _ h => .inl h)
    · exact h.silent rfl rfl id (fun _ h => h) (fun _ _ h _ => h) (fun _ => rfl) rfl (fun _ _ h => .inl h)
  | dropTrack t =>
    simp only [Broadcast.step]
    split
    · rename_i ht
      exact h.silent (refs_setHeld _ _ _) rfl id (fun _ h => h)
        (fun i k hk hz => modify_outside ht _ i k hk hz) (fun _ => rfl) rfl (fun _ _ h => .inl h)
    · exact h.silent rfl rfl id (fun _ h => h) (fun _ _ h _ => h) (fun _ => rfl) rfl (fun _ _ h => .inl h)
  | finishTrack t =>
    simp only [Broadcast.step]
    split
    · rename_i ht
      refine h.silent ((refs_setHeld _ _ _).trans (refs_setClosed _ _ _)) rfl id (fun _ h => h)
        (fun i k hk hz => ?_) (fun _ => rfl) rfl (fun _ _ h => .inl h)
      simp only [State.setHeld, State.setClosed]
      rw [List.getElem?_modify, modify_outside ht _ i k hk hz]
      obtain ⟨k', hk', hpos⟩ := outside_some ht
      have : t ≠ i := by rintro rfl; rw [hk] at hk'; injection hk' with hk'; subst hk'; omega
      simp [this]
    · exact h.silent rfl rfl id (fun _ h => h) (fun _ _ h _ => h) (fun _ => rfl) rfl (fun _ _ h => .inl h)
  | abortTrack t e =>
    simp only [Broadcast.step]
    split
    · rename_i ht
      refine h.silent ((refs_setHeld _ _ _).trans (refs_setClosed _ _ _)) rfl id (fun _ h => h)
        (fun i k hk hz => ?_) (fun _ => rfl) rfl (fun _ _ h => .inl h)
      simp only [State.setHeld, State.setClosed]
      rw [List.getElem?_modify, modify_outside ht _ i k hk hz]
      obtain ⟨k', hk', hpos⟩ := outside_some ht
      have : t ≠ i := by rintro rfl; rw [hk] at hk'; injection hk' with hk'; subst hk'; omega
      simp [this]
    · exact h.silent rfl rfl id (fun _ h => h) (fun _ _ h _ => h) (fun _ => rfl) rfl (fun _ _ h => .inl h)
  | request p =>
    simp only [Broadcast.step]
    split
    · rename_i hp
      split
      · rename_i t q hq
        have ho : s.queueOpen = true := by
          cases hm with
          | running ho _ _ _ => exact ho
          | ending r φ hat hne hon ho hem hn =>
            by_cases hpq : p = r
            · subst hpq; rw [hp] at hat; injection hat with hat; exact absurd hat.symm hne
            · rw [hon p hpq] at hp; cases hp
          | over hno hcl hem hn => rw [hno] at hp; cases hp
        have hreq := h.open' ho
        rw [hq] at hreq
        have hrefs : ({ s.setHeld t (· + 1) with queue := q, tasks := s.tasks.add t } : State).refs =
            s.refs := refs_setHeld _ _ _
        have hval := h.valid
        rw [hq] at hval
        have e1 : ∀ b, note b (Op.request p, Out.track ⟨s.name t, t⟩) = b := fun _ => rfl
        constructor
        · rw [made_snoc, e1, hrefs, h.made]
        · rw [made_snoc, requested_snoc, e1]; exact h.sub
        · intro u hu
          have := hval u (List.mem_cons_of_mem _ hu)
          rw [length_of_refs hrefs]; exact this
        · intro _
          rw [requested_snoc, e1, handed_snoc,
            map_ref_congr (s := s) (by rw [hrefs]; exact List.prefix_rfl) (fun u hu => hval u (List.mem_cons_of_mem _ hu))]
          simp only [hreq, handed, List.map_cons, List.append_assoc]
          rfl
        · rw [requested_snoc, e1, handed_snoc]
          simp only [hreq, handed, List.map_cons]
          exact ⟨q.map s.ref, by simp [State.ref]⟩
        · intro n u hu
          rw [hrefs]
          exact h.pub n u hu
        · intro u hu
          rw [requested_snoc, e1] at hu
          rw [handed_snoc]
          by_cases hut : u.id = t
          · left
            have hmem : u ∈ s.refs := by rw [← h.made]; exact h.sub.subset hu
            have : u = s.ref t := refs_inj hmem (ref_mem (hval t (List.mem_cons_self ..))) hut
            rw [this]
            simp [handed, State.ref]
          · rcases h.fate u hu with hh | ⟨k, hk, hz, hf⟩
            · exact .inl (List.mem_append_left _ hh)
            · refine .inr ⟨k, ?_, hz, ?_⟩
              · simp only [State.setHeld]
                rw [List.getElem?_modify, hk]
                have : t ≠ u.id := fun hx => hut hx.symm
                simp [this]
              · rw [hq] at hf
                rcases hf with hf | hf | hf
                · rcases List.mem_cons.1 hf with hf | hf
                  · exact absurd hf hut
                  · exact .inl hf
                · exact .inr (.inl hf)
                · exact .inr (.inr hf)
      · split <;>
        exact h.silent rfl rfl id (fun _ h => h) (fun _ _ h _ => h) (fun _ => rfl) rfl (fun _ _ h => .inl h)
    · exact h.silent rfl rfl id (fun _ h => h) (fun _ _ h _ => h) (fun _ => rfl) rfl (fun _ _ h => .inl h)
  | subscribe c name =>
    simp only [Broadcast.step]
    split
    · exact h.silent rfl rfl id (fun _ h => h) (fun _ _ h _ => h) (fun _ => rfl) rfl (fun _ _ h => .inl h)
    · split
      · rename_i t ht
        have hmem := h.pub name t ht
        rw [← h.made] at hmem
        have e1 : note (Spec.made tr, requested tr) (Op.subscribe c name, Out.track ⟨name, t⟩) =
            (Spec.made tr, requested tr) := by simp [note, hmem]
        have e3 : handed (tr ++ [(Op.subscribe c name, Out.track ⟨name, t⟩)]) = handed tr := by
          simp [handed]
        constructor
        · rw [made_snoc, e1]; exact h.made
        · rw [made_snoc, requested_snoc, e1]; exact h.sub
        · exact h.valid
        · rw [requested_snoc, e1, e3]; exact h.open'
        · rw [requested_snoc, e1, e3]; exact h.pre
        · exact h.pub
        · rw [requested_snoc, e1, e3]; exact h.fate
      · have hfresh : (⟨name, s.tracks.length⟩ : Ref) ∉ Spec.made tr := by
          rw [h.made]; exact fresh_not_mem s name
        have e1 : note (Spec.made tr, requested tr)
            (Op.subscribe c name, Out.track ⟨name, s.tracks.length⟩) =
            (Spec.made tr ++ [⟨name, s.tracks.length⟩], requested tr ++ [⟨name, s.tracks.length⟩]) := by
          simp [note, hfresh]
        have e3 : handed (tr ++ [(Op.subscribe c name, Out.track ⟨name, s.tracks.length⟩)]) =
            handed tr := by simp [handed]
        have key : ∀ (k : Trk) (s' : State), k.name = name → k.held = 0 →
            s'.tracks = s.tracks ++ [k] → s'.producers = s.producers →
            s'.queueOpen = s.queueOpen →
            s'.published = bind s.published name (some s.tracks.length) →
            ((s.queueOpen = true ∧ s'.queue = s.queue ++ [s.tracks.length]) ∨
              (s.queueOpen = false ∧ s'.queue = s.queue ∧ k.closed = some (.error .cancel))) →
            Trks (tr ++ [(Op.subscribe c name, Out.track ⟨name, s.tracks.length⟩)]) s' := by
          intro k s' hn hz ht hp ho hpub hor
          have hr := refs_append ht
          rw [hn] at hr
          have hpre : s.refs <+: s'.refs := by rw [hr]; exact List.prefix_append _ _
          constructor
          · rw [made_snoc, e1, hr, h.made]
          · rw [made_snoc, requested_snoc, e1]
            exact h.sub.append (List.Sublist.refl _)
          · intro t hx
            rw [ht]
            rcases hor with ⟨_, hq⟩ | ⟨_, hq, _⟩ <;> rw [hq] at hx
            · rcases List.mem_append.1 hx with hx | hx
              · have := h.valid t hx; simp; omega
              · simp at hx; simp; omega
            · have := h.valid t hx; simp; omega
          · intro hx
            rw [ho] at hx
            rcases hor with ⟨_, hq⟩ | ⟨hc, _, _⟩
            · rw [requested_snoc, e1, e3, hq, List.map_append, map_ref_congr hpre h.valid,
                h.open' hx]
              have : s'.name s.tracks.length = name := by
                unfold State.name; rw [ht]; simp [hn]
              simp [State.ref, this]
            · rw [hc] at hx; cases hx
          · rw [requested_snoc, e1, e3]
            exact h.pre.trans (List.prefix_append _ _)
          · intro n t hx
            rw [hpub] at hx
            rw [hr]
            rcases bind_cases hx with hx | hx
            · exact List.mem_append_left _ (h.pub n t hx)
            · rw [hx]; simp
          · intro t hx
            rw [requested_snoc, e1] at hx
            rw [e3]
            rcases List.mem_append.1 hx with hx | hx
            · rcases h.fate t hx with hh | ⟨k', hk, hz', hf⟩
              · exact .inl hh
              · refine .inr ⟨k', ?_, hz', ?_⟩
                · rw [ht, List.getElem?_append_left]
                  · exact hk
                  · rcases Nat.lt_or_ge t.id s.tracks.length with hx | hx
                    · exact hx
                    · rw [List.getElem?_eq_none hx] at hk; cases hk
                · unfold State.Holds
                  rw [hp]
                  rcases hf with hf | hf | hf
                  · left
                    rcases hor with ⟨_, hq⟩ | ⟨_, hq, _⟩ <;> rw [hq]
                    · exact List.mem_append_left _ hf
                    · exact hf
                  · exact .inr (.inl hf)
                  · exact .inr (.inr hf)
            · right
              rw [List.mem_singleton] at hx
              subst hx
              refine ⟨k, by rw [ht]; simp, hz, ?_⟩
              rcases hor with ⟨_, hq⟩ | ⟨_, _, hc⟩
              · left; rw [hq]; simp
              · exact .inr (.inr hc)
        split
        · rename_i ho
          exact key ⟨name, none, 0⟩ _ rfl rfl rfl rfl rfl rfl (.inl ⟨ho, rfl⟩)
        · rename_i ho
          exact key ⟨name, some (.error .cancel), 0⟩ _ rfl rfl rfl rfl rfl rfl
            (.inr ⟨by simpa using ho, rfl, rfl⟩)
  | dropStep p =>
    have hput : ∀ {φ : Phase} {v : Option Phase}, s.producers.get p = some φ →
        (∀ t, φ ≠ .drain (some t)) → ∀ t, s.Holds t →
        ∃ q, (s.producers.put p v).get q = some (.drain (some t)) := by
      rintro φ v hp hφ t ⟨q, hq⟩
      refine ⟨q, ?_⟩
      rw [Slots.get_put_ne _ ?_]
      · exact hq
      · rintro rfl
        rw [hp] at hq
        injection hq with hq
        exact hφ t hq
    simp only [Broadcast.step]
    split
    · rename_i hp
      exact h.silent rfl rfl (by simp) (hput hp (by simp)) (fun _ _ h _ => h) (fun _ => rfl) rfl
        (fun _ _ h => .inl h)
    · rename_i hp
      split
      · rename_i t q hq
        have hclosed : s.queueOpen = false := by
          cases hm with
          | running _ _ hl _ => exact absurd (hl _ _ hp) (by simp)
          | ending r φ hat hne hon ho hem hn =>
            by_cases hpq : p = r
            · subst hpq; rw [hp] at hat; injection hat with hat; subst hat; simpa using ho
            · rw [hon p hpq] at hp; cases hp
          | over hno hcl hem hn => exact hcl
        have e1 : ∀ b, note b (Op.dropStep p, Out.pending) = b := fun _ => rfl
        have e3 : handed (tr ++ [(Op.dropStep p, Out.pending)]) = handed tr := by simp [handed]
        constructor
        · rw [made_snoc, e1]; exact h.made
        · rw [made_snoc, requested_snoc, e1]; exact h.sub
        · intro u hu; exact h.valid u (by rw [hq]; exact List.mem_cons_of_mem _ hu)
        · intro hx; dsimp only at hx; rw [hclosed] at hx; cases hx
        · rw [requested_snoc, e1, e3]; exact h.pre
        · exact h.pub
        · rw [requested_snoc, e1, e3]
          intro u hu
          rcases h.fate u hu with hh | ⟨k, hk, hz, hf⟩
          · exact .inl hh
          · refine .inr ⟨k, hk, hz, ?_⟩
            rw [hq] at hf
            rcases hf with hf | hf | hf
            · rcases List.mem_cons.1 hf with hf | hf
              · right; left
                rw [hf]
                exact ⟨p, Slots.get_put_self _ hp⟩
              · exact .inl hf
            · exact .inr (.inl (hput hp (by simp) _ hf))
            · exact .inr (.inr hf)
      · exact h.silent rfl rfl id (hput hp (by simp)) (fun _ _ h _ => h) (fun _ => rfl) rfl
          (fun _ _ h => .inl h)
    · rename_i t hp
      have hclosed : s.queueOpen = false := by
        cases hm with
        | running _ _ hl _ => exact absurd (hl _ _ hp) (by simp)
        | ending r φ hat hne hon ho hem hn =>
          by_cases hpq : p = r
          · subst hpq; rw [hp] at hat; injection hat with hat; subst hat; simpa using ho
          · rw [hon p hpq] at hp; cases hp
        | over hno hcl hem hn => exact hcl
      have e1 : ∀ b, note b (Op.dropStep p, Out.pending) = b := fun _ => rfl
      have e3 : handed (tr ++ [(Op.dropStep p, Out.pending)]) = handed tr := by simp [handed]
      constructor
      · rw [made_snoc, e1]; exact h.made.trans (refs_setClosed _ _ _).symm
      · rw [made_snoc, requested_snoc, e1]; exact h.sub
      · intro u hu
        have := h.valid u hu
        simpa [State.setClosed] using this
      · intro hx; have hx : s.queueOpen = true := hx; rw [hclosed] at hx; cases hx
      · rw [requested_snoc, e1, e3]; exact h.pre
      · intro n u hu; exact (refs_setClosed s t _).symm ▸ h.pub n u hu
      · rw [requested_snoc, e1, e3]
        intro u hu
        rcases h.fate u hu with hh | ⟨k, hk, hz, hf⟩
        · exact .inl hh
        · right
          by_cases hut : t = u.id
          · refine ⟨{ k with closed := some (.error .cancel) }, ?_, hz, .inr (.inr rfl)⟩
            simp [State.setClosed, hk, hut]
          · refine ⟨k, ?_, hz, ?_⟩
            · simp [State.setClosed, hk, hut]
            · rcases hf with hf | ⟨q, hf⟩ | hf
              · exact .inl hf
              · right; left
                refine ⟨q, ?_⟩
                dsimp only
                rw [Slots.get_put_ne]
                · exact hf
                · rintro rfl
                  rw [hp] at hf
                  injection hf with hf
                  injection hf with hf
                  injection hf with hf
                  exact hut hf
              · exact .inr (.inr hf)
    · rename_i hp
      exact h.silent rfl rfl id (hput hp (by simp)) (fun _ _ h _ => h) (fun _ => rfl) rfl
        (fun _ _ h => by cases h)
    · rename_i hp
      exact h.silent rfl rfl id (hput hp (by simp)) (fun _ _ h _ => h) (fun _ => rfl) rfl
        (fun _ _ h => .inl h)
    · exact h.silent rfl rfl id (fun _ h => h) (fun _ _ h _ => h) (fun _ => rfl) rfl
        (fun _ _ h => .inl h)
  | cloneProducer p =>
    simp only [Broadcast.step]
    split
    · refine h.silent rfl rfl id ?_ (fun _ _ h _ => h) (fun _ => rfl) rfl (fun _ _ h => .inl h)
      rintro t ⟨q, hq⟩
      refine ⟨q, ?_⟩
      dsimp only
      rw [Slots.get_add, if_neg]
      · exact hq
      · have := Slots.get_some_lt hq; omega
    · exact h.silent rfl rfl id (fun _ h => h) (fun _ _ h _ => h) (fun _ => rfl) rfl
        (fun _ _ h => .inl h)
  | dropProducer p =>
    simp only [Broadcast.step]
    split
    · rename_i hp
      have hput : ∀ (v : Option Phase) (t : Nat), s.Holds t →
          ∃ q, (s.producers.put p v).get q = some (.drain (some t)) := by
        rintro v t ⟨q, hq⟩
        refine ⟨q, ?_⟩
        rw [Slots.get_put_ne _ ?_]
        · exact hq
        · rintro rfl
          rw [hp] at hq
          cases hq
      split
      · exact h.silent rfl rfl id (hput _) (fun _ _ h _ => h) (fun _ => rfl) rfl
          (fun _ _ h => .inl h)
      · exact h.silent rfl rfl id (hput _) (fun _ _ h _ => h) (fun _ => rfl) rfl
          (fun _ _ h => .inl h)
    · exact h.silent rfl rfl id (fun _ h => h) (fun _ _ h _ => h) (fun _ => rfl) rfl
        (fun _ _ h => .inl h)
  | insert p t =>
    simp only [Broadcast.step]
    split
    · split
      · rename_i ht
        refine h.silent rfl rfl id (fun _ h => h) (fun _ _ h _ => h) (fun _ => rfl) rfl ?_
        intro n u hu
        rcases bind_cases hu with hu | hu
        · exact .inl hu
        · right; rw [hu]; exact mem_refs.2 ht
      · exact h.silent rfl rfl id (fun _ h => h) (fun _ _ h _ => h) (fun _ => rfl) rfl
          (fun _ _ h => .inl h)
    · exact h.silent rfl rfl id (fun _ h => h) (fun _ _ h _ => h) (fun _ => rfl) rfl
        (fun _ _ h => .inl h)
  | cleanup k =>
    simp only [Broadcast.step]
    repeat' split
    · exact h.silent rfl rfl id (fun _ h => h) (fun _ _ h _ => h) (fun _ => rfl) rfl
        (fun _ _ h => .inl h)
    · exact h.silent rfl rfl id (fun _ h => h) (fun _ _ h _ => h) (fun _ => rfl) rfl
        (fun _ _ h => .inl h)
    · refine h.silent rfl rfl id (fun _ h => h) (fun _ _ h _ => h) (fun _ => rfl) rfl ?_
      intro n u hu
      dsimp only [bind] at hu
      split at hu
      · cases hu
      · exact .inl hu
    · exact h.silent rfl rfl id (fun _ h => h) (fun _ _ h _ => h) (fun _ => rfl) rfl
        (fun _ _ h => .inl h)
    · exact h.silent rfl rfl id (fun _ h => h) (fun _ _ h _ => h) (fun _ => rfl) rfl
        (fun _ _ h => .inl h)
  | _ =>
    simp only [Broadcast.step]
    repeat' split
    all_goals
      refine h.silent rfl rfl id (fun _ h => h) (fun _ _ h _ => h) ?_ ?_ (fun _ _ h => .inl h)
      · intro b; rfl
      · rfl

theorem trks_reach {tr : Trace} {s : State} (h : machine.Reach tr s) : Trks tr s := by
  refine Machine.Reach.induct (M := machine) (P := fun tr s => Trks tr s) ?_ ?_ h
  · constructor
    · rfl
    · exact List.Sublist.refl _
    · intro t ht; cases ht
    · intro _; rfl
    · exact List.prefix_rfl
    · intro n t ht; cases ht
    · intro t ht; cases ht
  · intro tr s op hr ih
    exact ih.step op (mode_reach hr)

/-! ## Open tracks -/

/-- Track `t` is open: its `closed` notification is pending. -/
def State.Open (s : State) (t : Nat) : Prop :=
  ∃ k, s.tracks[t]? = some k ∧ k.closed = none ∧ (0 < k.held ∨ t ∈ s.queue ∨ s.Holds t)

theorem trackClosed_none {s : State} {t : Nat} : s.trackClosed t = none ↔ s.Open t := by
  unfold State.trackClosed State.Open
  cases hk : s.tracks[t]? with
  | none => simp
  | some k =>
    simp only [Option.some.injEq, exists_eq_left']
    cases hc : k.closed with
    | some r => simp
    | none =>
      have : s.produced t = true ↔ (0 < k.held ∨ t ∈ s.queue ∨ s.Holds t) := by
        unfold State.produced
        rw [hk]
        simp only [Bool.or_eq_true, decide_eq_true_eq, holds_iff, or_assoc]
      rw [← this]
      cases s.produced t <;> simp

theorem poll_pending {s : State} {t : Nat} : (step s (.pollTrack t)).1 = .pending ↔ s.Open t := by
  rw [← trackClosed_none]
  simp only [step]
  split
  · cases hc : s.trackClosed t with
    | none => simp
    | some r => cases r <;> simp
  · rename_i h
    have : s.tracks[t]? = none := List.getElem?_eq_none (by omega)
    simp [State.trackClosed, this]

theorem Open.lt {s : State} {t : Nat} (h : s.Open t) : t < s.tracks.length := by
  obtain ⟨k, hk, _⟩ := h
  rcases Nat.lt_or_ge t s.tracks.length with hx | hx
  · exact hx
  · rw [List.getElem?_eq_none hx] at hk; cases hk

theorem open_append {s s' : State} {k : Trk} {t : Nat} (h : s'.Open t) (h1 : s'.tracks = s.tracks ++ [k])
    (h2 : ∀ t < s.tracks.length, t ∈ s'.queue → t ∈ s.queue) (h3 : s'.producers = s.producers)
    (ht : t < s.tracks.length) : s.Open t := by
  obtain ⟨k', hk, hc, hp⟩ := h
  rw [h1, List.getElem?_append_left ht] at hk
  refine ⟨k', hk, hc, ?_⟩
  unfold State.Holds at hp ⊢
  rw [h3] at hp
  rcases hp with hp | hp | hp
  · exact .inl hp
  · exact .inr (.inl (h2 t ht hp))
  · exact .inr (.inr hp)

theorem open_modify {s s' : State} {t u : Nat} {f : Trk → Trk} (h : s'.Open t) (hu : s.outside u = true)
    (h1 : s'.tracks = s.tracks.modify u f) (h2 : s'.queue = s.queue)
    (h3 : s'.producers = s.producers) (h4 : ∀ k, (f k).closed = none → k.closed = none) : s.Open t := by
  obtain ⟨k', hk, hc, hp⟩ := h
  rw [h1, List.getElem?_modify] at hk
  unfold State.Holds at hp
  rw [h2, h3] at hp
  by_cases hut : u = t
  · subst hut
    obtain ⟨k, hk2, hpos⟩ := outside_some hu
    rw [hk2] at hk
    simp at hk
    subst hk
    exact ⟨k, hk2, h4 _ hc, .inl hpos⟩
  · cases hk2 : s.tracks[t]? with
    | none => rw [hk2] at hk; cases hk
    | some k =>
      rw [hk2] at hk
      simp [hut] at hk
      subst hk
      exact ⟨k, hk2, hc, hp⟩

/-- Nothing reopens a track. -/
theorem open_step {s : State} (op : Op) {t : Nat} (ht : t < s.tracks.length)
    (h : (step s op).2.Open t) : s.Open t := by
  have hput : ∀ {p : Nat} {φ : Phase} {v : Option Phase}, s.producers.get p = some φ →
      (∀ u, v ≠ some (.drain (some u))) → ∀ t,
      (∃ q, (s.producers.put p v).get q = some (.drain (some t))) → s.Holds t := by
    rintro p φ v hp hv t ⟨q, hq⟩
    rcases get_put_cases hq with ⟨_, hx⟩ | ⟨_, hx⟩
    · exact absurd hx (hv t)
    · exact ⟨q, hx⟩
  cases op with
  | newTrack name => exact open_append (s := s) h rfl (fun _ _ h => h) rfl ht
  | create p name =>
    simp only [step] at h
    split at h
    · exact open_append (s := s) h rfl (fun _ _ h => h) rfl ht
    · exact h
  | cloneTrack u =>
    simp only [step] at h
    split at h
    · exact open_modify h (by assumption) rfl rfl rfl (fun k hk => hk)
    · exact h
  | dropTrack u =>
    simp only [step] at h
    split at h
    · exact open_modify h (by assumption) rfl rfl rfl (fun k hk => hk)
    · exact h
  | finishTrack u =>
    simp only [step] at h
    split at h
    · rename_i hu
      obtain ⟨k, hk, hc, hp⟩ := h
      simp only [State.setHeld, State.setClosed, List.getElem?_modify] at hk
      by_cases hut : u = t
      · cases hk2 : s.tracks[t]? with
        | none => rw [hk2] at hk; cases hk
        | some k2 => rw [hk2] at hk; simp [hut] at hk; subst hk; cases hc
      · cases hk2 : s.tracks[t]? with
        | none => rw [hk2] at hk; cases hk
        | some k2 => rw [hk2] at hk; simp [hut] at hk; subst hk; exact ⟨k2, hk2, hc, hp⟩
    · exact h
  | abortTrack u e =>
    simp only [step] at h
    split at h
    · rename_i hu
      obtain ⟨k, hk, hc, hp⟩ := h
      simp only [State.setHeld, State.setClosed, List.getElem?_modify] at hk
      by_cases hut : u = t
      · cases hk2 : s.tracks[t]? with
        | none => rw [hk2] at hk; cases hk
        | some k2 => rw [hk2] at hk; simp [hut] at hk; subst hk; cases hc
      · cases hk2 : s.tracks[t]? with
        | none => rw [hk2] at hk; cases hk
        | some k2 => rw [hk2] at hk; simp [hut] at hk; subst hk; exact ⟨k2, hk2, hc, hp⟩
    · exact h
  | request p =>
    simp only [step] at h
    split at h
    · split at h
      · rename_i u q hq
        obtain ⟨k, hk, hc, hp⟩ := h
        simp only [State.setHeld, List.getElem?_modify] at hk
        by_cases hut : u = t
        · cases hk2 : s.tracks[t]? with
          | none => rw [hk2] at hk; cases hk
          | some k2 =>
            rw [hk2] at hk
            simp [hut] at hk
            subst hk
            exact ⟨k2, hk2, hc, .inr (.inl (by rw [hq, hut]; simp))⟩
        · cases hk2 : s.tracks[t]? with
          | none => rw [hk2] at hk; cases hk
          | some k2 =>
            rw [hk2] at hk
            simp [hut] at hk
            subst hk
            refine ⟨k2, hk2, hc, ?_⟩
            rcases hp with hp | hp | hp
            · exact .inl hp
            · exact .inr (.inl (by rw [hq]; exact List.mem_cons_of_mem _ hp))
            · exact .inr (.inr hp)
      · split at h <;> exact h
    · exact h
  | subscribe c name =>
    simp only [step] at h
    split at h
    · exact h
    · split at h
      · exact h
      · split at h
        · refine open_append (s := s) h rfl (fun u hu hm => ?_) rfl ht
          rcases List.mem_append.1 hm with hm | hm
          · exact hm
          · simp at hm; omega
        · exact open_append (s := s) h rfl (fun _ _ h => h) rfl ht
  | cloneProducer p =>
    simp only [step] at h
    split at h
    · obtain ⟨k, hk, hc, hp⟩ := h
      refine ⟨k, hk, hc, ?_⟩
      rcases hp with hp | hp | ⟨q, hp⟩
      · exact .inl hp
      · exact .inr (.inl hp)
      · rcases get_add_cases hp with ⟨_, hx⟩ | ⟨_, hx⟩
        · cases hx
        · exact .inr (.inr ⟨q, hx⟩)
    · exact h
  | dropProducer p =>
    simp only [step] at h
    split at h
    · rename_i hp
      split at h
      · obtain ⟨k, hk, hc, hx⟩ := h
        exact ⟨k, hk, hc, hx.imp_right (fun h => h.imp_right (hput hp (by simp) _))⟩
      · obtain ⟨k, hk, hc, hx⟩ := h
        exact ⟨k, hk, hc, hx.imp_right (fun h => h.imp_right (hput hp (by simp) _))⟩
    · exact h
  | dropStep p =>
    simp only [step] at h
    split at h
    · rename_i hp
      obtain ⟨k, hk, hc, hx⟩ := h
      exact ⟨k, hk, hc, hx.imp_right (fun h => h.imp_right (hput hp (by simp) _))⟩
    · rename_i hp
      split at h
      · rename_i u q hq
        obtain ⟨k, hk, hc, hx⟩ := h
        refine ⟨k, hk, hc, ?_⟩
        rcases hx with hx | hx | ⟨r, hx⟩
        · exact .inl hx
        · exact .inr (.inl (by rw [hq]; exact List.mem_cons_of_mem _ hx))
        · rcases get_put_cases hx with ⟨_, hx⟩ | ⟨_, hx⟩
          · simp at hx; subst hx; exact .inr (.inl (by rw [hq]; simp))
          · exact .inr (.inr ⟨r, hx⟩)
      · obtain ⟨k, hk, hc, hx⟩ := h
        exact ⟨k, hk, hc, hx.imp_right (fun h => h.imp_right (hput hp (by simp) _))⟩
    · rename_i u hp
      obtain ⟨k, hk, hc, hx⟩ := h
      simp only [State.setClosed, List.getElem?_modify] at hk
      have hx' := hx.imp_right (fun h => h.imp_right (hput hp (by simp) _))
      by_cases hut : u = t
      · cases hk2 : s.tracks[t]? with
        | none => rw [hk2] at hk; cases hk
        | some k2 => rw [hk2] at hk; simp [hut] at hk; subst hk; cases hc
      · cases hk2 : s.tracks[t]? with
        | none => rw [hk2] at hk; cases hk
        | some k2 => rw [hk2] at hk; simp [hut] at hk; subst hk; exact ⟨k2, hk2, hc, hx'⟩
    · rename_i hp
      obtain ⟨k, hk, hc, hx⟩ := h
      exact ⟨k, hk, hc, hx.imp_right (fun h => h.imp_right (hput hp (by simp) _))⟩
    · rename_i hp
      obtain ⟨k, hk, hc, hx⟩ := h
      exact ⟨k, hk, hc, hx.imp_right (fun h => h.imp_right (hput hp (by simp) _))⟩
    · exact h
  | _ =>
    simp only [step] at h
    repeat' (first | exact h | split at h)

/-! ## Names -/

theorem lastBound_snoc (tr : Trace) (e : Op × Out) (n : String) :
    lastBound (tr ++ [e]) n = (lastBound [e] n).or (lastBound tr n) := by
  unfold lastBound
  rw [List.filterMap_append, List.getLast?_append]

theorem inserted_mono {tr : Trace} {e : Op × Out} {n : String} (h : Inserted tr n) :
    Inserted (tr ++ [e]) n := by
  rcases h with ⟨p, o, h⟩ | ⟨p, b, t, h, hn⟩
  · exact .inl ⟨p, o, List.mem_append_left _ h⟩
  · exact .inr ⟨p, b, t, List.mem_append_left _ h, hn⟩

/-- The lookup agrees with the history. -/
structure Bound (tr : Trace) (s : State) : Prop where
  last : ∀ n u, s.published n = some u → lastBound tr n = some ⟨n, u⟩
  keep : s.queueOpen = true → ∀ n t, lastBound tr n = some t → s.Open t.id →
    s.published n = some t.id
  name : ∀ n t, lastBound tr n = some t → t ∈ s.refs ∧ t.name = n
  req : s.queueOpen = true → ∀ t ∈ requested tr, ¬ Inserted tr t.name → s.Open t.id →
    lastBound tr t.name = some t
  uniq : ∀ t ∈ requested tr, ∀ u ∈ requested tr, t.name = u.name → ¬ Inserted tr t.name →
    s.Open t.id → s.Open u.id → t = u

/-- A step that binds no name and requests nothing. -/
theorem Bound.silent {tr : Trace} {s s' : State} {e : Op × Out} (h : Bound tr s) (ht : Trks tr s)
    (ho : ∀ t, t < s.tracks.length → s'.Open t → s.Open t)
    (e1 : ∀ n, lastBound (tr ++ [e]) n = lastBound tr n)
    (h2 : requested (tr ++ [e]) = requested tr)
    (h3 : s'.queueOpen = true → s.queueOpen = true)
    (h4 : ∀ n u, s'.published n = some u → s.published n = some u)
    (h5 : s'.queueOpen = true → ∀ n u, s.published n = some u → s'.Open u → s'.published n = some u)
    (h6 : s.refs <+: s'.refs) :
    Bound (tr ++ [e]) s' := by
  have hlt : ∀ t ∈ requested tr, t.id < s.tracks.length := by
    intro t hx
    have := ht.sub.subset hx
    rw [ht.made] at this
    exact (mem_refs.1 this).1
  constructor
  · intro n u hp; rw [e1]; exact h.last n u (h4 n u hp)
  · intro hq n t hl hop
    rw [e1] at hl
    have := (mem_refs.1 (h.name n t hl).1).1
    exact h5 hq n t.id (h.keep (h3 hq) n t hl (ho _ this hop)) hop
  · intro n t hl
    rw [e1] at hl
    obtain ⟨a, b⟩ := h.name n t hl
    exact ⟨h6.subset a, b⟩
  · intro hq t hm hi hop
    rw [h2] at hm
    rw [e1]
    exact h.req (h3 hq) t hm (fun hx => hi (inserted_mono hx)) (ho _ (hlt t hm) hop)
  · intro t hm u hm' hn hi ho1 ho2
    rw [h2] at hm hm'
    exact h.uniq t hm u hm' hn (fun hx => hi (inserted_mono hx)) (ho _ (hlt t hm) ho1)
      (ho _ (hlt u hm') ho2)

/-- A step that inserts track `t`. -/
theorem Bound.bind {tr : Trace} {s s' : State} {e : Op × Out} {t : Ref} (h : Bound tr s)
    (ht : Trks tr s) (ho : ∀ t, t < s.tracks.length → s'.Open t → s.Open t)
    (h1 : ∀ n, lastBound [e] n = if t.name = n then some t else none)
    (h2 : requested (tr ++ [e]) = requested tr)
    (h3 : s'.queueOpen = s.queueOpen)
    (h4 : s'.published = Broadcast.bind s.published t.name (some t.id))
    (h5 : Inserted (tr ++ [e]) t.name) (h6 : s.refs <+: s'.refs) (h7 : t ∈ s'.refs) :
    Bound (tr ++ [e]) s' := by
  have e1 : ∀ n, lastBound (tr ++ [e]) n = if t.name = n then some t else lastBound tr n := by
    intro n; rw [lastBound_snoc, h1]; split <;> rfl
  have hlt : ∀ t ∈ requested tr, t.id < s.tracks.length := by
    intro t hx
    have := ht.sub.subset hx
    rw [ht.made] at this
    exact (mem_refs.1 this).1
  constructor
  · intro n u hp
    rw [e1]
    rw [h4] at hp
    unfold Broadcast.bind at hp
    split at hp
    · rename_i hx
      injection hp with hp
      rw [if_pos hx.symm, ← hp, hx]
    · rename_i hx
      rw [if_neg (fun hy => hx hy.symm)]
      exact h.last n u hp
  · intro hq n u hl hop
    rw [e1] at hl
    rw [h4]
    unfold Broadcast.bind
    split at hl
    · rename_i hx
      injection hl with hl
      rw [if_pos hx.symm, hl]
    · rename_i hx
      rw [if_neg (fun hy => hx hy.symm)]
      have := (mem_refs.1 (h.name n u hl).1).1
      exact h.keep (h3 ▸ hq) n u hl (ho _ this hop)
  · intro n u hl
    rw [e1] at hl
    split at hl
    · rename_i hx
      injection hl with hl
      subst hl
      exact ⟨h7, hx⟩
    · obtain ⟨a, b⟩ := h.name n u hl
      exact ⟨h6.subset a, b⟩
  · intro hq u hm hi hop
    rw [h2] at hm
    rw [e1, if_neg (fun hx => hi (by rw [← hx]; exact h5))]
    exact h.req (h3 ▸ hq) u hm (fun hx => hi (inserted_mono hx)) (ho _ (hlt u hm) hop)
  · intro t hm u hm' hn hi ho1 ho2
    rw [h2] at hm hm'
    exact h.uniq t hm u hm' hn (fun hx => hi (inserted_mono hx)) (ho _ (hlt t hm) ho1)
      (ho _ (hlt u hm') ho2)

theorem Bound.step {tr : Trace} {s : State} (op : Op) (hm : Mode tr s) (ht : Trks tr s)
    (h : Bound tr s) :
    Bound (tr ++ [(op, (step s op).1)]) (step s op).2 := by
  have hop : ∀ t, t < s.tracks.length → (Broadcast.step s op).2.Open t → s.Open t :=
    fun t hlt hx => open_step op hlt hx
  cases op with
  | newTrack name =>
    refine h.silent ht hop (fun _ => by rw [lastBound_snoc]; rfl) ?_ id (fun _ _ h => h) (fun _ _ _ h _ => h) ?_
    · rw [requested_snoc]; rfl
    · have hr := refs_append (s := s) (s' := (Broadcast.step s (.newTrack name)).2)
        (k := ⟨name, none, 1⟩) rfl
      rw [hr]; exact List.prefix_append _ _
  | create p name =>
    simp only [Broadcast.step] at hop ⊢
    split
    · rename_i hp
      rw [hp] at hop
      have hr := refs_append (s := s)
        (s' := State.insertTrack { s with tracks := s.tracks ++ [⟨name, none, 1⟩] }
          ⟨name, s.tracks.length⟩) (k := ⟨name, none, 1⟩) rfl
      refine h.bind (t := ⟨name, s.tracks.length⟩) ht hop (fun n => ?_) ?_ rfl rfl ?_ ?_ ?_
      · by_cases hn : name = n <;> simp [lastBound, hn]
      · rw [requested_snoc]; rfl
      · exact .inl ⟨p, _, List.mem_append_right _ (List.mem_singleton.2 rfl)⟩
      · rw [hr]; exact List.prefix_append _ _
      · rw [hr]; simp
    · exact h.silent ht (fun _ _ h => h) (fun _ => by rw [lastBound_snoc]; rfl)
        (by rw [requested_snoc]; rfl) id
        (fun _ _ h => h) (fun _ _ _ h _ => h) List.prefix_rfl
  | insert p t =>
    simp only [Broadcast.step] at hop ⊢
    split
    · split
      · rename_i hx
        refine h.bind (t := t) ht (fun _ _ h => h) (fun n => ?_) ?_ rfl rfl ?_ List.prefix_rfl
          (mem_refs.2 hx)
        · by_cases hn : t.name = n <;> simp [lastBound, hn]
        · rw [requested_snoc]; rfl
        · exact .inr ⟨p, _, t, List.mem_append_right _ (List.mem_singleton.2 rfl), rfl⟩
      · exact h.silent ht (fun _ _ h => h) (fun _ => by rw [lastBound_snoc]; rfl)
          (by rw [requested_snoc]; rfl) id (fun _ _ h => h) (fun _ _ _ h _ => h) List.prefix_rfl
    · exact h.silent ht (fun _ _ h => h) (fun _ => by rw [lastBound_snoc]; rfl)
        (by rw [requested_snoc]; rfl) id
        (fun _ _ h => h) (fun _ _ _ h _ => h) List.prefix_rfl
  | subscribe c name =>
    simp only [Broadcast.step] at hop ⊢
    split
    · exact h.silent ht (fun _ _ h => h) (fun _ => by rw [lastBound_snoc]; rfl)
        (by rw [requested_snoc]; rfl) id (fun _ _ h => h) (fun _ _ _ h _ => h) List.prefix_rfl
    · rename_i hc
      simp only [hc] at hop
      split
      · rename_i t hp
        refine h.silent ht (fun _ _ h => h) (fun n => ?_) ?_ id (fun _ _ h => h)
          (fun _ _ _ h _ => h) List.prefix_rfl
        · rw [lastBound_snoc]
          by_cases hn : name = n
          · subst hn
            rw [h.last _ _ hp]
            simp [lastBound]
          · simp [lastBound, hn]
        · rw [requested_snoc]
          have : (⟨name, t⟩ : Ref) ∈ made tr := by rw [ht.made]; exact ht.pub _ _ hp
          simp [note, this]
      · rename_i hp
        simp only [hp] at hop
        have hfresh : (⟨name, s.tracks.length⟩ : Ref) ∉ Spec.made tr := by
          rw [ht.made]; exact fresh_not_mem s name
        have hlt : ∀ t ∈ requested tr, t.id < s.tracks.length := by
          intro t hx
          have := ht.sub.subset hx
          rw [ht.made] at this
          exact (mem_refs.1 this).1
        have e1 : ∀ n, lastBound
            (tr ++ [(Op.subscribe c name, Out.track ⟨name, s.tracks.length⟩)]) n =
            if name = n then some ⟨name, s.tracks.length⟩ else lastBound tr n := by
          intro n
          rw [lastBound_snoc]
          by_cases hn : name = n <;> simp [lastBound, hn]
        have e2 : requested (tr ++ [(Op.subscribe c name, Out.track ⟨name, s.tracks.length⟩)]) =
            requested tr ++ [⟨name, s.tracks.length⟩] := by
          rw [requested_snoc]
          simp [note, hfresh]
        have key : ∀ (k : Trk) (s' : State), k.name = name → s'.tracks = s.tracks ++ [k] →
            s'.queueOpen = s.queueOpen →
            s'.published = Broadcast.bind s.published name (some s.tracks.length) →
            (∀ t, t < s.tracks.length → s'.Open t → s.Open t) →
            (s.queueOpen = false → ¬ s'.Open s.tracks.length) →
            Bound (tr ++ [(Op.subscribe c name, Out.track ⟨name, s.tracks.length⟩)]) s' := by
          intro k s' hk htr ho hpub hmono hclosed
          have hr := refs_append htr
          rw [hk] at hr
          -- an open request for this name would be published
          have hno : s.queueOpen = true → ∀ t ∈ requested tr, t.name = name →
              ¬ Inserted tr t.name → ¬ s.Open t.id := by
            intro hq t hx hn hi hopen
            have := h.keep hq _ t (h.req hq t hx hi hopen) hopen
            rw [hn, hp] at this
            cases this
          constructor
          · intro n u hu
            rw [e1]
            rw [hpub] at hu
            unfold Broadcast.bind at hu
            split at hu
            · rename_i hx
              injection hu with hu
              rw [if_pos hx.symm, hx, hu]
            · rename_i hx
              rw [if_neg (fun hy => hx hy.symm)]
              exact h.last n u hu
          · intro hq n u hl hopen
            rw [e1] at hl
            rw [hpub]
            unfold Broadcast.bind
            split at hl
            · rename_i hx
              injection hl with hl
              rw [if_pos hx.symm, ← hl]
            · rename_i hx
              rw [if_neg (fun hy => hx hy.symm)]
              have := (mem_refs.1 (h.name n u hl).1).1
              exact h.keep (ho ▸ hq) n u hl (hmono _ this hopen)
          · intro n u hl
            rw [e1] at hl
            split at hl
            · rename_i hx
              injection hl with hl
              subst hl
              exact ⟨by rw [hr]; simp, hx⟩
            · obtain ⟨a, b⟩ := h.name n u hl
              exact ⟨by rw [hr]; exact List.mem_append_left _ a, b⟩
          · intro hq t hx hi hopen
            rw [e1]
            rw [e2] at hx
            rcases List.mem_append.1 hx with hx | hx
            · have hopen' := hmono _ (hlt t hx) hopen
              have hi' : ¬ Inserted tr t.name := fun hy => hi (inserted_mono hy)
              rw [if_neg]
              · exact h.req (ho ▸ hq) t hx hi' hopen'
              · intro hn
                exact hno (ho ▸ hq) t hx hn.symm hi' hopen'
            · rw [List.mem_singleton] at hx
              subst hx
              rw [if_pos rfl]
          · intro t hx u hu hn hi ho1 ho2
            rw [e2] at hx hu
            have hi' : ¬ Inserted tr t.name := fun hy => hi (inserted_mono hy)
            rcases List.mem_append.1 hx with hx | hx <;> rcases List.mem_append.1 hu with hu | hu
            · exact h.uniq t hx u hu hn hi' (hmono _ (hlt t hx) ho1) (hmono _ (hlt u hu) ho2)
            · exfalso
              rw [List.mem_singleton] at hu
              subst hu
              cases hq : s.queueOpen with
              | true => exact hno hq t hx hn hi' (hmono _ (hlt t hx) ho1)
              | false => exact hclosed hq ho2
            · exfalso
              rw [List.mem_singleton] at hx
              subst hx
              cases hq : s.queueOpen with
              | true => exact hno hq u hu hn.symm (hn ▸ hi') (hmono _ (hlt u hu) ho2)
              | false => exact hclosed hq ho1
            · rw [List.mem_singleton] at hx hu
              rw [hx, hu]
        split
        · rename_i hq
          simp only [hq, if_true] at hop
          exact key ⟨name, none, 0⟩ _ rfl rfl rfl rfl hop
            (fun hx => by rw [hq] at hx; cases hx)
        · rename_i hq
          simp only [hq] at hop
          refine key ⟨name, some (.error .cancel), 0⟩ _ rfl rfl rfl rfl hop (fun _ hx => ?_)
          obtain ⟨k, hk, hcl, _⟩ := hx
          simp at hk
          subst hk
          cases hcl
  | cleanup k =>
    simp only [Broadcast.step]
    split
    · exact h.silent ht (fun _ _ h => h) (fun _ => by rw [lastBound_snoc]; rfl)
        (by rw [requested_snoc]; rfl) id (fun _ _ h => h) (fun _ _ _ h _ => h) List.prefix_rfl
    · rename_i t _
      split
      · exact h.silent ht (fun _ _ h => h) (fun _ => by rw [lastBound_snoc]; rfl)
          (by rw [requested_snoc]; rfl) id (fun _ _ h => h) (fun _ _ _ h _ => h) List.prefix_rfl
      · rename_i r hcl
        split
        · rename_i u hu
          split
          · rename_i hut
            subst hut
            refine h.silent ht (fun _ _ h => h) (fun _ => by rw [lastBound_snoc]; rfl)
              (by rw [requested_snoc]; rfl) id ?_ ?_ List.prefix_rfl
            · intro n v hv
              dsimp only [Broadcast.bind] at hv
              split at hv
              · cases hv
              · exact hv
            · intro _ n v hv hopen
              dsimp only [Broadcast.bind]
              split
              · rename_i hx
                subst hx
                rw [hu] at hv
                injection hv with hv
                subst hv
                have := trackClosed_none.2 (show s.Open u from hopen)
                rw [this] at hcl
                cases hcl
              · exact hv
          · exact h.silent ht (fun _ _ h => h) (fun _ => by rw [lastBound_snoc]; rfl)
              (by rw [requested_snoc]; rfl) id (fun _ _ h => h) (fun _ _ _ h _ => h)
              List.prefix_rfl
        · exact h.silent ht (fun _ _ h => h) (fun _ => by rw [lastBound_snoc]; rfl)
            (by rw [requested_snoc]; rfl) id (fun _ _ h => h) (fun _ _ _ h _ => h) List.prefix_rfl
  | dropStep p =>
    simp only [Broadcast.step] at hop ⊢
    split
    · rename_i hp
      simp only [hp] at hop
      exact h.silent ht hop (fun _ => by rw [lastBound_snoc]; rfl)
        (by rw [requested_snoc]; rfl) (by simp) (fun _ _ h => h) (fun _ _ _ h _ => h)
        List.prefix_rfl
    · rename_i hp
      simp only [hp] at hop
      split
      · rename_i hq
        simp only [hq] at hop
        exact h.silent ht hop (fun _ => by rw [lastBound_snoc]; rfl)
          (by rw [requested_snoc]; rfl) id (fun _ _ h => h) (fun _ _ _ h _ => h) List.prefix_rfl
      · rename_i hq
        refine h.silent ht ?_ (fun _ => by rw [lastBound_snoc]; rfl)
          (by rw [requested_snoc]; rfl) id (fun _ _ h => h) (fun _ _ _ h _ => h) List.prefix_rfl
        simp only [hq] at hop ⊢
        exact hop
    · rename_i hp
      simp only [hp] at hop
      refine h.silent ht hop (fun _ => by rw [lastBound_snoc]; rfl)
        (by rw [requested_snoc]; rfl) id (fun _ _ h => h) (fun _ _ _ h _ => h) ?_
      have := refs_setClosed s
      exact ⟨[], by rw [List.append_nil]; exact (this _ _).symm⟩
    · rename_i hp
      simp only [hp] at hop
      have hclosed : s.queueOpen = false := by
        cases hm with
        | running _ _ hl _ => exact absurd (hl _ _ hp) (by simp)
        | ending r φ hat hne hon ho hem hn =>
          by_cases hpq : p = r
          · subst hpq; rw [hp] at hat; injection hat with hat; subst hat; simpa using ho
          · rw [hon p hpq] at hp; cases hp
        | over hno hcl hem hn => exact hcl
      refine h.silent ht hop (fun _ => by rw [lastBound_snoc]; rfl)
        (by rw [requested_snoc]; rfl) id (fun _ _ h => by cases h) (fun hx => ?_) List.prefix_rfl
      have hx : s.queueOpen = true := hx
      rw [hclosed] at hx
      cases hx
    · rename_i hp
      simp only [hp] at hop
      exact h.silent ht hop (fun _ => by rw [lastBound_snoc]; rfl)
        (by rw [requested_snoc]; rfl) id (fun _ _ h => h) (fun _ _ _ h _ => h) List.prefix_rfl
    · exact h.silent ht (fun _ _ h => h) (fun _ => by rw [lastBound_snoc]; rfl)
        (by rw [requested_snoc]; rfl) id (fun _ _ h => h) (fun _ _ _ h _ => h) List.prefix_rfl
  | request p =>
    simp only [Broadcast.step] at hop ⊢
    split
    · rename_i hp
      simp only [hp] at hop
      split
      · rename_i hq
        simp only [hq] at hop
        refine h.silent ht hop (fun _ => by rw [lastBound_snoc]; rfl)
          (by rw [requested_snoc]; rfl) id (fun _ _ h => h) (fun _ _ _ h _ => h) ?_
        have := refs_setHeld s
        exact ⟨[], by rw [List.append_nil]; exact (this _ _).symm⟩
      · split <;> exact h.silent ht (fun _ _ h => h) (fun _ => by rw [lastBound_snoc]; rfl)
          (by rw [requested_snoc]; rfl) id (fun _ _ h => h) (fun _ _ _ h _ => h) List.prefix_rfl
    · exact h.silent ht (fun _ _ h => h) (fun _ => by rw [lastBound_snoc]; rfl)
        (by rw [requested_snoc]; rfl) id (fun _ _ h => h) (fun _ _ _ h _ => h) List.prefix_rfl
  | _ =>
    simp only [Broadcast.step] at hop ⊢
    repeat' split
    all_goals
      refine h.silent ht (by simp_all) ?_ ?_ id (fun _ _ h => h) (fun _ _ _ h _ => h) ?_
      · intro n; rw [lastBound_snoc]; rfl
      · rw [requested_snoc]; rfl
      · first
          | exact List.prefix_rfl
          | simp [refs_setHeld, refs_setClosed]

theorem bound_reach {tr : Trace} {s : State} (h : machine.Reach tr s) : Bound tr s := by
  refine Machine.Reach.induct (M := machine) (P := fun tr s => Bound tr s) ?_ ?_ h
  · constructor
    · intro n u hu; cases hu
    · intro _ n t ht; cases ht
    · intro n t ht; cases ht
    · intro _ t ht; cases ht
    · intro t ht; cases ht
  · intro tr s op hr ih
    exact ih.step op (mode_reach hr) (trks_reach hr)

/-! ## After the clean-up -/

/-- The published tracks have been cleared. -/
def State.Cleared (s : State) : Prop := ∀ p φ, s.producers.get p = some φ → φ = .fields

/-- All that is published after the clean-up are cancelled tracks. -/
def Dead (s : State) : Prop :=
  s.Cleared → ∀ n t, s.published n = some t →
    ∃ k, s.tracks[t]? = some k ∧ k.held = 0 ∧ k.closed = some (.error .cancel)

theorem Dead.silent {s s' : State} (h : Dead s) (h1 : s'.Cleared → s.Cleared)
    (h2 : ∀ n t, s'.published n = some t → s.published n = some t)
    (h5 : ∀ (i : Nat) (k : Trk), s.tracks[i]? = some k → k.held = 0 →
      s'.tracks[i]? = some k ∨ ∃ k', s'.tracks[i]? = some k' ∧ k'.held = 0 ∧
        k'.closed = some (.error .cancel)) : Dead s' := by
  intro hc n t hp
  obtain ⟨k, hk, hz, hcl⟩ := h (h1 hc) n t (h2 n t hp)
  rcases h5 t k hk hz with h5 | h5
  · exact ⟨k, h5, hz, hcl⟩
  · exact h5

theorem Mode.cleared_closed {tr : Trace} {s : State} (hm : Mode tr s) (hc : s.Cleared) :
    s.queueOpen = false := by
  cases hm with
  | running ho hcount hl _ =>
    exfalso
    have : s.producers.count = 0 := by
      rw [Slots.count_eq_zero]
      intro p
      cases hp : s.producers.get p with
      | none => rfl
      | some φ =>
        have h1 := hc p φ hp
        have h2 := hl p φ hp
        rw [h1] at h2
        cases h2
    omega
  | ending p φ hat hne hon ho hem hn =>
    have := hc p φ hat
    subst this
    simpa using ho
  | over _ hcl _ _ => exact hcl

theorem append_get {l : List Trk} {x : Trk} {i : Nat} {k : Trk} (h : l[i]? = some k) :
    (l ++ [x])[i]? = some k := by
  rw [List.getElem?_append_left]
  · exact h
  · rcases Nat.lt_or_ge i l.length with hx | hx
    · exact hx
    · rw [List.getElem?_eq_none hx] at h; cases h

theorem Dead.step {tr : Trace} {s : State} (op : Op) (hm : Mode tr s) (h : Dead s) :
    Dead (step s op).2 := by
  have hm' : Mode (tr ++ [(op, (Broadcast.step s op).1)]) (Broadcast.step s op).2 := hm.step op
  cases op with
  | newTrack name =>
    exact h.silent id (fun _ _ h => h) (fun i k hk _ => .inl (append_get hk))
  | create p name =>
    simp only [Broadcast.step]
    split
    · rename_i hp
      intro hc
      exact absurd (hc p _ hp) (by simp)
    · exact h
  | insert p t =>
    simp only [Broadcast.step]
    split
    · rename_i hp
      split
      · intro hc
        exact absurd (hc p _ hp) (by simp)
      · exact h
    · exact h
  | cloneTrack t =>
    simp only [Broadcast.step]
    split
    · rename_i ht
      exact h.silent id (fun _ _ h => h) (fun i k hk hz => .inl (modify_outside ht _ i k hk hz))
    · exact h
  | dropTrack t =>
    simp only [Broadcast.step]
    split
    · rename_i ht
      exact h.silent id (fun _ _ h => h) (fun i k hk hz => .inl (modify_outside ht _ i k hk hz))
    · exact h
  | finishTrack t =>
    simp only [Broadcast.step]
    split
    · rename_i ht
      refine h.silent id (fun _ _ h => h) (fun i k hk hz => .inl ?_)
      simp only [State.setHeld, State.setClosed]
      rw [List.getElem?_modify, modify_outside ht _ i k hk hz]
      obtain ⟨k', hk', hpos⟩ := outside_some ht
      have : t ≠ i := by rintro rfl; rw [hk] at hk'; injection hk' with hk'; subst hk'; omega
      simp [this]
    · exact h
  | abortTrack t e =>
    simp only [Broadcast.step]
    split
    · rename_i ht
      refine h.silent id (fun _ _ h => h) (fun i k hk hz => .inl ?_)
      simp only [State.setHeld, State.setClosed]
      rw [List.getElem?_modify, modify_outside ht _ i k hk hz]
      obtain ⟨k', hk', hpos⟩ := outside_some ht
      have : t ≠ i := by rintro rfl; rw [hk] at hk'; injection hk' with hk'; subst hk'; omega
      simp [this]
    · exact h
  | request p =>
    simp only [Broadcast.step]
    split
    · rename_i hp
      split
      · intro hc
        exact absurd (hc p _ hp) (by simp)
      · split <;> exact h
    · exact h
  | cloneProducer p =>
    simp only [Broadcast.step]
    split
    · intro hc
      have := hc s.producers.length .live (by simp [Slots.get_add])
      cases this
    · exact h
  | dropProducer p =>
    simp only [Broadcast.step] at hm' ⊢
    split
    · rename_i hp
      simp only [hp] at hm'
      split
      · rename_i hpos
        rw [if_pos hpos] at hm'
        intro hc
        have h1 := hm'.cleared_closed hc
        cases hm with
        | running ho _ _ _ =>
          have h1 : s.queueOpen = false := h1
          rw [ho] at h1
          cases h1
        | ending r φ hat hne hon _ _ _ =>
          by_cases hpq : p = r
          · subst hpq; rw [hp] at hat; injection hat with hat; exact absurd hat.symm hne
          · rw [hon p hpq] at hp; cases hp
        | over hno _ _ _ => rw [hno] at hp; cases hp
      · intro hc
        exact absurd (hc p _ (Slots.get_put_self _ hp)) (by simp)
    · exact h
  | dropStep p =>
    simp only [Broadcast.step]
    split
    · rename_i hp
      intro hc
      exact absurd (hc p _ (Slots.get_put_self _ hp)) (by simp)
    · rename_i hp
      split
      · intro hc
        exact absurd (hc p _ (Slots.get_put_self _ hp)) (by simp)
      · intro hc
        exact absurd (hc p _ (Slots.get_put_self _ hp)) (by simp)
    · rename_i hp
      intro hc
      exact absurd (hc p _ (Slots.get_put_self _ hp)) (by simp)
    · intro _ n t ht
      cases ht
    · rename_i hp
      refine h.silent (fun hc q φ hq => ?_) (fun _ _ h => h) (fun _ _ h _ => .inl h)
      by_cases hpq : p = q
      · subst hpq
        rw [hp] at hq
        injection hq with hq
        exact hq.symm
      · exact hc q φ (by dsimp only; rw [Slots.get_put_ne _ hpq]; exact hq)
    · exact h
  | subscribe c name =>
    simp only [Broadcast.step]
    split
    · exact h
    · split
      · exact h
      · split
        · rename_i ho
          intro hc
          have := hm.cleared_closed hc
          rw [this] at ho
          cases ho
        · intro hc n t hp
          rcases bind_cases hp with hp | hp
          · obtain ⟨k, hk, hz, hcl⟩ := h hc n t hp
            exact ⟨k, append_get hk, hz, hcl⟩
          · injection hp with _ hp
            subst hp
            exact ⟨⟨name, some (.error .cancel), 0⟩, by simp, rfl, rfl⟩
  | cleanup k =>
    simp only [Broadcast.step]
    repeat' split
    · exact h
    · exact h
    · refine h.silent id ?_ (fun _ _ h _ => .inl h)
      intro n v hv
      dsimp only [Broadcast.bind] at hv
      split at hv
      · cases hv
      · exact hv
    · exact h
    · exact h
  | _ =>
    simp only [Broadcast.step]
    repeat' split
    all_goals exact h

theorem dead_reach {tr : Trace} {s : State} (h : machine.Reach tr s) : Dead s := by
  refine Machine.Reach.induct (M := machine) (P := fun _ s => Dead s) ?_ ?_ h
  · intro _ n t ht; cases ht
  · intro tr s op hr ih
    exact ih.step op (mode_reach hr)

end Verif.Model.Broadcast
