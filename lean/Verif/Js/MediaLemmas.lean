import Verif.Js.Media

/-!
# Invariants of asking for media
-/

set_option autoImplicit false

namespace Verif.Js.Media

open Verif

/-! ## Histories -/

theorem config_snoc (tr : Trace) (op : Op) (o : Out) : config (tr ++ [(op, o)]) =
    match op with | .set c => c | _ => config tr := by
  unfold config
  rw [List.foldl_append]
  cases op <;> rfl

theorem made_snoc (tr : Trace) (op : Op) (o : Out) (k : Kind) (i : Nat) : Made (tr ++ [(op, o)]) k i ↔
    Made tr k i ∨ ∃ ms ds, o = .ran ms ds ∧ (k, i) ∈ ms := by
  unfold Made
  constructor
  · rintro ⟨op', ms, ds, h1, h2⟩
    rcases List.mem_append.1 h1 with h | h
    · exact .inl ⟨op', ms, ds, h, h2⟩
    · have := List.mem_singleton.1 h
      injection this with h3 h4
      exact .inr ⟨ms, ds, h4.symm, h2⟩
  · rintro (⟨op', ms, ds, h1, h2⟩ | ⟨ms, ds, rfl, h2⟩)
    · exact ⟨op', ms, ds, List.mem_append_left _ h1, h2⟩
    · exact ⟨op, ms, ds, by simp, h2⟩

theorem dropped_snoc (tr : Trace) (op : Op) (o : Out) (i : Nat) : Dropped (tr ++ [(op, o)]) i ↔
    Dropped tr i ∨ ∃ ms ds k, o = .ran ms ds ∧ (k, i) ∈ ds := by
  unfold Dropped
  constructor
  · rintro ⟨op', ms, ds, k, h1, h2⟩
    rcases List.mem_append.1 h1 with h | h
    · exact .inl ⟨op', ms, ds, k, h, h2⟩
    · have := List.mem_singleton.1 h
      injection this with h3 h4
      exact .inr ⟨ms, ds, k, h4.symm, h2⟩
  · rintro (⟨op', ms, ds, k, h1, h2⟩ | ⟨ms, ds, k, rfl, h2⟩)
    · exact ⟨op', ms, ds, k, List.mem_append_left _ h1, h2⟩
    · exact ⟨op, ms, ds, k, by simp, h2⟩

theorem late_snoc (tr : Trace) (op : Op) (o : Out) : Late (tr ++ [(op, o)]) ↔
    Late tr ∨ ∃ i a v, op = .granted i a v ∧ o = .ok ∧ Dropped tr i := by
  unfold Late
  constructor
  · rintro ⟨pre, post, i, a, v, h1, h2⟩
    rcases List.eq_nil_or_concat post with rfl | ⟨post', x, rfl⟩
    · obtain ⟨rfl, h3⟩ := List.append_inj' h1 rfl
      have := (List.cons.inj h3).1
      injection this with h4 h5
      exact .inr ⟨i, a, v, h4, h5, h2⟩
    · rw [List.concat_eq_append, ← List.cons_append, ← List.append_assoc] at h1
      obtain ⟨rfl, -⟩ := List.append_inj' h1 rfl
      exact .inl ⟨pre, post', i, a, v, rfl, h2⟩
  · rintro (⟨pre, post, i, a, v, rfl, h2⟩ | ⟨i, a, v, rfl, rfl, h2⟩)
    · exact ⟨pre, post ++ [(op, o)], i, a, v, by simp, h2⟩
    · exact ⟨tr, [], i, a, v, rfl, h2⟩

theorem closed_snoc (tr : Trace) (op : Op) (o : Out) : Closed (tr ++ [(op, o)]) ↔
    Closed tr ∨ (op = .close ∧ ∃ ms ds, o = .ran ms ds) := by
  unfold Closed
  constructor
  · rintro ⟨ms, ds, h⟩
    rcases List.mem_append.1 h with h | h
    · exact .inl ⟨ms, ds, h⟩
    · have := List.mem_singleton.1 h
      injection this with h1 h2
      exact .inr ⟨h1.symm, ms, ds, h2.symm⟩
  · rintro (⟨ms, ds, h⟩ | ⟨rfl, ms, ds, rfl⟩)
    · exact ⟨ms, ds, List.mem_append_left _ h⟩
    · exact ⟨ms, ds, by simp⟩

/-! ## What effects read -/

theorem asks_same {k : Kind} {c c' : Config} (h : reads k c c' = false) : asks k c' = asks k c := by
  obtain ⟨d, a, v, p, q⟩ := c
  obtain ⟨d', a', v', p', q'⟩ := c'
  cases k <;> rcases d with _ | _ | _ <;> rcases d' with _ | _ | _ <;> simp_all [reads, asks]
  all_goals first | rfl | (cases a <;> simp_all)

/-! ## Requests -/

/-- The requests, where `mk` and `dr` say which were made and which were dropped. -/
structure Reqs (mk : Kind → Nat → Prop) (dr : Nat → Prop) (s : State) : Prop where
  current : ∀ k i, s.current k = some i ↔ mk k i ∧ ¬ dr i
  made : ∀ k i, mk k i ↔ s.requests[i]? = some k
  dropped : ∀ i, dr i → i < s.requests.length
  pending : ∀ i ∈ s.pending, i < s.requests.length
  nodup : s.pending.Nodup

theorem Reqs.congr {mk mk' : Kind → Nat → Prop} {dr dr' : Nat → Prop} {s : State} (i : Reqs mk dr s)
    (h1 : ∀ k i, mk' k i ↔ mk k i) (h2 : ∀ i, dr' i ↔ dr i) : Reqs mk' dr' s := by
  refine ⟨?_, ?_, ?_, i.pending, i.nodup⟩
  · simp only [h1, h2]
    exact i.current
  · simp only [h1]
    exact i.made
  · simp only [h2]
    exact i.dropped

/-! ## Media -/

/-- What is captured is in the signals, and what is in the signals comes from a request that was not dropped. -/
structure Safe (s : State) : Prop where
  audio : ∀ id, s.audio = some id → ∃ x, s.sources[id]? = some x ∧ x.video = false ∧ x.stopped = false ∧
    ∃ k, k ≠ .cameraVideo ∧ s.current k = some x.request
  video : ∀ id, s.video = some id → ∃ x, s.sources[id]? = some x ∧ x.video = true ∧ x.stopped = false ∧
    ∃ k, k ≠ .cameraAudio ∧ s.current k = some x.request
  live : ∀ (id : Nat) x, s.sources[id]? = some x → x.stopped = false →
    if x.video then s.video = some id else s.audio = some id

/-- The request that was granted is in the signal. -/
def Shown (s : State) (m : Option Nat) (i : Nat) : Prop := ∃ id x, m = some id ∧ s.sources[id]? = some x ∧ x.request = i

/-- What was granted is in the signals as long as the request is not dropped. -/
def Kept (s : State) (i : Nat) (a v : Bool) : Prop :=
  (s.current .cameraAudio = some i → Shown s s.audio i) ∧
  (s.current .cameraVideo = some i → Shown s s.video i) ∧
  (s.current .screen = some i → (a = true → Shown s s.audio i) ∧ (v = true → Shown s s.video i))

theorem stop_get {s : State} {m : Option Nat} {id : Nat} {x : Source} (h : (stop s m)[id]? = some x) :
    ∃ y, s.sources[id]? = some y ∧ x.video = y.video ∧ x.request = y.request ∧
      (x.stopped = if m = some id then true else y.stopped) := by
  unfold stop at h
  split at h
  · next j =>
    rw [List.getElem?_modify] at h
    cases hy : s.sources[id]? with
    | none => rw [hy] at h; cases h
    | some y =>
      rw [hy] at h
      refine ⟨y, rfl, ?_⟩
      by_cases hj : j = id
      · simp only [hj, Option.map_eq_map, Option.map_some, if_true, Option.some.injEq] at h
        subst h
        simp [hj]
      · simp only [hj, Option.map_eq_map, Option.map_some, if_false, Option.some.injEq] at h
        subst h
        simp [hj]
  · exact ⟨x, h, rfl, rfl, by simp⟩

theorem stop_keep {s : State} {m : Option Nat} {id : Nat} {x : Source} (h : s.sources[id]? = some x) :
    (stop s m)[id]? = some { x with stopped := if m = some id then true else x.stopped } := by
  unfold stop
  split
  · next j =>
    rw [List.getElem?_modify, h]
    by_cases hj : j = id
    · simp [hj]
    · simp [hj]
  · rw [h]
    simp

theorem Shown.of {s s' : State} {m : Option Nat} {i : Nat} (h : Shown s m i)
    (hs : ∀ (id : Nat) x, s.sources[id]? = some x → ∃ y, s'.sources[id]? = some y ∧ y.request = x.request) :
    Shown s' m i := by
  obtain ⟨id, x, h1, h2, h3⟩ := h
  obtain ⟨y, h4, h5⟩ := hs id x h2
  exact ⟨id, y, h1, h4, by rw [h5, h3]⟩

/-- Stopping what is in the signals. -/
theorem Safe.clearAudio {s : State} (i : Safe s) : Safe (clearAudio s) := by
  refine ⟨fun id h => (by cases h), ?_, ?_⟩
  · intro id h
    obtain ⟨x, h1, h2, h3, h4⟩ := i.video id h
    refine ⟨_, stop_keep h1, h2, ?_, h4⟩
    dsimp only
    split
    · next ha =>
      obtain ⟨y, g1, g2, -⟩ := i.audio id ha
      rw [h1] at g1
      cases g1
      rw [h2] at g2
      cases g2
    · exact h3
  · intro id x h hs
    obtain ⟨y, h1, h2, -, h4⟩ := stop_get h
    rw [h4] at hs
    split at hs
    · cases hs
    · next hn =>
      have := i.live id y h1 hs
      rw [h2]
      cases hv : y.video with
      | true => rw [hv] at this; exact this
      | false => rw [hv] at this; exact absurd this hn

theorem Safe.clearVideo {s : State} (i : Safe s) : Safe (clearVideo s) := by
  refine ⟨?_, fun id h => (by cases h), ?_⟩
  · intro id h
    obtain ⟨x, h1, h2, h3, h4⟩ := i.audio id h
    refine ⟨_, stop_keep h1, h2, ?_, h4⟩
    dsimp only
    split
    · next ha =>
      obtain ⟨y, g1, g2, -⟩ := i.video id ha
      rw [h1] at g1
      cases g1
      rw [h2] at g2
      cases g2
    · exact h3
  · intro id x h hs
    obtain ⟨y, h1, h2, -, h4⟩ := stop_get h
    rw [h4] at hs
    split at hs
    · cases hs
    · next hn =>
      have := i.live id y h1 hs
      rw [h2]
      cases hv : y.video with
      | true => rw [hv] at this; exact absurd this hn
      | false => rw [hv] at this; exact this

/-- Forgetting the request of an effect whose media is not in the signals. -/
theorem Safe.forget {s : State} (i : Safe s) (k : Kind) (ha : k ≠ .cameraVideo → s.audio = none)
    (hv : k ≠ .cameraAudio → s.video = none) :
    Safe { s with current := fun x => if x = k then none else s.current x } := by
  refine ⟨?_, ?_, i.live⟩
  · intro id h
    obtain ⟨x, h1, h2, h3, k', h4, h5⟩ := i.audio id h
    refine ⟨x, h1, h2, h3, k', h4, ?_⟩
    dsimp only
    rw [if_neg, h5]
    rintro rfl
    rw [ha h4] at h
    cases h
  · intro id h
    obtain ⟨x, h1, h2, h3, k', h4, h5⟩ := i.video id h
    refine ⟨x, h1, h2, h3, k', h4, ?_⟩
    dsimp only
    rw [if_neg, h5]
    rintro rfl
    rw [hv h4] at h
    cases h

theorem cleanup_eq (s : State) (k : Kind) : cleanup s k =
    match s.current k with
    | none => ([], s)
    | some i =>
      ([(k, i)], { (match k with
          | .cameraAudio => clearAudio s
          | .cameraVideo => clearVideo s
          | .screen => clearAudio (clearVideo s)) with
        current := fun x => if x = k then none else s.current x }) := by
  unfold cleanup
  cases k <;> rfl

theorem cleanup_safe {s : State} (i : Safe s) (k : Kind) : Safe (cleanup s k).2 := by
  rw [cleanup_eq]
  cases h : s.current k with
  | none => exact i
  | some j =>
    cases k with
    | cameraAudio => exact i.clearAudio.forget .cameraAudio (fun _ => rfl) (fun h => absurd rfl h)
    | cameraVideo => exact i.clearVideo.forget .cameraVideo (fun h => absurd rfl h) (fun _ => rfl)
    | screen => exact i.clearVideo.clearAudio.forget .screen (fun _ => rfl) (fun _ => rfl)

/-- What stays the same in the cleanup. -/
structure Cleaned (s s' : State) (k : Kind) : Prop where
  config : s'.config = s.config
  requests : s'.requests = s.requests
  pending : s'.pending = s.pending
  closed : s'.closed = s.closed
  this : s'.current k = none
  other : ∀ k', k' ≠ k → s'.current k' = s.current k'

theorem cleanup_cleaned (s : State) (k : Kind) : Cleaned s (cleanup s k).2 k := by
  rw [cleanup_eq]
  cases h : s.current k with
  | none => exact ⟨rfl, rfl, rfl, rfl, h, fun _ _ => rfl⟩
  | some j =>
    cases k <;> exact ⟨rfl, rfl, rfl, rfl, by simp, fun k' hk' => by simp [hk']⟩

theorem cleanup_drops (s : State) (k : Kind) : (cleanup s k).1 = ((s.current k).map fun i => (k, i)).toList := by
  rw [cleanup_eq]
  cases s.current k <;> rfl

theorem cleanup_sources {s : State} {k : Kind} {id : Nat} {x : Source} (h : s.sources[id]? = some x) :
    ∃ y, (cleanup s k).2.sources[id]? = some y ∧ y.request = x.request := by
  rw [cleanup_eq]
  cases hc : s.current k with
  | none => exact ⟨x, h, rfl⟩
  | some j =>
    cases k with
    | cameraAudio => exact ⟨_, stop_keep h, rfl⟩
    | cameraVideo => exact ⟨_, stop_keep h, rfl⟩
    | screen =>
      have h1 : (clearVideo s).sources[id]? = some _ := stop_keep h
      exact ⟨_, stop_keep (s := clearVideo s) h1, rfl⟩

theorem cleanup_reqs {mk : Kind → Nat → Prop} {dr : Nat → Prop} {s : State} (i : Reqs mk dr s) (k : Kind) :
    Reqs mk (fun j => dr j ∨ ∃ k', (k', j) ∈ (cleanup s k).1) (cleanup s k).2 := by
  have c := cleanup_cleaned s k
  have hd := cleanup_drops s k
  generalize (cleanup s k).1 = ds at hd
  generalize (cleanup s k).2 = s' at c
  subst hd
  have hmem : ∀ j, (∃ k', (k', j) ∈ ((s.current k).map fun i => (k, i)).toList) ↔ s.current k = some j := by
    intro j
    cases s.current k with
    | none => simp
    | some a => simp [eq_comm]
  refine ⟨?_, by rw [c.requests]; exact i.made, ?_, by rw [c.pending, c.requests]; exact i.pending,
    by rw [c.pending]; exact i.nodup⟩
  · intro k' j
    rw [hmem]
    by_cases hk : k' = k
    · subst hk
      rw [c.this, i.current k' j]
      simp only [reduceCtorEq, false_iff]
      rintro ⟨h1, h2⟩
      exact h2 (.inr ⟨h1, fun h => h2 (.inl h)⟩)
    · rw [c.other k' hk, i.current k' j, i.current k j]
      constructor
      · rintro ⟨h1, h2⟩
        refine ⟨h1, fun h => h.elim h2 fun h3 => hk ?_⟩
        have a := (i.made k' j).1 h1
        rw [(i.made k j).1 h3.1] at a
        exact (Option.some.inj a).symm
      · rintro ⟨h1, h2⟩
        exact ⟨h1, fun h => h2 (.inl h)⟩
  · intro j h
    rw [c.requests]
    rw [hmem] at h
    rcases h with h | h
    · exact i.dropped j h
    · exact (List.getElem?_eq_some_iff.1 ((i.made k j).1 ((i.current k j).1 h).1)).1

theorem run_reqs {mk : Kind → Nat → Prop} {dr : Nat → Prop} {s : State} (i : Reqs mk dr s) (k : Kind)
    (hk : s.current k = none) : Reqs (fun k' j => mk k' j ∨ (k', j) ∈ (run s k).1) dr (run s k).2 := by
  unfold run
  split
  · have hnew : ∀ k', ¬ mk k' s.requests.length := by
      intro k' h
      have := (List.getElem?_eq_some_iff.1 ((i.made k' _).1 h)).1
      omega
    have hnd : ¬ dr s.requests.length := fun h => by
      have := i.dropped _ h
      omega
    refine ⟨?_, ?_, ?_, ?_, ?_⟩
    · intro k' j
      dsimp only
      by_cases hkk : k' = k
      · subst hkk
        simp only [if_true, List.mem_singleton, Prod.mk.injEq, true_and, Option.some.injEq]
        constructor
        · rintro rfl
          exact ⟨.inr rfl, hnd⟩
        · rintro ⟨h | h, h2⟩
          · have := (i.current k' j).2 ⟨h, h2⟩
            rw [hk] at this
            cases this
          · exact h.symm
      · simp only [hkk, if_false, List.mem_singleton, Prod.mk.injEq, false_and, or_false]
        exact i.current k' j
    · intro k' j
      dsimp only
      by_cases hj : j < s.requests.length
      · rw [List.getElem?_append_left hj, ← i.made]
        refine ⟨fun h => h.elim id fun h => ?_, .inl⟩
        simp only [List.mem_singleton, Prod.mk.injEq] at h
        omega
      · have hno : ¬ mk k' j := fun h => hj (List.getElem?_eq_some_iff.1 ((i.made k' j).1 h)).1
        rw [List.getElem?_append_right (by omega)]
        simp only [hno, false_or, List.mem_singleton, Prod.mk.injEq]
        by_cases he : j = s.requests.length
        · simp [he, eq_comm]
        · rw [List.getElem?_eq_none (by simp; omega)]
          simp [he]
    · intro j h
      have := i.dropped j h
      simp only [List.length_append, List.length_singleton]
      omega
    · intro j h
      simp only [List.mem_append, List.mem_singleton] at h
      simp only [List.length_append, List.length_singleton]
      rcases h with h | h
      · have := i.pending j h
        omega
      · omega
    · dsimp only
      rw [List.nodup_append]
      refine ⟨i.nodup, by simp, ?_⟩
      intro a ha b hb
      rw [List.mem_singleton.1 hb]
      have := i.pending a ha
      omega
  · exact i.congr (fun k' j => by simp) (fun _ => Iff.rfl)

theorem run_safe {s : State} (i : Safe s) (k : Kind) (hk : s.current k = none) : Safe (run s k).2 := by
  unfold run
  split
  · refine ⟨?_, ?_, i.live⟩
    · intro id h
      obtain ⟨x, h1, h2, h3, k', h4, h5⟩ := i.audio id h
      refine ⟨x, h1, h2, h3, k', h4, ?_⟩
      dsimp only
      rw [if_neg, h5]
      rintro rfl
      rw [hk] at h5
      cases h5
    · intro id h
      obtain ⟨x, h1, h2, h3, k', h4, h5⟩ := i.video id h
      refine ⟨x, h1, h2, h3, k', h4, ?_⟩
      dsimp only
      rw [if_neg, h5]
      rintro rfl
      rw [hk] at h5
      cases h5
  · exact i

/-! ## Running again -/

theorem rerun_config (c : Config) (k : Kind) (x : List (Kind × Nat) × List (Kind × Nat) × State) :
    (rerun c k x).2.2.config = x.2.2.config ∧ (rerun c k x).2.2.closed = x.2.2.closed := by
  have h := cleanup_cleaned x.2.2 k
  unfold rerun
  split
  · dsimp only
    unfold run
    split
    · exact ⟨h.config, h.closed⟩
    · exact ⟨h.config, h.closed⟩
  · exact ⟨rfl, rfl⟩

theorem rerun_reqs {mk : Kind → Nat → Prop} {dr : Nat → Prop} {x : List (Kind × Nat) × List (Kind × Nat) × State}
    {c : Config} {k : Kind}
    (i : Reqs (fun k' j => mk k' j ∨ (k', j) ∈ x.1) (fun j => dr j ∨ ∃ k', (k', j) ∈ x.2.1) x.2.2) :
    Reqs (fun k' j => mk k' j ∨ (k', j) ∈ (rerun c k x).1) (fun j => dr j ∨ ∃ k', (k', j) ∈ (rerun c k x).2.1)
      (rerun c k x).2.2 := by
  unfold rerun
  split
  · refine (run_reqs (cleanup_reqs i k) k (cleanup_cleaned _ _).this).congr ?_ ?_
    · intro k' j
      simp only [List.mem_append, or_assoc]
    · intro j
      simp only [List.mem_append, or_assoc, exists_or]
  · exact i

theorem rerun_safe {x : List (Kind × Nat) × List (Kind × Nat) × State} {c : Config} {k : Kind} (i : Safe x.2.2) :
    Safe (rerun c k x).2.2 := by
  unfold rerun
  split
  · exact run_safe (cleanup_safe i k) k (cleanup_cleaned _ _).this
  · exact i

theorem rerun_other {x : List (Kind × Nat) × List (Kind × Nat) × State} {c : Config} {k k' : Kind} (hk : k' ≠ k) :
    (rerun c k x).2.2.current k' = x.2.2.current k' := by
  unfold rerun
  split
  · dsimp only
    rw [← (cleanup_cleaned x.2.2 k).other k' hk]
    unfold run
    split
    · simp [hk]
    · rfl
  · rfl

theorem rerun_this {x : List (Kind × Nat) × List (Kind × Nat) × State} {c : Config} {k : Kind}
    (h : (x.2.2.current k).isSome = asks k c) :
    ((rerun c k x).2.2.current k).isSome = asks k x.2.2.config := by
  have hc := cleanup_cleaned x.2.2 k
  unfold rerun
  split
  · dsimp only
    unfold run
    rw [hc.config]
    split
    · next ha => simp [ha]
    · next ha => simpa [hc.this] using ha
  · next hn =>
    rw [h]
    exact (asks_same (by simpa using hn)).symm

theorem run_sources (s : State) (k : Kind) : (run s k).2.sources = s.sources := by
  unfold run
  split <;> rfl

theorem rerun_sources {x : List (Kind × Nat) × List (Kind × Nat) × State} {c : Config} {k : Kind} {id : Nat} {y : Source}
    (h : x.2.2.sources[id]? = some y) :
    ∃ z, (rerun c k x).2.2.sources[id]? = some z ∧ z.request = y.request := by
  unfold rerun
  split
  · dsimp only
    rw [run_sources]
    exact cleanup_sources h
  · exact ⟨y, h, rfl⟩

/-- Cleaning up another effect leaves what a request shows alone, if the two do not capture the same. -/
def Apart (k k' : Kind) : Prop := (k = .cameraAudio ∧ k' = .cameraVideo) ∨ (k = .cameraVideo ∧ k' = .cameraAudio)

instance (k k' : Kind) : Decidable (Apart k k') := inferInstanceAs (Decidable (_ ∨ _))

theorem cleanup_kept {s : State} {i : Nat} {a v : Bool} (h : Kept s i a v) (k : Kind)
    (hone : ∀ k' j, k' ≠ k → s.current k = some j → s.current k' = some i → Apart k k') :
    Kept (cleanup s k).2 i a v := by
  have hc := cleanup_cleaned s k
  have hs := fun id x => cleanup_sources (s := s) (k := k) (id := id) (x := x)
  cases hk : s.current k with
  | none =>
    rw [cleanup_eq, hk]
    exact h
  | some j =>
    have other : ∀ k', (cleanup s k).2.current k' = some i → k' ≠ k ∧ s.current k' = some i ∧ Apart k k' := by
      intro k' hk'
      have hne : k' ≠ k := by
        rintro rfl
        rw [hc.this] at hk'
        cases hk'
      rw [hc.other k' hne] at hk'
      exact ⟨hne, hk', hone k' j hne hk hk'⟩
    refine ⟨fun h1 => ?_, fun h1 => ?_, fun h1 => ?_⟩
    · obtain ⟨-, h2, h3⟩ := other _ h1
      rcases h3 with ⟨rfl, h3⟩ | ⟨rfl, h3⟩
      · cases h3
      · have hsh := h.1 h2
        have e : (cleanup s .cameraVideo).2.audio = s.audio := by rw [cleanup_eq, hk]; rfl
        rw [e]
        exact hsh.of hs
    · obtain ⟨-, h2, h3⟩ := other _ h1
      rcases h3 with ⟨rfl, h3⟩ | ⟨rfl, h3⟩
      · have hsh := h.2.1 h2
        have e : (cleanup s .cameraAudio).2.video = s.video := by rw [cleanup_eq, hk]; rfl
        rw [e]
        exact hsh.of hs
      · cases h3
    · obtain ⟨-, -, h3⟩ := other _ h1
      rcases h3 with ⟨-, h3⟩ | ⟨-, h3⟩ <;> cases h3

theorem run_kept {s : State} {i : Nat} {a v : Bool} (h : Kept s i a v) (k : Kind) (hi : i < s.requests.length) :
    Kept (run s k).2 i a v := by
  unfold run
  split
  · have : ∀ k', (if k' = k then some s.requests.length else s.current k') = some i → s.current k' = some i := by
      intro k' h'
      split at h'
      · injection h' with h'
        omega
      · exact h'
    exact ⟨fun h1 => h.1 (this _ h1), fun h1 => h.2.1 (this _ h1), fun h1 => h.2.2 (this _ h1)⟩
  · exact h

/-- No two effects that capture the same have asked. -/
def Pairs (s : State) : Prop := ∀ k k' i j, k' ≠ k → s.current k = some i → s.current k' = some j → Apart k k'

theorem pairs_of_asks {s : State} (h : ∀ k, (s.current k).isSome = asks k s.config) : Pairs s := by
  intro k k' i j hne h1 h2
  have a1 := h k
  have a2 := h k'
  rw [h1] at a1
  rw [h2] at a2
  unfold asks at a1 a2
  cases k <;> cases k' <;> simp_all [Apart]

/-- While the effects run again one after the other: `s` is the state before. -/
structure Mid (s : State) (i : Nat) (a v : Bool) (x : List (Kind × Nat) × List (Kind × Nat) × State) : Prop where
  kept : Kept x.2.2 i a v
  old : ∀ k, x.2.2.current k = some i → s.current k = some i
  len : s.requests.length ≤ x.2.2.requests.length

theorem rerun_requests (c : Config) (k : Kind) (x : List (Kind × Nat) × List (Kind × Nat) × State) :
    x.2.2.requests.length ≤ (rerun c k x).2.2.requests.length := by
  have hc := cleanup_cleaned x.2.2 k
  unfold rerun
  split
  · dsimp only
    unfold run
    split
    · simp [hc.requests]
    · simp [hc.requests]
  · exact Nat.le_refl _

theorem rerun_mid {s : State} {i : Nat} {a v : Bool} {x : List (Kind × Nat) × List (Kind × Nat) × State} {c : Config}
    {k : Kind} (h : Mid s i a v x) (hi : i < s.requests.length) (hp : Pairs s) (hk : x.2.2.current k = s.current k) :
    Mid s i a v (rerun c k x) := by
  have hc := cleanup_cleaned x.2.2 k
  refine ⟨?_, ?_, Nat.le_trans h.len (rerun_requests c k x)⟩
  · unfold rerun
    split
    · dsimp only
      refine run_kept (cleanup_kept h.kept k ?_) k ?_
      · intro k' j hne h1 h2
        rw [hk] at h1
        exact hp k k' j i hne h1 (h.old k' h2)
      · rw [hc.requests]
        exact Nat.lt_of_lt_of_le hi h.len
    · exact h.kept
  · intro k' h'
    by_cases hkk : k' = k
    · subst hkk
      unfold rerun at h'
      split at h'
      · dsimp only at h'
        unfold run at h'
        split at h'
        · simp only [if_true, Option.some.injEq, hc.requests] at h'
          have := h.len
          omega
        · rw [hc.this] at h'
          cases h'
      · exact h.old k' h'
    · rw [rerun_other hkk] at h'
      exact h.old k' h'

/-- Where the tracks come from. -/
def From (P : Nat → Prop) (s : State) : Prop := ∀ (id : Nat) x, s.sources[id]? = some x → P x.request

theorem stop_from {P : Nat → Prop} {s : State} (h : From P s) (m : Option Nat) :
    ∀ (id : Nat) x, (stop s m)[id]? = some x → P x.request := by
  intro id x hx
  obtain ⟨y, h1, -, h3, -⟩ := stop_get hx
  rw [h3]
  exact h id y h1

theorem cleanup_from {P : Nat → Prop} {s : State} (h : From P s) (k : Kind) : From P (cleanup s k).2 := by
  rw [cleanup_eq]
  cases s.current k with
  | none => exact h
  | some j =>
    cases k with
    | cameraAudio => exact stop_from h s.audio
    | cameraVideo => exact stop_from h s.video
    | screen => exact stop_from (s := clearVideo s) (stop_from h s.video) s.audio

theorem rerun_from {P : Nat → Prop} {x : List (Kind × Nat) × List (Kind × Nat) × State} (h : From P x.2.2) (c : Config)
    (k : Kind) : From P (rerun c k x).2.2 := by
  unfold rerun
  split
  · unfold From
    dsimp only
    rw [run_sources]
    exact cleanup_from h k
  · exact h

/-! ## The invariant -/

/-- A request was granted. -/
def Granted (tr : Trace) (i : Nat) (a v : Bool) : Prop := (.granted i a v, .ok) ∈ tr

theorem granted_snoc (tr : Trace) (op : Op) (o : Out) (i : Nat) (a v : Bool) : Granted (tr ++ [(op, o)]) i a v ↔
    Granted tr i a v ∨ (op = .granted i a v ∧ o = .ok) := by
  unfold Granted
  rw [List.mem_append, List.mem_singleton]
  refine or_congr Iff.rfl ⟨fun h => ?_, fun h => ?_⟩
  · injection h with h1 h2
    exact ⟨h1.symm, h2.symm⟩
  · rw [h.1, h.2]

structure Inv (tr : Trace) (s : State) : Prop where
  config : s.config = config tr
  closed : s.closed = true ↔ Closed tr
  reqs : Reqs (Made tr) (Dropped tr) s
  asks : s.closed = false → ∀ k, (s.current k).isSome = asks k s.config
  ended : s.closed = true → ∀ k, s.current k = none
  source : From (fun i => ∃ a v, Granted tr i a v) s
  granted : ∀ i a v, Granted tr i a v → i < s.requests.length ∧ i ∉ s.pending
  safe : ¬ Late tr → Safe s
  kept : ¬ Late tr → ∀ i a v, Granted tr i a v → Kept s i a v

theorem init_inv : Inv [] init := by
  refine ⟨rfl, ?_, ⟨?_, ?_, ?_, ?_, by simp [init]⟩, ?_, ?_, ?_, ?_, fun _ => ⟨?_, ?_, ?_⟩, ?_⟩
  · simp [init, Closed]
  · simp [init, Made]
  · simp [init, Made]
  · simp [Dropped]
  · simp [init]
  · intro _ k
    cases k <;> rfl
  · simp [init]
  · simp [From, init]
  · simp [Granted]
  · simp [init]
  · simp [init]
  · simp [init]
  · simp [Granted]

/-- The state after signals were set. -/
def reran (s : State) (c : Config) : List (Kind × Nat) × List (Kind × Nat) × State :=
  rerun s.config .screen (rerun s.config .cameraVideo (rerun s.config .cameraAudio ([], [], { s with config := c })))

theorem reran_current {s : State} (c : Config) (h : ∀ k, (s.current k).isSome = asks k s.config) (k : Kind) :
    ((reran s c).2.2.current k).isSome = asks k c := by
  unfold reran
  cases k with
  | cameraAudio =>
    rw [rerun_other (by decide), rerun_other (by decide), rerun_this (h .cameraAudio)]
  | cameraVideo =>
    rw [rerun_other (by decide), rerun_this, (rerun_config ..).1]
    rw [rerun_other (by decide)]
    exact h .cameraVideo
  | screen =>
    rw [rerun_this, (rerun_config ..).1, (rerun_config ..).1]
    rw [rerun_other (by decide), rerun_other (by decide)]
    exact h .screen

theorem reran_config (s : State) (c : Config) : (reran s c).2.2.config = c ∧ (reran s c).2.2.closed = s.closed := by
  unfold reran
  simp only [(rerun_config ..).1, (rerun_config ..).2, and_self]

theorem run_pending (s : State) (k : Kind) {i : Nat} (hi : i < s.requests.length) (h : i ∉ s.pending) :
    i < (run s k).2.requests.length ∧ i ∉ (run s k).2.pending := by
  unfold run
  split
  · simp only [List.length_append, List.length_singleton, List.mem_append, List.mem_singleton, not_or]
    exact ⟨by omega, h, by omega⟩
  · exact ⟨hi, h⟩

theorem rerun_pending (c : Config) (k : Kind) {x : List (Kind × Nat) × List (Kind × Nat) × State} {i : Nat}
    (h : i < x.2.2.requests.length ∧ i ∉ x.2.2.pending) :
    i < (rerun c k x).2.2.requests.length ∧ i ∉ (rerun c k x).2.2.pending := by
  have hc := cleanup_cleaned x.2.2 k
  unfold rerun
  split
  · exact run_pending _ k (by rw [hc.requests]; exact h.1) (by rw [hc.pending]; exact h.2)
  · exact h

theorem set_inv {tr : Trace} {s : State} (i : Inv tr s) (c : Config) :
    Inv (tr ++ [(.set c, (step s (.set c)).1)]) (step s (.set c)).2 := by
  cases hcl : s.closed with
  | true =>
    have e : step s (.set c) = (.ok, { s with config := c }) := by simp [step, hcl]
    rw [e]
    have hg : ∀ j a v, Granted (tr ++ [(.set c, .ok)]) j a v ↔ Granted tr j a v := by
      intro j a v
      rw [granted_snoc]
      simp
    have hl : Late (tr ++ [(.set c, .ok)]) ↔ Late tr := by
      rw [late_snoc]
      simp
    refine ⟨by rw [config_snoc], ?_, ?_, ?_, i.ended, ?_, ?_, ?_, ?_⟩
    · rw [closed_snoc]
      simpa using i.closed
    · refine Reqs.congr (mk := Made tr) (dr := Dropped tr) ⟨i.reqs.current, i.reqs.made, i.reqs.dropped, i.reqs.pending, i.reqs.nodup⟩ ?_ ?_
      · intro k j
        rw [made_snoc]
        simp
      · intro j
        rw [dropped_snoc]
        simp
    · intro h
      rw [hcl] at h
      cases h
    · intro id x hx
      simpa only [hg] using i.source id x hx
    · simpa only [hg] using i.granted
    · rw [hl]
      intro h
      have := i.safe h
      exact ⟨this.audio, this.video, this.live⟩
    · rw [hl]
      simp only [hg]
      exact i.kept
  | false =>
    have e : step s (.set c) = (.ran (reran s c).1 (reran s c).2.1, (reran s c).2.2) := by
      simp [step, hcl, reran]
    rw [e]
    have hg : ∀ j a v o, Granted (tr ++ [(.set c, o)]) j a v ↔ Granted tr j a v := by
      intro j a v o
      rw [granted_snoc]
      simp
    have hl : ∀ o, Late (tr ++ [(.set c, o)]) ↔ Late tr := by
      intro o
      rw [late_snoc]
      simp
    have hp := pairs_of_asks (i.asks hcl)
    refine ⟨by rw [config_snoc]; exact (reran_config s c).1, ?_, ?_, ?_, ?_, ?_, ?_, ?_, ?_⟩
    · rw [closed_snoc, (reran_config s c).2]
      simpa using i.closed
    · have h0 : Reqs (fun k' j => Made tr k' j ∨ (k', j) ∈ ([] : List (Kind × Nat)))
          (fun j => Dropped tr j ∨ ∃ k', (k', j) ∈ ([] : List (Kind × Nat))) { s with config := c } :=
        Reqs.congr (mk := Made tr) (dr := Dropped tr)
          ⟨i.reqs.current, i.reqs.made, i.reqs.dropped, i.reqs.pending, i.reqs.nodup⟩ (by simp) (by simp)
      have h1 := rerun_reqs (c := s.config) (k := .screen) (rerun_reqs (c := s.config) (k := .cameraVideo)
        (rerun_reqs (c := s.config) (k := .cameraAudio) (x := ([], [], { s with config := c })) h0))
      refine h1.congr ?_ ?_
      · intro k j
        rw [made_snoc]
        refine or_congr Iff.rfl ⟨?_, fun h => ⟨_, _, rfl, h⟩⟩
        rintro ⟨ms, ds, h, h'⟩
        injection h with h2 h3
        rw [← h2] at h'
        exact h'
      · intro j
        rw [dropped_snoc]
        refine or_congr Iff.rfl ⟨?_, fun ⟨k, h⟩ => ⟨_, _, k, rfl, h⟩⟩
        rintro ⟨ms, ds, k, h, h'⟩
        injection h with h2 h3
        rw [← h3] at h'
        exact ⟨k, h'⟩
    · intro _ k
      rw [(reran_config s c).1]
      exact reran_current c (i.asks hcl) k
    · intro h
      rw [(reran_config s c).2, hcl] at h
      cases h
    · simp only [hg]
      exact rerun_from (rerun_from (rerun_from (x := ([], [], { s with config := c })) i.source _ _) _ _) _ _
    · simp only [hg]
      intro j a v h
      exact rerun_pending _ _ (rerun_pending _ _ (rerun_pending _ _ (x := ([], [], { s with config := c })) (i.granted j a v h)))
    · rw [hl]
      intro h
      have h0 : Safe { s with config := c } := ⟨(i.safe h).audio, (i.safe h).video, (i.safe h).live⟩
      exact rerun_safe (rerun_safe (rerun_safe (x := ([], [], { s with config := c })) h0))
    · rw [hl]
      simp only [hg]
      intro h j a v hj
      have hj' := (i.granted j a v hj).1
      have m0 : Mid s j a v ([], [], { s with config := c }) := ⟨i.kept h j a v hj, fun _ h => h, Nat.le_refl _⟩
      have m1 := rerun_mid (c := s.config) (k := .cameraAudio) m0 hj' hp rfl
      have m2 := rerun_mid (c := s.config) (k := .cameraVideo) m1 hj' hp (by rw [rerun_other (by decide)])
      have m3 := rerun_mid (c := s.config) (k := .screen) m2 hj' hp
        (by rw [rerun_other (by decide), rerun_other (by decide)])
      exact m3.kept

theorem erase_not_mem {l : List Nat} {i j : Nat} (h : j ∉ l) : j ∉ l.erase i := fun h' => h (List.mem_of_mem_erase h')

/-- A request that is settled, but not granted. -/
theorem denied_inv {tr : Trace} {s : State} (i : Inv tr s) (j : Nat) :
    Inv (tr ++ [(.denied j, (step s (.denied j)).1)]) (step s (.denied j)).2 := by
  have key : ∀ o s', (o = .ok ∧ s' = { s with pending := s.pending.erase j }) ∨ (o = .invalid ∧ s' = s) →
      Inv (tr ++ [(.denied j, o)]) s' := by
    intro o s' ho
    have hg : ∀ j' a v, Granted (tr ++ [(.denied j, o)]) j' a v ↔ Granted tr j' a v := by
      intro j' a v
      rw [granted_snoc]
      simp
    have hl : Late (tr ++ [(.denied j, o)]) ↔ Late tr := by
      rw [late_snoc]
      simp
    have hc : Closed (tr ++ [(.denied j, o)]) ↔ Closed tr := by
      rw [closed_snoc]
      simp
    have hm : ∀ k j', Made (tr ++ [(.denied j, o)]) k j' ↔ Made tr k j' := by
      intro k j'
      rw [made_snoc]
      rcases ho with ⟨rfl, -⟩ | ⟨rfl, -⟩ <;> simp
    have hd : ∀ j', Dropped (tr ++ [(.denied j, o)]) j' ↔ Dropped tr j' := by
      intro j'
      rw [dropped_snoc]
      rcases ho with ⟨rfl, -⟩ | ⟨rfl, -⟩ <;> simp
    rcases ho with ⟨rfl, rfl⟩ | ⟨rfl, rfl⟩
    · refine ⟨by rw [config_snoc]; exact i.config, by rw [hc]; exact i.closed, ?_, i.asks, i.ended,
        by simp only [hg]; exact i.source, ?_, ?_, ?_⟩
      · refine Reqs.congr (mk := Made tr) (dr := Dropped tr) ⟨i.reqs.current, i.reqs.made, i.reqs.dropped, ?_, ?_⟩ hm hd
        · exact fun a ha => i.reqs.pending a (List.mem_of_mem_erase ha)
        · exact i.reqs.nodup.erase _
      · simp only [hg]
        exact fun a b c h => ⟨(i.granted a b c h).1, erase_not_mem (i.granted a b c h).2⟩
      · rw [hl]
        exact fun h => ⟨(i.safe h).audio, (i.safe h).video, (i.safe h).live⟩
      · rw [hl]
        simp only [hg]
        exact i.kept
    · exact ⟨by rw [config_snoc]; exact i.config, by rw [hc]; exact i.closed, i.reqs.congr hm hd, i.asks, i.ended,
        by simp only [hg]; exact i.source, by simp only [hg]; exact i.granted, by rw [hl]; exact i.safe,
        by rw [hl]; simp only [hg]; exact i.kept⟩
  unfold step
  dsimp only
  split
  · exact key _ _ (.inl ⟨rfl, rfl⟩)
  · exact key _ _ (.inr ⟨rfl, rfl⟩)

/-! ### Granting -/

theorem grant_fields (s : State) (i : Nat) (k : Kind) (a v : Bool) :
    (grant s i k a v).config = s.config ∧ (grant s i k a v).requests = s.requests ∧
    (grant s i k a v).pending = s.pending.erase i ∧ (grant s i k a v).current = s.current ∧
    (grant s i k a v).closed = s.closed := by
  cases k <;> exact ⟨rfl, rfl, rfl, rfl, rfl⟩

theorem get_snoc {α : Type} {l m : List α} {n : Nat} {x : α} (h : (l ++ m)[n]? = some x) :
    l[n]? = some x ∨ (l.length ≤ n ∧ m[n - l.length]? = some x) := by
  by_cases hn : n < l.length
  · rw [List.getElem?_append_left hn] at h
    exact .inl h
  · rw [List.getElem?_append_right (by omega)] at h
    exact .inr ⟨by omega, h⟩

theorem get_keep {α : Type} {l m : List α} {n : Nat} {x : α} (h : l[n]? = some x) : (l ++ m)[n]? = some x := by
  rw [List.getElem?_append_left (List.getElem?_eq_some_iff.1 h).1, h]

theorem get_new {α : Type} {l : List α} {x : α} : (l ++ [x])[l.length]? = some x := by
  simp

theorem grant_keep {s : State} {i : Nat} {k : Kind} {a v : Bool} {id : Nat} {x : Source} (h : s.sources[id]? = some x) :
    (grant s i k a v).sources[id]? = some x := by
  cases k
  · exact get_keep h
  · exact get_keep h
  · exact get_keep (get_keep h)

theorem grant_from {P : Nat → Prop} {s : State} {i : Nat} {k : Kind} {a v : Bool} (h : From P s) (hi : P i) :
    From P (grant s i k a v) := by
  intro id x hx
  cases k with
  | cameraAudio =>
    rcases get_snoc hx with h1 | ⟨-, h1⟩
    · exact h id x h1
    · have := List.mem_singleton.1 (List.mem_of_getElem? h1)
      subst this
      exact hi
  | cameraVideo =>
    rcases get_snoc hx with h1 | ⟨-, h1⟩
    · exact h id x h1
    · have := List.mem_singleton.1 (List.mem_of_getElem? h1)
      subst this
      exact hi
  | screen =>
    rcases get_snoc hx with h1 | ⟨-, h1⟩
    · rcases get_snoc h1 with h1 | ⟨-, h1⟩
      · exact h id x h1
      · cases v
        · simp at h1
        · have := List.mem_singleton.1 (List.mem_of_getElem? h1)
          subst this
          exact hi
    · cases a
      · simp at h1
      · have := List.mem_singleton.1 (List.mem_of_getElem? h1)
        subst this
        exact hi

/-- A request of an effect that was not cleaned up is granted: nothing is captured yet for this effect. -/
theorem grant_safe {s : State} {i : Nat} {k : Kind} {a v : Bool} (h : Safe s) (hc : s.current k = some i)
    (ha : k ≠ .cameraVideo → s.audio = none) (hv : k ≠ .cameraAudio → s.video = none) :
    Safe (grant s i k a v) := by
  cases k with
  | cameraAudio =>
    refine ⟨?_, ?_, ?_⟩
    · rintro id h1
      have : id = s.sources.length := (Option.some.inj h1).symm
      subst this
      exact ⟨_, get_new, rfl, rfl, .cameraAudio, by decide, hc⟩
    · intro id h1
      obtain ⟨x, h2, h3⟩ := h.video id h1
      exact ⟨x, get_keep h2, h3⟩
    · intro id x hx hs
      rcases get_snoc hx with h1 | ⟨h0, h1⟩
      · have := h.live id x h1 hs
        cases hxv : x.video with
        | true => rw [hxv] at this; exact this
        | false =>
          rw [hxv] at this
          rw [ha (by decide)] at this
          cases this
      · have h2 := (List.getElem?_eq_some_iff.1 h1).1
        have := List.mem_singleton.1 (List.mem_of_getElem? h1)
        subst this
        have : id = s.sources.length := by simp at h2; omega
        subst this
        rfl
  | cameraVideo =>
    refine ⟨?_, ?_, ?_⟩
    · intro id h1
      obtain ⟨x, h2, h3⟩ := h.audio id h1
      exact ⟨x, get_keep h2, h3⟩
    · rintro id h1
      have : id = s.sources.length := (Option.some.inj h1).symm
      subst this
      exact ⟨_, get_new, rfl, rfl, .cameraVideo, by decide, hc⟩
    · intro id x hx hs
      rcases get_snoc hx with h1 | ⟨h0, h1⟩
      · have := h.live id x h1 hs
        cases hxv : x.video with
        | false => rw [hxv] at this; exact this
        | true =>
          rw [hxv] at this
          rw [hv (by decide)] at this
          cases this
      · have h2 := (List.getElem?_eq_some_iff.1 h1).1
        have := List.mem_singleton.1 (List.mem_of_getElem? h1)
        subst this
        have : id = s.sources.length := by simp at h2; omega
        subst this
        rfl
  | screen =>
    have ha := ha (by decide)
    have hv := hv (by decide)
    have old : ∀ (id : Nat) x, s.sources[id]? = some x → x.stopped = false → False := by
      intro id x h1 h2
      have := h.live id x h1 h2
      rw [ha, hv] at this
      split at this <;> cases this
    refine ⟨?_, ?_, ?_⟩
    · rintro id h1
      cases a with
      | false => cases h1
      | true =>
        refine ⟨⟨false, i, false⟩, ?_, rfl, rfl, .screen, by decide, hc⟩
        cases v
        · have : id = s.sources.length := (Option.some.inj h1).symm
          subst this
          simp [grant]
        · have : id = s.sources.length + 1 := (Option.some.inj h1).symm
          subst this
          simp [grant]
    · rintro id h1
      cases v with
      | false => cases h1
      | true =>
        refine ⟨⟨true, i, false⟩, ?_, rfl, rfl, .screen, by decide, hc⟩
        have : id = s.sources.length := (Option.some.inj h1).symm
        subst this
        cases a <;> simp [grant]
    · intro id x hx hs
      rcases get_snoc hx with h1 | ⟨h0, h1⟩
      · rcases get_snoc h1 with h1 | ⟨h0, h1⟩
        · exact (old id x h1 hs).elim
        · cases v
          · simp at h1
          · have h2 := (List.getElem?_eq_some_iff.1 h1).1
            have := List.mem_singleton.1 (List.mem_of_getElem? h1)
            subst this
            have : id = s.sources.length := by simp at h2; omega
            subst this
            rfl
      · cases a
        · simp at h1
        · have h2 := (List.getElem?_eq_some_iff.1 h1).1
          have := List.mem_singleton.1 (List.mem_of_getElem? h1)
          subst this
          cases v
          · have : id = s.sources.length := by simp at h0 h2; omega
            subst this
            rfl
          · have : id = s.sources.length + 1 := by simp at h0 h2; omega
            subst this
            rfl

/-- What is granted is shown. -/
theorem grant_shown {s : State} {i : Nat} {k : Kind} {a v : Bool} :
    (k = .cameraAudio → Shown (grant s i k a v) (grant s i k a v).audio i) ∧
    (k = .cameraVideo → Shown (grant s i k a v) (grant s i k a v).video i) ∧
    (k = .screen → (a = true → Shown (grant s i k a v) (grant s i k a v).audio i) ∧
      (v = true → Shown (grant s i k a v) (grant s i k a v).video i)) := by
  refine ⟨?_, ?_, ?_⟩
  · rintro rfl
    exact ⟨_, _, rfl, get_new, rfl⟩
  · rintro rfl
    exact ⟨_, _, rfl, get_new, rfl⟩
  · rintro rfl
    constructor
    · rintro rfl
      cases v
      · exact ⟨_, ⟨false, i, false⟩, rfl, by simp [grant], rfl⟩
      · exact ⟨_, ⟨false, i, false⟩, rfl, by simp [grant], rfl⟩
    · rintro rfl
      cases a
      · exact ⟨_, ⟨true, i, false⟩, rfl, by simp [grant], rfl⟩
      · exact ⟨_, ⟨true, i, false⟩, rfl, by simp [grant], rfl⟩

/-- Granting a request leaves alone what another effect shows. -/
theorem grant_kept {s : State} {i j : Nat} {k : Kind} {a v b w : Bool} (h : Kept s j b w) (hc : s.current k = some i)
    (hp : Pairs s) (hij : j ≠ i) : Kept (grant s i k a v) j b w := by
  have hk : ∀ k', s.current k' = some j → Apart k k' := by
    intro k' h'
    refine hp k k' i j ?_ hc h'
    rintro rfl
    rw [hc] at h'
    exact hij (Option.some.inj h').symm
  have hs := fun id x h => (⟨x, grant_keep (i := i) (k := k) (a := a) (v := v) h, rfl⟩ :
    ∃ y, (grant s i k a v).sources[id]? = some y ∧ y.request = x.request)
  have hcur := (grant_fields s i k a v).2.2.2.1
  refine ⟨fun h1 => ?_, fun h1 => ?_, fun h1 => ?_⟩
  · rw [hcur] at h1
    rcases hk _ h1 with ⟨-, h2⟩ | ⟨rfl, -⟩
    · cases h2
    · exact (h.1 h1).of hs
  · rw [hcur] at h1
    rcases hk _ h1 with ⟨rfl, -⟩ | ⟨-, h2⟩
    · exact (h.2.1 h1).of hs
    · cases h2
  · rw [hcur] at h1
    rcases hk _ h1 with ⟨-, h2⟩ | ⟨-, h2⟩ <;> cases h2

/-- Nothing is in the signals for an effect whose request is pending. -/
theorem empty_of_pending {tr : Trace} {s : State} (i : Inv tr s) (hl : ¬ Late tr) {j : Nat} {k : Kind}
    (hj : j ∈ s.pending) (hk : s.current k = some j) :
    (k ≠ .cameraVideo → s.audio = none) ∧ (k ≠ .cameraAudio → s.video = none) := by
  have hcl : s.closed = false := by
    cases hcl : s.closed with
    | false => rfl
    | true => rw [i.ended hcl k] at hk; cases hk
  have hp := pairs_of_asks (i.asks hcl)
  have hsafe := i.safe hl
  have hno : ∀ (id : Nat) x, s.sources[id]? = some x → x.request ≠ j := by
    rintro id x hx rfl
    obtain ⟨a, v, hg⟩ := i.source id x hx
    exact (i.granted _ a v hg).2 hj
  constructor
  · intro hne
    cases ha : s.audio with
    | none => rfl
    | some id =>
      exfalso
      obtain ⟨x, h1, -, -, k', h4, h5⟩ := hsafe.audio id ha
      by_cases hkk : k' = k
      · subst hkk
        rw [hk] at h5
        exact hno id x h1 (Option.some.inj h5).symm
      · rcases hp k k' _ _ hkk hk h5 with ⟨-, h⟩ | ⟨h, -⟩
        · exact h4 h
        · exact hne h
  · intro hne
    cases ha : s.video with
    | none => rfl
    | some id =>
      exfalso
      obtain ⟨x, h1, -, -, k', h4, h5⟩ := hsafe.video id ha
      by_cases hkk : k' = k
      · subst hkk
        rw [hk] at h5
        exact hno id x h1 (Option.some.inj h5).symm
      · rcases hp k k' _ _ hkk hk h5 with ⟨h, -⟩ | ⟨-, h⟩
        · exact hne h
        · exact h4 h

theorem granted_inv {tr : Trace} {s : State} (i : Inv tr s) (j : Nat) (a v : Bool) :
    Inv (tr ++ [(.granted j a v, (step s (.granted j a v)).1)]) (step s (.granted j a v)).2 := by
  have hc : ∀ o, Closed (tr ++ [(.granted j a v, o)]) ↔ Closed tr := by
    intro o
    rw [closed_snoc]
    simp
  have hm : ∀ o, (∀ ms ds, o ≠ .ran ms ds) → ∀ k j', Made (tr ++ [(.granted j a v, o)]) k j' ↔ Made tr k j' := by
    intro o ho k j'
    rw [made_snoc]
    exact or_iff_left fun ⟨ms, ds, h, _⟩ => ho ms ds h
  have hd : ∀ o, (∀ ms ds, o ≠ .ran ms ds) → ∀ j', Dropped (tr ++ [(.granted j a v, o)]) j' ↔ Dropped tr j' := by
    intro o ho j'
    rw [dropped_snoc]
    exact or_iff_left fun ⟨ms, ds, _, h, _⟩ => ho ms ds h
  have bad : Inv (tr ++ [(.granted j a v, .invalid)]) s := by
    have hg : ∀ j' b w, Granted (tr ++ [(.granted j a v, .invalid)]) j' b w ↔ Granted tr j' b w := by
      intro j' b w
      rw [granted_snoc]
      simp
    have hl : Late (tr ++ [(.granted j a v, .invalid)]) ↔ Late tr := by
      rw [late_snoc]
      simp
    exact ⟨by rw [config_snoc]; exact i.config, by rw [hc]; exact i.closed,
      i.reqs.congr (hm _ (by simp)) (hd _ (by simp)), i.asks, i.ended,
      by simp only [hg]; exact i.source, by simp only [hg]; exact i.granted, by rw [hl]; exact i.safe,
      by rw [hl]; simp only [hg]; exact i.kept⟩
  unfold step
  dsimp only
  cases hr : s.requests[j]? with
  | none => exact bad
  | some k =>
    dsimp only
    split
    · next hj =>
      obtain ⟨f1, f2, f3, f4, f5⟩ := grant_fields s j k a v
      have hg : ∀ j' b w, Granted (tr ++ [(.granted j a v, .ok)]) j' b w ↔
          Granted tr j' b w ∨ (j' = j ∧ b = a ∧ w = v) := by
        intro j' b w
        rw [granted_snoc]
        simp only [Op.granted.injEq, and_true]
        refine or_congr Iff.rfl ⟨fun ⟨x, y, z⟩ => ⟨x.symm, y.symm, z.symm⟩, fun ⟨x, y, z⟩ => ⟨x.symm, y.symm, z.symm⟩⟩
      have hl : ¬ Late (tr ++ [(.granted j a v, .ok)]) → ¬ Late tr ∧ ¬ Dropped tr j := by
        rw [late_snoc, not_or]
        exact fun ⟨h1, h2⟩ => ⟨h1, fun h => h2 ⟨j, a, v, rfl, rfl, h⟩⟩
      have hcur : ¬ Dropped tr j → s.current k = some j := fun h => (i.reqs.current k j).2 ⟨(i.reqs.made k j).2 hr, h⟩
      refine ⟨by rw [config_snoc, f1]; exact i.config, by rw [hc, f5]; exact i.closed, ?_, ?_, ?_, ?_, ?_, ?_, ?_⟩
      · refine Reqs.congr (mk := Made tr) (dr := Dropped tr) ⟨?_, ?_, ?_, ?_, ?_⟩ (hm _ (by simp)) (hd _ (by simp))
        · rw [f4]; exact i.reqs.current
        · rw [f2]; exact i.reqs.made
        · rw [f2]; exact i.reqs.dropped
        · rw [f2, f3]
          exact fun x hx => i.reqs.pending x (List.mem_of_mem_erase hx)
        · rw [f3]
          exact i.reqs.nodup.erase _
      · rw [f1, f4, f5]; exact i.asks
      · rw [f4, f5]; exact i.ended
      · refine grant_from ?_ ⟨a, v, (hg ..).2 (.inr ⟨rfl, rfl, rfl⟩)⟩
        intro id x hx
        obtain ⟨b, w, h⟩ := i.source id x hx
        exact ⟨b, w, (hg ..).2 (.inl h)⟩
      · intro j' b w h
        rw [f2, f3]
        rcases (hg ..).1 h with h | ⟨rfl, -, -⟩
        · exact ⟨(i.granted j' b w h).1, erase_not_mem (i.granted j' b w h).2⟩
        · exact ⟨i.reqs.pending _ hj, fun h => ((i.reqs.nodup.mem_erase_iff).1 h).1 rfl⟩
      · intro h
        obtain ⟨h1, h2⟩ := hl h
        have he := empty_of_pending i h1 hj (hcur h2)
        exact grant_safe (i.safe h1) (hcur h2) he.1 he.2
      · intro h j' b w hj'
        obtain ⟨h1, h2⟩ := hl h
        have hk := hcur h2
        have hcl : s.closed = false := by
          cases hcl : s.closed with
          | false => rfl
          | true => rw [i.ended hcl k] at hk; cases hk
        rcases (hg ..).1 hj' with hold | ⟨rfl, rfl, rfl⟩
        · refine grant_kept (i.kept h1 j' b w hold) hk (pairs_of_asks (i.asks hcl)) ?_
          intro he
          rw [he] at hold
          exact (i.granted _ b w hold).2 hj
        · have only : ∀ k', s.current k' = some j' → k = k' := by
            intro k' h'
            have := ((i.reqs.made k' j').1 ((i.reqs.current k' j').1 h').1)
            rw [hr] at this
            exact Option.some.inj this
          have hsh := grant_shown (s := s) (i := j') (k := k) (a := b) (v := w)
          unfold Kept
          rw [f4]
          exact ⟨fun h => hsh.1 (only _ h), fun h => hsh.2.1 (only _ h), fun h => hsh.2.2 (only _ h)⟩
    · exact bad

/-! ### Closing -/

theorem cleanup_none {s : State} (k : Kind) {k' : Kind} (h : s.current k' = none) : (cleanup s k).2.current k' = none := by
  have c := cleanup_cleaned s k
  by_cases hk : k' = k
  · rw [hk, c.this]
  · rw [c.other k' hk, h]

theorem close_inv {tr : Trace} {s : State} (i : Inv tr s) :
    Inv (tr ++ [(.close, (step s .close).1)]) (step s .close).2 := by
  have hg : ∀ o j' b w, Granted (tr ++ [(.close, o)]) j' b w ↔ Granted tr j' b w := by
    intro o j' b w
    rw [granted_snoc]
    simp
  have hl : ∀ o, Late (tr ++ [(.close, o)]) ↔ Late tr := by
    intro o
    rw [late_snoc]
    simp
  cases hcl : s.closed with
  | true =>
    have e : step s .close = (.invalid, s) := by simp [step, hcl]
    rw [e]
    refine ⟨by rw [config_snoc]; exact i.config, ?_, i.reqs.congr ?_ ?_, i.asks, i.ended,
      by simp only [hg]; exact i.source, by simp only [hg]; exact i.granted, by rw [hl]; exact i.safe,
      by rw [hl]; simp only [hg]; exact i.kept⟩
    · rw [closed_snoc]
      simpa using i.closed
    · intro k j
      rw [made_snoc]
      simp
    · intro j
      rw [dropped_snoc]
      simp
  | false =>
    let a := cleanup s .screen
    let b := cleanup a.2 .cameraVideo
    let c := cleanup b.2 .cameraAudio
    have e : step s .close = (.ran [] (a.1 ++ b.1 ++ c.1), { c.2 with closed := true }) := by simp [step, hcl, a, b, c]
    rw [e]
    have ca := cleanup_cleaned s .screen
    have cb := cleanup_cleaned a.2 .cameraVideo
    have cc := cleanup_cleaned b.2 .cameraAudio
    have hnone : ∀ k, c.2.current k = none := by
      intro k
      cases k with
      | cameraAudio => exact cc.this
      | cameraVideo => exact cleanup_none _ cb.this
      | screen => exact cleanup_none _ (cleanup_none _ ca.this)
    have hreq : c.2.requests = s.requests := by rw [cc.requests, cb.requests, ca.requests]
    have hpend : c.2.pending = s.pending := by rw [cc.pending, cb.pending, ca.pending]
    refine ⟨?_, ?_, ?_, fun h => (by cases h), fun _ => hnone, ?_, ?_, ?_, ?_⟩
    · rw [config_snoc]
      exact (cc.config.trans (cb.config.trans ca.config)).trans i.config
    · rw [closed_snoc]
      exact ⟨fun _ => .inr ⟨rfl, _, _, rfl⟩, fun _ => rfl⟩
    · have r := cleanup_reqs (cleanup_reqs (cleanup_reqs i.reqs .screen) .cameraVideo) .cameraAudio
      have r' : Reqs _ _ { c.2 with closed := true } := ⟨r.current, r.made, r.dropped, r.pending, r.nodup⟩
      refine r'.congr ?_ ?_
      · intro k j
        rw [made_snoc]
        refine or_iff_left ?_
        rintro ⟨ms, ds, h, h'⟩
        injection h with h1 h2
        rw [← h1] at h'
        cases h'
      · intro j
        rw [dropped_snoc]
        have : (∃ ms ds k, Out.ran [] (a.1 ++ b.1 ++ c.1) = .ran ms ds ∧ (k, j) ∈ ds) ↔
            ∃ k, (k, j) ∈ a.1 ++ b.1 ++ c.1 := by
          constructor
          · rintro ⟨ms, ds, k, h, h'⟩
            injection h with h1 h2
            rw [← h2] at h'
            exact ⟨k, h'⟩
          · rintro ⟨k, h⟩
            exact ⟨_, _, k, rfl, h⟩
        rw [this]
        simp only [List.mem_append, or_assoc, exists_or]
        exact Iff.rfl
    · simp only [hg]
      exact cleanup_from (cleanup_from (cleanup_from i.source .screen) .cameraVideo) .cameraAudio
    · simp only [hg]
      intro j b w h
      have := i.granted j b w h
      rw [← hreq, ← hpend] at this
      exact this
    · rw [hl]
      intro h
      have sf := cleanup_safe (cleanup_safe (cleanup_safe (i.safe h) .screen) .cameraVideo) .cameraAudio
      exact ⟨sf.audio, sf.video, sf.live⟩
    · intro _ j b w _
      exact ⟨fun h => (by rw [show _ = none from hnone _] at h; cases h),
        fun h => (by rw [show _ = none from hnone _] at h; cases h),
        fun h => (by rw [show _ = none from hnone _] at h; cases h)⟩

theorem step_inv {tr : Trace} {s : State} (i : Inv tr s) (op : Op) : Inv (tr ++ [(op, (step s op).1)]) (step s op).2 := by
  cases op with
  | set c => exact set_inv i c
  | granted j a v => exact granted_inv i j a v
  | denied j => exact denied_inv i j
  | close => exact close_inv i

theorem inv_reach {tr : Trace} {s : State} (h : machine.Reach tr s) : Inv tr s :=
  Machine.Reach.induct (M := machine) (P := fun tr s => Inv tr s) init_inv (fun _ _ op _ ih => step_inv ih op) h

end Verif.Js.Media
