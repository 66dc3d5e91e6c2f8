import Verif.Model.BroadcastLemmas

/-!
# Lemmas about the tracks that are served by a producer, and about the clean-up tasks
-/

set_option autoImplicit false

namespace Verif.Model.Broadcast

open Verif Verif.Session Verif.Model.Broadcast.Spec

theorem holders_snoc (tr : Trace) (e : Op × Out) (t : Nat) :
    holders (tr ++ [e]) t = holding t (holders tr t) e := by
  simp [holders, List.foldl_append]

theorem lastClose_snoc (tr : Trace) (e : Op × Out) (t : Nat) :
    lastClose (tr ++ [e]) t = (lastClose [e] t).or (lastClose tr t) := by
  unfold lastClose
  rw [List.filterMap_append, List.getLast?_append]

theorem watches_snoc (tr : Trace) (e : Op × Out) (t : Ref) :
    watches (tr ++ [e]) t = watches tr t + watches [e] t := by
  simp [watches]

theorem ends_snoc (tr : Trace) (e : Op × Out) (t : Ref) :
    ends (tr ++ [e]) t = ends tr t + ends [e] t := by
  simp [ends]

/-! ## Clean-up tasks -/

theorem count_put_none {s : Slots Nat} {i a : Nat} (h : s.get i = some a) (t : Nat) :
    List.count (some t) (s.put i none) + (if a = t then 1 else 0) = List.count (some t) s := by
  have hlt := Slots.get_some_lt h
  unfold Slots.put
  have hs : s[i] = some a := by
    unfold Slots.get at h
    rw [List.getElem?_eq_getElem hlt] at h
    simpa using h
  rw [List.count_set hlt]
  have hpos : a = t → 0 < List.count (some t) s := by
    rintro rfl
    rw [List.count_pos_iff]
    exact hs ▸ List.getElem_mem hlt
  by_cases ha : a = t
  · have := hpos ha
    simp [hs, ha]
    omega
  · simp [hs, ha]

theorem count_add (s : Slots Nat) (a t : Nat) :
    List.count (some t) (s.add a) = List.count (some t) s + (if a = t then 1 else 0) := by
  unfold Slots.add
  rw [List.count_append]
  by_cases ha : a = t <;> simp [ha]

/-- The number of clean-up tasks that are running for a track. -/
def State.running (s : State) (t : Ref) : Nat :=
  if t ∈ s.refs then List.count (some t.id) s.tasks else 0

/-- The clean-up tasks agree with the history. -/
structure Tasks (tr : Trace) (s : State) : Prop where
  count : ∀ t : Ref, s.running t + ends tr t = watches tr t
  lt : ∀ t, some t ∈ s.tasks → t < s.tracks.length

theorem running_of_tasks {s s' : State} (h1 : s'.refs = s.refs) (h2 : s'.tasks = s.tasks) (t : Ref) :
    s'.running t = s.running t := by
  unfold State.running
  rw [h1, h2]

theorem count_fresh {tr : Trace} {s : State} (h : Tasks tr s) {t : Nat} (ht : s.tracks.length ≤ t) :
    List.count (some t) s.tasks = 0 := by
  rw [List.count_eq_zero]
  intro hm
  exact absurd (h.lt t hm) (by omega)

/-- A new track. -/
theorem running_grow {tr : Trace} {s s' : State} (h : Tasks tr s) {k : Trk}
    (h1 : s'.tracks = s.tracks ++ [k]) (h2 : s'.tasks = s.tasks) (t : Ref) :
    s'.running t = s.running t := by
  unfold State.running
  rw [refs_append h1, h2]
  by_cases hm : t ∈ s.refs
  · rw [if_pos hm, if_pos (List.mem_append_left _ hm)]
  · rw [if_neg hm]
    split
    · rename_i hx
      rcases List.mem_append.1 hx with hx | hx
      · exact absurd hx hm
      · rw [List.mem_singleton] at hx
        subst hx
        exact count_fresh h (Nat.le_refl _)
    · rfl

/-- A task is added. -/
theorem running_add {s s' : State} {u : Ref} (hu : u ∈ s.refs) (h1 : s'.refs = s.refs)
    (h2 : s'.tasks = s.tasks.add u.id) (t : Ref) :
    s'.running t = s.running t + (if u = t then 1 else 0) := by
  unfold State.running
  rw [h1, h2, count_add]
  by_cases hm : t ∈ s.refs
  · rw [if_pos hm, if_pos hm]
    congr 1
    by_cases hut : u = t
    · rw [if_pos hut, if_pos (by rw [hut])]
    · rw [if_neg hut, if_neg (fun hx => hut (refs_inj hu hm hx))]
  · rw [if_neg hm, if_neg hm, if_neg]
    rintro rfl
    exact hm hu

/-- A task ends. -/
theorem running_end {s s' : State} {u : Ref} {k : Nat} (hu : u ∈ s.refs) (h1 : s'.refs = s.refs)
    (hk : s.tasks.get k = some u.id) (h2 : s'.tasks = s.tasks.put k none) (t : Ref) :
    s'.running t + (if u = t then 1 else 0) = s.running t := by
  unfold State.running
  rw [h1, h2]
  by_cases hm : t ∈ s.refs
  · rw [if_pos hm, if_pos hm, ← count_put_none hk]
    congr 1
    by_cases hut : u = t
    · rw [if_pos hut, if_pos (by rw [hut])]
    · rw [if_neg hut, if_neg (fun hx => hut (refs_inj hu hm hx))]
  · rw [if_neg hm, if_neg hm, if_neg]
    rintro rfl
    exact hm hu

theorem mem_of_get {s : Slots Nat} {k t : Nat} (h : s.get k = some t) : some t ∈ s := by
  have hlt := Slots.get_some_lt h
  unfold Slots.get at h
  rw [List.getElem?_eq_getElem hlt] at h
  have : s[k] = some t := by simpa using h
  exact this ▸ List.getElem_mem hlt

theorem get_of_mem {s : Slots Nat} {t : Nat} (h : some t ∈ s) : ∃ k, s.get k = some t := by
  obtain ⟨k, hk, e⟩ := List.mem_iff_getElem.1 h
  refine ⟨k, ?_⟩
  unfold Slots.get
  rw [List.getElem?_eq_getElem hk, e]
  rfl

theorem Tasks.of {tr : Trace} {s s' : State} {e : Op × Out} (h : Tasks tr s)
    (hc : ∀ t, s'.running t + ends [e] t = s.running t + watches [e] t)
    (hl : ∀ t, some t ∈ s'.tasks → t < s'.tracks.length) : Tasks (tr ++ [e]) s' := by
  refine ⟨fun t => ?_, hl⟩
  rw [ends_snoc, watches_snoc]
  have := h.count t
  have := hc t
  omega

theorem Tasks.step {tr : Trace} {s : State} (op : Op) (hT : Trks tr s) (h : Tasks tr s) :
    Tasks (tr ++ [(op, (step s op).1)]) (step s op).2 := by
  have quiet : ∀ (e : Op × Out) (s' : State), s'.refs = s.refs → s'.tasks = s.tasks →
      (∀ t, ends [e] t = 0) → (∀ t, watches [e] t = 0) → Tasks (tr ++ [e]) s' := by
    intro e s' h1 h2 h3 h4
    refine h.of (fun t => ?_) (fun t ht => ?_)
    · rw [running_of_tasks h1 h2, h3, h4]
    · rw [length_of_refs h1]; exact h.lt t (h2 ▸ ht)
  have grow : ∀ (e : Op × Out) (s' : State) (k : Trk), s'.tracks = s.tracks ++ [k] →
      s'.tasks = s.tasks → (∀ t, ends [e] t = 0) → (∀ t, watches [e] t = 0) →
      Tasks (tr ++ [e]) s' := by
    intro e s' k h1 h2 h3 h4
    refine h.of (fun t => ?_) (fun t ht => ?_)
    · rw [running_grow h h1 h2, h3, h4]
    · rw [h1, List.length_append]
      have := h.lt t (h2 ▸ ht)
      omega
  have added : ∀ (e : Op × Out) (s₁ s' : State) (u : Ref), (∀ t, s₁.running t = s.running t) →
      s₁.tasks = s.tasks → s.tracks.length ≤ s₁.tracks.length → u ∈ s₁.refs → s'.refs = s₁.refs →
      s'.tasks = s.tasks.add u.id → (∀ t, ends [e] t = 0) →
      (∀ t, watches [e] t = if u = t then 1 else 0) → Tasks (tr ++ [e]) s' := by
    intro e s₁ s' u h0 h1 h2 h3 h4 h5 h6 h7
    refine h.of (fun t => ?_) (fun t hx => ?_)
    · rw [running_add h3 h4 (by rw [h5, h1]), h6, h7, h0]
      omega
    · rw [length_of_refs h4]
      rw [h5] at hx
      rcases List.mem_append.1 hx with hx | hx
      · have := h.lt t hx; omega
      · have := (mem_refs.1 h3).1
        simp at hx
        omega
  cases op with
  | newTrack name => exact grow _ _ _ rfl rfl (fun _ => rfl) (fun _ => rfl)
  | cloneTrack t =>
    simp only [Broadcast.step]
    split
    · exact quiet _ _ (refs_setHeld _ _ _) rfl (fun _ => rfl) (fun _ => rfl)
    · exact quiet _ _ rfl rfl (fun _ => rfl) (fun _ => rfl)
  | dropTrack t =>
    simp only [Broadcast.step]
    split
    · exact quiet _ _ (refs_setHeld _ _ _) rfl (fun _ => rfl) (fun _ => rfl)
    · exact quiet _ _ rfl rfl (fun _ => rfl) (fun _ => rfl)
  | finishTrack t =>
    simp only [Broadcast.step]
    split
    · exact quiet _ _ ((refs_setHeld _ _ _).trans (refs_setClosed _ _ _)) rfl (fun _ => rfl)
        (fun _ => rfl)
    · exact quiet _ _ rfl rfl (fun _ => rfl) (fun _ => rfl)
  | abortTrack t e =>
    simp only [Broadcast.step]
    split
    · exact quiet _ _ ((refs_setHeld _ _ _).trans (refs_setClosed _ _ _)) rfl (fun _ => rfl)
        (fun _ => rfl)
    · exact quiet _ _ rfl rfl (fun _ => rfl) (fun _ => rfl)
  | request p =>
    simp only [Broadcast.step]
    split
    · split
      · rename_i t q hq
        have ht := hT.valid t (by rw [hq]; exact List.mem_cons_self)
        have hu : (⟨s.name t, t⟩ : Ref) ∈ s.refs := ref_mem ht
        refine added _ s _ _ (fun _ => rfl) rfl (Nat.le_refl _) hu (refs_setHeld s t _) rfl
          (fun _ => rfl) (fun u => ?_)
        by_cases hut : (⟨s.name t, t⟩ : Ref) = u <;> simp [watches, hut]
      · split <;> exact quiet _ _ rfl rfl (fun _ => rfl) (fun _ => rfl)
    · exact quiet _ _ rfl rfl (fun _ => rfl) (fun _ => rfl)
  | create p name =>
    simp only [Broadcast.step]
    split
    · refine added _ { s with tracks := s.tracks ++ [⟨name, none, 1⟩] } _ ⟨name, s.tracks.length⟩
        (running_grow h rfl rfl) rfl (by simp) ?_ rfl rfl (fun _ => rfl) (fun u => ?_)
      · rw [refs_append (s := s) rfl]; simp
      · by_cases hut : (⟨name, s.tracks.length⟩ : Ref) = u <;> simp [watches, hut]
    · exact quiet _ _ rfl rfl (fun _ => rfl) (fun _ => rfl)
  | insert p t =>
    simp only [Broadcast.step]
    split
    · split
      · rename_i ht
        refine added _ s _ t (fun _ => rfl) rfl (Nat.le_refl _) (mem_refs.2 ht) rfl rfl
          (fun _ => rfl) (fun u => ?_)
        by_cases hut : t = u <;> simp [watches, hut]
      · exact quiet _ _ rfl rfl (fun _ => rfl) (fun _ => rfl)
    · exact quiet _ _ rfl rfl (fun _ => rfl) (fun _ => rfl)
  | dropStep p =>
    simp only [Broadcast.step]
    split
    · exact quiet _ _ rfl rfl (fun _ => rfl) (fun _ => rfl)
    · split <;> exact quiet _ _ rfl rfl (fun _ => rfl) (fun _ => rfl)
    · rename_i t hp
      exact quiet _ _ (refs_setClosed s t _) rfl (fun _ => rfl) (fun _ => rfl)
    · exact quiet _ _ rfl rfl (fun _ => rfl) (fun _ => rfl)
    · exact quiet _ _ rfl rfl (fun _ => rfl) (fun _ => rfl)
    · exact quiet _ _ rfl rfl (fun _ => rfl) (fun _ => rfl)
  | cleanup k =>
    have key : ∀ (t : Nat) (s' : State), s.tasks.get k = some t → s'.refs = s.refs →
        s'.tasks = s.tasks.put k none →
        Tasks (tr ++ [(Op.cleanup k, Out.cleaned ⟨s.name t, t⟩)]) s' := by
      intro t s' hk hr ht
      have hlt := h.lt t (mem_of_get hk)
      have hu : (⟨s.name t, t⟩ : Ref) ∈ s.refs := ref_mem hlt
      refine h.of (fun u => ?_) (fun u hx => ?_)
      · have := running_end hu hr hk ht u
        by_cases hut : (⟨s.name t, t⟩ : Ref) = u
        · simp [ends, watches, hut] at this ⊢; exact this
        · simp [ends, watches, hut] at this ⊢; exact this
      · rw [length_of_refs hr]
        rw [ht] at hx
        obtain ⟨j, hj⟩ := get_of_mem hx
        rcases get_put_cases hj with ⟨_, hj⟩ | ⟨_, hj⟩
        · cases hj
        · exact h.lt u (mem_of_get hj)
    simp only [Broadcast.step]
    split
    · exact quiet _ _ rfl rfl (fun _ => rfl) (fun _ => rfl)
    · rename_i t hk
      split
      · exact quiet _ _ rfl rfl (fun _ => rfl) (fun _ => rfl)
      · split
        · split
          · exact key t _ hk rfl rfl
          · exact key t _ hk rfl rfl
        · exact key t _ hk rfl rfl
  | subscribe c name =>
    simp only [Broadcast.step]
    split
    · exact quiet _ _ rfl rfl (fun _ => rfl) (fun _ => rfl)
    · split
      · exact quiet _ _ rfl rfl (fun _ => rfl) (fun _ => rfl)
      · split
        · exact grow _ _ _ rfl rfl (fun _ => rfl) (fun _ => rfl)
        · exact grow _ _ _ rfl rfl (fun _ => rfl) (fun _ => rfl)
  | _ =>
    simp only [Broadcast.step]
    repeat' split
    all_goals exact quiet _ _ rfl rfl (fun _ => rfl) (fun _ => rfl)

theorem tasks_reach {tr : Trace} {s : State} (h : machine.Reach tr s) : Tasks tr s := by
  refine Machine.Reach.induct (M := machine) (P := fun tr s => Tasks tr s) ?_ ?_ h
  · refine ⟨fun t => ?_, fun t ht => by cases ht⟩
    unfold State.running
    split <;> rfl
  · intro tr s op hr ih
    exact ih.step op (trks_reach hr)

/-! ## Tracks that are served by a producer -/

/-- Track `t` is in the hands of a producer: it was handed out or made without a request. -/
def Served (tr : Trace) (t : Ref) : Prop := t ∈ handed tr ∨ t ∉ requested tr

/-- The number of producer handles of track `i` outside the broadcast. -/
def State.heldOf (s : State) (i : Nat) : Nat := ((s.tracks[i]?).map (·.held)).getD 0

theorem heldOf_append {s s' : State} {k : Trk} (h : s'.tracks = s.tracks ++ [k]) (i : Nat) :
    s'.heldOf i = s.heldOf i + if i = s.tracks.length then k.held else 0 := by
  unfold State.heldOf
  rw [h]
  rcases Nat.lt_trichotomy i s.tracks.length with hi | hi | hi
  · rw [List.getElem?_append_left hi, if_neg (by omega)]; rfl
  · subst hi; simp
  · rw [List.getElem?_eq_none (by simp; omega), List.getElem?_eq_none (by omega), if_neg (by omega)]
    rfl

theorem heldOf_setHeld {s : State} {t : Nat} (ht : t < s.tracks.length) (f : Nat → Nat) (i : Nat) :
    (s.setHeld t f).heldOf i = if t = i then f (s.heldOf i) else s.heldOf i := by
  unfold State.heldOf State.setHeld
  simp only [List.getElem?_modify]
  by_cases hti : t = i
  · subst hti
    rw [if_pos rfl, List.getElem?_eq_getElem ht]
    simp
  · rw [if_neg hti]
    cases s.tracks[i]? <;> simp [hti]

theorem heldOf_setClosed (s : State) (t : Nat) (r : Except Error Unit) (i : Nat) :
    (s.setClosed t r).heldOf i = s.heldOf i := by
  unfold State.heldOf State.setClosed
  simp only [List.getElem?_modify]
  cases s.tracks[i]? with
  | none => rfl
  | some k => by_cases h : t = i <;> simp [h]

theorem outside_lt {s : State} {t : Nat} (h : s.outside t = true) : t < s.tracks.length := by
  obtain ⟨k, hk, _⟩ := outside_some h
  rcases Nat.lt_or_ge t s.tracks.length with hx | hx
  · exact hx
  · rw [List.getElem?_eq_none hx] at hk; cases hk

theorem held_step {tr : Trace} {s : State} (op : Op) (hT : Trks tr s)
    (h : ∀ i, s.heldOf i = holders tr i) (i : Nat) :
    (step s op).2.heldOf i = holders (tr ++ [(op, (step s op).1)]) i := by
  rw [holders_snoc, ← h i]
  cases op with
  | newTrack name =>
    simp only [Broadcast.step, holding]
    rw [heldOf_append (s := s) rfl]
    by_cases hi : i = s.tracks.length
    · simp [hi]
    · have hi' : ¬ s.tracks.length = i := fun hx => hi hx.symm
      simp [hi, hi']
  | create p name =>
    simp only [Broadcast.step]
    split
    · simp only [holding]
      rw [heldOf_append (s := s) (k := ⟨name, none, 1⟩) rfl]
      by_cases hi : i = s.tracks.length
      · simp [hi]
      · have hi' : ¬ s.tracks.length = i := fun hx => hi hx.symm
        simp [hi, hi']
    · rfl
  | cloneTrack t =>
    simp only [Broadcast.step]
    split
    · rename_i ht
      rw [heldOf_setHeld (outside_lt ht)]; rfl
    · rfl
  | dropTrack t =>
    simp only [Broadcast.step]
    split
    · rename_i ht
      rw [heldOf_setHeld (outside_lt ht)]; rfl
    · rfl
  | finishTrack t =>
    simp only [Broadcast.step]
    split
    · rename_i ht
      rw [heldOf_setHeld (by simpa [State.setClosed] using outside_lt ht), heldOf_setClosed]; rfl
    · rfl
  | abortTrack t e =>
    simp only [Broadcast.step]
    split
    · rename_i ht
      rw [heldOf_setHeld (by simpa [State.setClosed] using outside_lt ht), heldOf_setClosed]; rfl
    · rfl
  | request p =>
    simp only [Broadcast.step]
    split
    · split
      · rename_i t q hq
        have ht := hT.valid t (by rw [hq]; exact List.mem_cons_self)
        exact heldOf_setHeld ht _ i
      · split <;> rfl
    · rfl
  | subscribe c name =>
    simp only [Broadcast.step]
    split
    · rfl
    · split
      · rfl
      · split
        · rw [heldOf_append (s := s) (k := ⟨name, none, 0⟩) rfl]; simp [holding]
        · rw [heldOf_append (s := s) (k := ⟨name, some (.error .cancel), 0⟩) rfl]; simp [holding]
  | dropStep p =>
    simp only [Broadcast.step]
    split
    · rfl
    · split <;> rfl
    · rename_i t hp; exact heldOf_setClosed s t _ i
    · rfl
    · rfl
    · rfl
  | _ =>
    simp only [Broadcast.step]
    repeat' split
    all_goals rfl

theorem held_reach {tr : Trace} {s : State} (h : machine.Reach tr s) (i : Nat) :
    s.heldOf i = holders tr i := by
  revert i
  refine Machine.Reach.induct (M := machine) (P := fun tr s => ∀ i, s.heldOf i = holders tr i) ?_ ?_ h
  · intro i; rfl
  · intro tr s op hr ih
    exact held_step op (trks_reach hr) ih

/-- How track `i` was closed. -/
def State.closedOf (s : State) (i : Nat) : Option (Except Error Unit) := (s.tracks[i]?).bind (·.closed)

theorem closedOf_setHeld (s : State) (t : Nat) (f : Nat → Nat) (i : Nat) :
    (s.setHeld t f).closedOf i = s.closedOf i := by
  unfold State.closedOf State.setHeld
  simp only [List.getElem?_modify]
  cases s.tracks[i]? with
  | none => rfl
  | some k => by_cases h : t = i <;> simp [h]

theorem closedOf_setClosed {s : State} {t : Nat} (ht : t < s.tracks.length) (r : Except Error Unit)
    (i : Nat) : (s.setClosed t r).closedOf i = if t = i then some r else s.closedOf i := by
  unfold State.closedOf State.setClosed
  simp only [List.getElem?_modify]
  by_cases hti : t = i
  · subst hti
    rw [if_pos rfl, List.getElem?_eq_getElem ht]
    simp
  · rw [if_neg hti]
    cases s.tracks[i]? <;> simp [hti]

theorem closedOf_append {s s' : State} {k : Trk} (h : s'.tracks = s.tracks ++ [k]) {i : Nat}
    (hi : i < s.tracks.length) : s'.closedOf i = s.closedOf i := by
  unfold State.closedOf
  rw [h, List.getElem?_append_left hi]

theorem closedOf_last {s s' : State} {k : Trk} (h : s'.tracks = s.tracks ++ [k]) :
    s'.closedOf s.tracks.length = k.closed := by
  unfold State.closedOf
  rw [h]
  simp

/-- The tracks agree with what their producers did. -/
structure Serves (tr : Trace) (s : State) : Prop where
  wait : ∀ i, i ∈ s.queue ∨ s.Holds i → s.ref i ∈ requested tr ∧ s.ref i ∉ handed tr
  fresh : s.queueOpen = true → ∀ i ∈ s.queue, s.closedOf i = none
  closed : ∀ i, i < s.tracks.length → Served tr (s.ref i) → s.closedOf i = lastClose tr i
  idle : ∀ i, ¬ (i < s.tracks.length ∧ Served tr (s.ref i)) → lastClose tr i = none

theorem ref_congr {s s' : State} (h : s'.refs = s.refs) {i : Nat} (hi : i < s.tracks.length) :
    s'.ref i = s.ref i := by
  unfold State.ref
  rw [name_of_refs (h ▸ List.prefix_rfl) hi]

theorem unserved_held {tr : Trace} {s : State} (hT : Trks tr s) {t : Nat} (h : s.outside t = true) :
    Served tr (s.ref t) := by
  refine Classical.byContradiction fun hn => ?_
  have hr : s.ref t ∈ requested tr := Classical.byContradiction fun hx => hn (.inr hx)
  have hh : s.ref t ∉ handed tr := fun hx => hn (.inl hx)
  rcases hT.fate _ hr with hx | ⟨k, hk, hz, _⟩
  · exact hh hx
  · obtain ⟨k', hk', hpos⟩ := outside_some h
    have : s.tracks[t]? = some k := hk
    rw [hk'] at this
    cases this
    omega

/-- A step without new tracks and requests. -/
theorem Serves.of {tr : Trace} {s s' : State} {e : Op × Out} (h : Serves tr s)
    (h1 : s'.refs = s.refs) (h2 : ∀ b, note b e = b) (h3 : handed [e] = [])
    (h4 : ∀ i, i ∈ s'.queue ∨ s'.Holds i → i < s.tracks.length ∧ (i ∈ s.queue ∨ s.Holds i))
    (h5 : s'.queueOpen = true → s.queueOpen = true ∧ ∀ i ∈ s'.queue, i ∈ s.queue ∧ s'.closedOf i = s.closedOf i)
    (h6 : ∀ i, i < s.tracks.length → Served tr (s.ref i) →
      s'.closedOf i = (lastClose [e] i).or (s.closedOf i))
    (h7 : ∀ i, ¬ (i < s.tracks.length ∧ Served tr (s.ref i)) → lastClose [e] i = none) :
    Serves (tr ++ [e]) s' := by
  have hlen := length_of_refs h1
  have e1 : requested (tr ++ [e]) = requested tr := by rw [requested_snoc, h2]
  have e2 : handed (tr ++ [e]) = handed tr := by rw [handed_snoc, h3, List.append_nil]
  have e3 : ∀ t, Served (tr ++ [e]) t ↔ Served tr t := by intro t; unfold Served; rw [e1, e2]
  refine ⟨?_, ?_, ?_, ?_⟩
  · intro i hi
    obtain ⟨hl, hi⟩ := h4 i hi
    rw [ref_congr h1 hl, e1, e2]
    exact h.wait i hi
  · intro hq i hi
    obtain ⟨ho, hx⟩ := h5 hq
    obtain ⟨hm, hc⟩ := hx i hi
    rw [hc]; exact h.fresh ho i hm
  · intro i hi hs
    rw [hlen] at hi
    rw [ref_congr h1 hi, e3] at hs
    rw [h6 i hi hs, lastClose_snoc, h.closed i hi hs]
  · intro i hn
    have hn' : ¬ (i < s.tracks.length ∧ Served tr (s.ref i)) := by
      rintro ⟨hi, hs⟩
      exact hn ⟨by rw [hlen]; exact hi, by rw [ref_congr h1 hi, e3]; exact hs⟩
    rw [lastClose_snoc, h7 i hn', h.idle i hn']
    rfl

theorem holds_lt {tr : Trace} {s : State} (hT : Trks tr s) (h : Serves tr s) {i : Nat}
    (hi : i ∈ s.queue ∨ s.Holds i) : i < s.tracks.length := by
  rcases hi with hi | hi
  · exact hT.valid i hi
  · have := hT.sub.subset (h.wait i (.inr hi)).1
    rw [hT.made] at this
    exact (mem_refs.1 this).1

/-- A new track that is not a request. -/
theorem Serves.grow {tr : Trace} {s s' : State} {e : Op × Out} {k : Trk} (h : Serves tr s)
    (hT : Trks tr s) (h1 : s'.tracks = s.tracks ++ [k]) (hk : k.closed = none)
    (h2 : requested (tr ++ [e]) = requested tr) (h3 : handed [e] = [])
    (h4 : s'.queue = s.queue) (h5 : s'.producers = s.producers) (h6 : s'.queueOpen = s.queueOpen)
    (h7 : ∀ i, lastClose [e] i = none) : Serves (tr ++ [e]) s' := by
  have hr := refs_append h1
  have e2 : handed (tr ++ [e]) = handed tr := by rw [handed_snoc, h3, List.append_nil]
  have e3 : ∀ t, Served (tr ++ [e]) t ↔ Served tr t := by intro t; unfold Served; rw [h2, e2]
  have href : ∀ i, i < s.tracks.length → s'.ref i = s.ref i := by
    intro i hi
    unfold State.ref
    rw [name_of_refs (hr ▸ List.prefix_append _ _) hi]
  have hl : ∀ i, lastClose (tr ++ [e]) i = lastClose tr i := by
    intro i; rw [lastClose_snoc, h7]; rfl
  refine ⟨?_, ?_, ?_, ?_⟩
  · intro i hi
    have hi' : i ∈ s.queue ∨ s.Holds i := by
      rw [h4] at hi; unfold State.Holds at hi ⊢; rw [h5] at hi; exact hi
    rw [href i (holds_lt hT h hi'), h2, e2]
    exact h.wait i hi'
  · intro hq i hi
    rw [h4] at hi
    rw [closedOf_append h1 (hT.valid i hi)]
    exact h.fresh (h6 ▸ hq) i hi
  · intro i hi hs
    rw [hl]
    rcases Nat.lt_or_ge i s.tracks.length with hx | hx
    · rw [closedOf_append h1 hx]
      rw [href i hx, e3] at hs
      exact h.closed i hx hs
    · have : i = s.tracks.length := by rw [h1, List.length_append] at hi; simp at hi; omega
      subst this
      rw [closedOf_last h1, hk, h.idle _ (fun hx => Nat.lt_irrefl _ hx.1)]
  · intro i hn
    rw [hl]
    refine h.idle i fun hx => hn ⟨?_, ?_⟩
    · rw [h1, List.length_append]; omega
    · rw [href i hx.1, e3]; exact hx.2

theorem Serves.step {tr : Trace} {s : State} (op : Op) (hm : Mode tr s) (hT : Trks tr s)
    (hT' : Trks (tr ++ [(op, (step s op).1)]) (step s op).2) (h : Serves tr s) :
    Serves (tr ++ [(op, (step s op).1)]) (step s op).2 := by
  have hsub : ∀ t ∈ requested tr, t ∈ s.refs := fun t ht => hT.made ▸ hT.sub.subset ht
  have same : ∀ i, i ∈ s.queue ∨ s.Holds i → i < s.tracks.length ∧ (i ∈ s.queue ∨ s.Holds i) :=
    fun i hi => ⟨holds_lt hT h hi, hi⟩
  have quiet : ∀ (e : Op × Out) (s' : State), s'.tracks = s.tracks → s'.queue = s.queue →
      s'.producers = s.producers → s'.queueOpen = s.queueOpen →
      (∀ b, note b e = b) → handed [e] = [] → (∀ i, lastClose [e] i = none) →
      Serves (tr ++ [e]) s' := by
    intro e s' h1 h2 h3 h4 h5 h6 h7
    have hc : ∀ i, s'.closedOf i = s.closedOf i := by intro i; unfold State.closedOf; rw [h1]
    refine h.of (by unfold State.refs; rw [h1]) h5 h6 ?_ ?_ ?_ (fun i _ => h7 i)
    · intro i hi
      unfold State.Holds at hi
      rw [h2, h3] at hi
      exact same i hi
    · intro hq
      exact ⟨h4 ▸ hq, fun i hi => ⟨h2 ▸ hi, hc i⟩⟩
    · intro i _ _
      rw [hc, h7]; rfl
  -- the queue and the tracks stay as they are
  have prods : ∀ (e : Op × Out) (s' : State), s'.tracks = s.tracks → s'.queue = s.queue →
      (∀ i, s'.Holds i → s.Holds i) → (s'.queueOpen = true → s.queueOpen = true) →
      (∀ b, note b e = b) → handed [e] = [] → (∀ i, lastClose [e] i = none) →
      Serves (tr ++ [e]) s' := by
    intro e s' h1 h2 h3 h4 h5 h6 h7
    have hc : ∀ i, s'.closedOf i = s.closedOf i := by intro i; unfold State.closedOf; rw [h1]
    refine h.of (by unfold State.refs; rw [h1]) h5 h6 ?_ ?_ ?_ (fun i _ => h7 i)
    · intro i hi
      rw [h2] at hi
      exact same i (hi.imp_right (h3 i))
    · intro hq
      exact ⟨h4 hq, fun i hi => ⟨h2 ▸ hi, hc i⟩⟩
    · intro i _ _
      rw [hc, h7]; rfl
  have hput : ∀ {p : Nat} {φ : Phase} {v : Option Phase}, s.producers.get p = some φ →
      (∀ u, v ≠ some (.drain (some u))) → ∀ t,
      (∃ q, (s.producers.put p v).get q = some (.drain (some t))) → s.Holds t := by
    rintro p φ v hp hv t ⟨q, hq⟩
    rcases get_put_cases hq with ⟨_, hx⟩ | ⟨_, hx⟩
    · exact absurd hx (hv t)
    · exact ⟨q, hx⟩
  -- a producer of track `t` changes it
  have change : ∀ (e : Op × Out) (s' : State) (t : Nat), s.outside t = true → s'.refs = s.refs →
      s'.queue = s.queue → s'.producers = s.producers → s'.queueOpen = s.queueOpen →
      (∀ b, note b e = b) → handed [e] = [] →
      (∀ i, s'.closedOf i = (lastClose [e] i).or (s.closedOf i)) →
      (∀ i, i ≠ t → lastClose [e] i = none) → Serves (tr ++ [e]) s' := by
    intro e s' t ht h1 h2 h3 h4 h5 h6 h7 h8
    have hserved := unserved_held hT ht
    refine h.of h1 h5 h6 ?_ ?_ (fun i _ _ => h7 i) ?_
    · intro i hi
      unfold State.Holds at hi
      rw [h2, h3] at hi
      exact same i hi
    · intro hq
      refine ⟨h4 ▸ hq, fun i hi => ⟨h2 ▸ hi, ?_⟩⟩
      rw [h7, h8]
      · rfl
      · rintro rfl
        obtain ⟨a, b⟩ := h.wait i (.inl (h2 ▸ hi))
        rcases hserved with hx | hx
        · exact b hx
        · exact hx a
    · intro i hn
      refine h8 i ?_
      rintro rfl
      exact hn ⟨outside_lt ht, hserved⟩
  have dropping : ∀ {p : Nat} {φ : Phase}, s.producers.get p = some φ → φ ≠ .live → φ ≠ .close →
      s.queueOpen = false := by
    intro p φ hp h1 h2
    cases hm with
    | running _ _ hl _ => exact absurd (hl _ _ hp) h1
    | ending r φ' hat hne hon ho hem hn =>
      by_cases hpq : p = r
      · subst hpq
        rw [hp] at hat
        injection hat with hat
        subst hat
        cases hq : s.queueOpen with
        | false => rfl
        | true => exact absurd (ho.1 hq) h2
      · rw [hon p hpq] at hp; cases hp
    | over hno hcl hem hn => exact hcl
  cases op with
  | newTrack name =>
    exact h.grow (k := ⟨name, none, 1⟩) hT rfl rfl (by rw [requested_snoc]; rfl) rfl rfl rfl rfl
      (fun _ => rfl)
  | create p name =>
    simp only [Broadcast.step]
    split
    · exact h.grow (k := ⟨name, none, 1⟩) hT rfl rfl (by rw [requested_snoc]; rfl) rfl rfl rfl rfl
        (fun _ => rfl)
    · exact quiet _ _ rfl rfl rfl rfl (fun _ => rfl) rfl (fun _ => rfl)
  | cloneTrack t =>
    simp only [Broadcast.step]
    split
    · rename_i ht
      exact change _ _ t ht (refs_setHeld _ _ _) rfl rfl rfl (fun _ => rfl) rfl
        (fun i => by rw [closedOf_setHeld]; rfl) (fun _ _ => rfl)
    · exact quiet _ _ rfl rfl rfl rfl (fun _ => rfl) rfl (fun _ => rfl)
  | dropTrack t =>
    simp only [Broadcast.step]
    split
    · rename_i ht
      exact change _ _ t ht (refs_setHeld _ _ _) rfl rfl rfl (fun _ => rfl) rfl
        (fun i => by rw [closedOf_setHeld]; rfl) (fun _ _ => rfl)
    · exact quiet _ _ rfl rfl rfl rfl (fun _ => rfl) rfl (fun _ => rfl)
  | finishTrack t =>
    simp only [Broadcast.step]
    split
    · rename_i ht
      have hl : ∀ i, lastClose [(Op.finishTrack t, Out.ok)] i = if t = i then some (.ok ()) else none := by
        intro i; by_cases hi : t = i <;> simp [lastClose, hi]
      refine change _ _ t ht ((refs_setHeld _ _ _).trans (refs_setClosed _ _ _)) rfl rfl rfl
        (fun _ => rfl) rfl (fun i => ?_) (fun i hi => ?_)
      · rw [closedOf_setHeld, closedOf_setClosed (outside_lt ht), hl]
        by_cases hi : t = i <;> simp [hi]
      · rw [hl, if_neg (fun hx => hi hx.symm)]
    · exact quiet _ _ rfl rfl rfl rfl (fun _ => rfl) rfl (fun _ => rfl)
  | abortTrack t e =>
    simp only [Broadcast.step]
    split
    · rename_i ht
      have hl : ∀ i, lastClose [(Op.abortTrack t e, Out.ok)] i =
          if t = i then some (.error e) else none := by
        intro i; by_cases hi : t = i <;> simp [lastClose, hi]
      refine change _ _ t ht ((refs_setHeld _ _ _).trans (refs_setClosed _ _ _)) rfl rfl rfl
        (fun _ => rfl) rfl (fun i => ?_) (fun i hi => ?_)
      · rw [closedOf_setHeld, closedOf_setClosed (outside_lt ht), hl]
        by_cases hi : t = i <;> simp [hi]
      · rw [hl, if_neg (fun hx => hi hx.symm)]
    · exact quiet _ _ rfl rfl rfl rfl (fun _ => rfl) rfl (fun _ => rfl)
  | request p =>
    revert hT'
    simp only [Broadcast.step]
    split
    · rename_i hp
      split
      · rename_i t q hq
        intro hT'
        have hopen : s.queueOpen = true := by
          cases hm with
          | running ho _ _ _ => exact ho
          | ending r φ hat hne hon ho hem hn =>
            by_cases hpq : p = r
            · subst hpq; rw [hp] at hat; injection hat with hat; exact absurd hat.symm hne
            · rw [hon p hpq] at hp; cases hp
          | over hno _ _ _ => rw [hno] at hp; cases hp
        have hno : ∀ i, ¬ s.Holds i := by
          rintro i ⟨r, hr⟩
          have := dropping hr (by simp) (by simp)
          rw [hopen] at this; cases this
        have hrefs : ({ s.setHeld t (· + 1) with queue := q, tasks := s.tasks.add t } : State).refs =
            s.refs := refs_setHeld s t _
        have hlen := length_of_refs hrefs
        have ht := hT.valid t (by rw [hq]; exact List.mem_cons_self)
        have e1 : requested (tr ++ [(Op.request p, Out.track ⟨s.name t, t⟩)]) = requested tr := by
          rw [requested_snoc]; rfl
        have e2 : handed (tr ++ [(Op.request p, Out.track ⟨s.name t, t⟩)]) =
            handed tr ++ [s.ref t] := by rw [handed_snoc]; rfl
        have hl : ∀ i, lastClose (tr ++ [(Op.request p, Out.track ⟨s.name t, t⟩)]) i =
            lastClose tr i := by intro i; rw [lastClose_snoc]; rfl
        have hw := h.wait t (.inl (by rw [hq]; exact List.mem_cons_self))
        have hnod : (requested tr).Nodup := by
          have h1 : (made tr).Nodup := by rw [hT.made]; exact refs_nodup s
          exact h1.sublist hT.sub
        have hreq := hT.open' hopen
        refine ⟨?_, ?_, ?_, ?_⟩
        · intro i hi
          have hi : i ∈ q := by
            rcases hi with hi | ⟨r, hr⟩
            · exact hi
            · exact absurd ⟨r, hr⟩ (hno i)
          have hil := hT.valid i (by rw [hq]; exact List.mem_cons_of_mem _ hi)
          rw [ref_congr hrefs hil, e1, e2]
          refine ⟨(h.wait i (.inl (by rw [hq]; exact List.mem_cons_of_mem _ hi))).1, ?_⟩
          rw [hreq, hq, List.map_cons, ← List.singleton_append, ← List.append_assoc,
            List.nodup_append] at hnod
          intro hx
          exact hnod.2.2 _ hx _ (List.mem_map.2 ⟨i, hi, rfl⟩) rfl
        · intro _ i hi
          show (s.setHeld t (· + 1)).closedOf i = none
          rw [closedOf_setHeld]
          exact h.fresh hopen i (by rw [hq]; exact List.mem_cons_of_mem _ hi)
        · intro i hi hs
          rw [hlen] at hi
          show (s.setHeld t (· + 1)).closedOf i = _
          rw [closedOf_setHeld, hl]
          by_cases hit : i = t
          · subst hit
            rw [h.fresh hopen i (by rw [hq]; exact List.mem_cons_self), h.idle]
            rintro ⟨_, hx | hx⟩
            · exact hw.2 hx
            · exact hx hw.1
          · refine h.closed i hi ?_
            rw [ref_congr hrefs hi] at hs
            unfold Served at hs ⊢
            rw [e1, e2] at hs
            rcases hs with hs | hs
            · rcases List.mem_append.1 hs with hs | hs
              · exact .inl hs
              · rw [List.mem_singleton] at hs
                exact absurd (congrArg Ref.id hs) hit
            · exact .inr hs
        · intro i hn
          rw [hl]
          refine h.idle i fun hx => hn ⟨by rw [hlen]; exact hx.1, ?_⟩
          rw [ref_congr hrefs hx.1]
          unfold Served
          rw [e1, e2]
          exact hx.2.imp_left (List.mem_append_left _)
      · intro _
        split <;> exact quiet _ _ rfl rfl rfl rfl (fun _ => rfl) rfl (fun _ => rfl)
    · intro _
      exact quiet _ _ rfl rfl rfl rfl (fun _ => rfl) rfl (fun _ => rfl)
  | subscribe c name =>
    simp only [Broadcast.step]
    split
    · exact quiet _ _ rfl rfl rfl rfl (fun _ => rfl) rfl (fun _ => rfl)
    · split
      · rename_i t ht
        have hmem : (⟨name, t⟩ : Ref) ∈ made tr := by rw [hT.made]; exact hT.pub _ _ ht
        have e1 : requested (tr ++ [(Op.subscribe c name, Out.track ⟨name, t⟩)]) = requested tr := by
          rw [requested_snoc]; simp [note, hmem]
        have e2 : handed (tr ++ [(Op.subscribe c name, Out.track ⟨name, t⟩)]) = handed tr := by
          rw [handed_snoc]; simp [handed]
        have hl : ∀ i, lastClose (tr ++ [(Op.subscribe c name, Out.track ⟨name, t⟩)]) i =
            lastClose tr i := by intro i; rw [lastClose_snoc]; rfl
        refine ⟨?_, h.fresh, ?_, ?_⟩
        · rw [e1, e2]; exact h.wait
        · intro i hi hs
          rw [hl]
          unfold Served at hs
          rw [e1, e2] at hs
          exact h.closed i hi hs
        · intro i hn
          rw [hl]
          unfold Served at hn
          rw [e1, e2] at hn
          exact h.idle i hn
      · have key : ∀ (k : Trk) (s' : State), k.name = name → s'.tracks = s.tracks ++ [k] →
            s'.producers = s.producers → s'.queueOpen = s.queueOpen →
            (s.queueOpen = true ∧ k.closed = none ∧ s'.queue = s.queue ++ [s.tracks.length] ∨
              s.queueOpen = false ∧ s'.queue = s.queue) →
            Serves (tr ++ [(Op.subscribe c name, Out.track ⟨name, s.tracks.length⟩)]) s' := by
          intro k s' hkn h1 h3 h4 h5
          have hr := refs_append h1
          have hnew : (⟨name, s.tracks.length⟩ : Ref) ∉ made tr := by
            rw [hT.made]; exact fresh_not_mem s name
          have e1 : requested (tr ++ [(Op.subscribe c name, Out.track ⟨name, s.tracks.length⟩)]) =
              requested tr ++ [⟨name, s.tracks.length⟩] := by
            rw [requested_snoc]; simp [note, hnew]
          have e2 : handed (tr ++ [(Op.subscribe c name, Out.track ⟨name, s.tracks.length⟩)]) =
              handed tr := by rw [handed_snoc]; simp [handed]
          have hl : ∀ i, lastClose (tr ++ [(Op.subscribe c name, Out.track ⟨name, s.tracks.length⟩)]) i =
              lastClose tr i := by intro i; rw [lastClose_snoc]; rfl
          have href : ∀ i, i < s.tracks.length → s'.ref i = s.ref i := by
            intro i hi
            unfold State.ref
            rw [name_of_refs (hr ▸ List.prefix_append _ _) hi]
          have hlast : s'.ref s.tracks.length = ⟨name, s.tracks.length⟩ := by
            unfold State.ref State.name
            rw [h1]
            simp [hkn]
          have hnh : (⟨name, s.tracks.length⟩ : Ref) ∉ handed tr := fun hx =>
            fresh_not_mem s name (hsub _ (hT.pre.subset hx))
          have hserved : ∀ i, i < s.tracks.length →
              (Served (tr ++ [(Op.subscribe c name, Out.track ⟨name, s.tracks.length⟩)]) (s'.ref i) ↔
                Served tr (s.ref i)) := by
            intro i hi
            unfold Served
            rw [e1, e2, href i hi, List.mem_append, List.mem_singleton]
            have : s.ref i ≠ ⟨name, s.tracks.length⟩ := by
              intro hx
              have := congrArg Ref.id hx
              simp [State.ref] at this
              omega
            simp [this]
          have hnserved : ¬ Served (tr ++ [(Op.subscribe c name, Out.track ⟨name, s.tracks.length⟩)])
              (s'.ref s.tracks.length) := by
            rw [hlast]
            unfold Served
            rw [e1, e2]
            rintro (hx | hx)
            · exact hnh hx
            · exact hx (by simp)
          have hlen : s'.tracks.length = s.tracks.length + 1 := by rw [h1]; simp
          refine ⟨?_, ?_, ?_, ?_⟩
          · intro i hi
            have hi' : (i ∈ s.queue ∨ s.Holds i) ∨ i = s.tracks.length := by
              unfold State.Holds at hi ⊢
              rw [h3] at hi
              rcases hi with hi | hi
              · rcases h5 with ⟨_, _, hq⟩ | ⟨_, hq⟩
                · rw [hq] at hi
                  rcases List.mem_append.1 hi with hi | hi
                  · exact .inl (.inl hi)
                  · exact .inr (by simpa using hi)
                · rw [hq] at hi; exact .inl (.inl hi)
              · exact .inl (.inr hi)
            rcases hi' with hi' | rfl
            · rw [href i (holds_lt hT h hi'), e1, e2]
              obtain ⟨a, b⟩ := h.wait i hi'
              exact ⟨List.mem_append_left _ a, b⟩
            · rw [hlast, e1, e2]
              exact ⟨by simp, hnh⟩
          · intro hq i hi
            rcases h5 with ⟨ho, hk, hqq⟩ | ⟨ho, _⟩
            · rw [hqq] at hi
              rcases List.mem_append.1 hi with hi | hi
              · rw [closedOf_append h1 (hT.valid i hi)]
                exact h.fresh ho i hi
              · have : i = s.tracks.length := by simpa using hi
                subst this
                rw [closedOf_last h1, hk]
            · rw [h4, ho] at hq; cases hq
          · intro i hi hs
            rw [hl]
            rcases Nat.lt_or_ge i s.tracks.length with hx | hx
            · rw [closedOf_append h1 hx]
              exact h.closed i hx ((hserved i hx).1 hs)
            · have : i = s.tracks.length := by omega
              subst this
              exact absurd hs hnserved
          · intro i hn
            rw [hl]
            refine h.idle i fun hx => hn ⟨by omega, (hserved i hx.1).2 hx.2⟩
        split
        · rename_i ho
          exact key ⟨name, none, 0⟩ _ rfl rfl rfl rfl (.inl ⟨ho, rfl, rfl⟩)
        · rename_i ho
          exact key ⟨name, some (.error .cancel), 0⟩ _ rfl rfl rfl rfl
            (.inr ⟨by simpa using ho, rfl⟩)
  | cloneProducer p =>
    simp only [Broadcast.step]
    split
    · refine prods _ _ rfl rfl ?_ id (fun _ => rfl) rfl (fun _ => rfl)
      rintro i ⟨q, hq⟩
      rcases get_add_cases hq with ⟨_, hx⟩ | ⟨_, hx⟩
      · cases hx
      · exact ⟨q, hx⟩
    · exact quiet _ _ rfl rfl rfl rfl (fun _ => rfl) rfl (fun _ => rfl)
  | dropProducer p =>
    simp only [Broadcast.step]
    split
    · rename_i hp
      split
      · exact prods _ _ rfl rfl (hput hp (by simp)) id (fun _ => rfl) rfl (fun _ => rfl)
      · exact prods _ _ rfl rfl (hput hp (by simp)) id (fun _ => rfl) rfl (fun _ => rfl)
    · exact quiet _ _ rfl rfl rfl rfl (fun _ => rfl) rfl (fun _ => rfl)
  | dropStep p =>
    simp only [Broadcast.step]
    split
    · rename_i hp
      exact prods _ _ rfl rfl (hput hp (by simp)) (by simp) (fun _ => rfl) rfl (fun _ => rfl)
    · rename_i hp
      have hc := dropping hp (by simp) (by simp)
      split
      · rename_i t q hq
        refine h.of rfl (fun _ => rfl) rfl ?_ ?_ (fun i _ _ => rfl) (fun _ _ => rfl)
        · intro i hi
          refine same i ?_
          rw [hq]
          rcases hi with hi | ⟨r, hr⟩
          · exact .inl (List.mem_cons_of_mem _ hi)
          · rcases get_put_cases hr with ⟨_, hx⟩ | ⟨_, hx⟩
            · simp at hx; subst hx; exact .inl List.mem_cons_self
            · exact .inr ⟨r, hx⟩
        · intro hx; have hx : s.queueOpen = true := hx; rw [hc] at hx; cases hx
      · exact prods _ _ rfl rfl (hput hp (by simp)) id (fun _ => rfl) rfl (fun _ => rfl)
    · rename_i t hp
      have hc := dropping hp (by simp) (by simp)
      have hw := h.wait t (.inr ⟨p, hp⟩)
      have ht := holds_lt hT h (.inr ⟨p, hp⟩)
      refine h.of (refs_setClosed s t _) (fun _ => rfl) rfl ?_ ?_ ?_ (fun _ _ => rfl)
      · intro i hi
        exact same i (hi.imp_right (hput hp (by simp) i))
      · intro hx; have hx : s.queueOpen = true := hx; rw [hc] at hx; cases hx
      · intro i hi hs
        show (s.setClosed t (.error .cancel)).closedOf i = _
        rw [closedOf_setClosed ht, if_neg]
        · rfl
        · rintro rfl
          rcases hs with hs | hs
          · exact hw.2 hs
          · exact hs hw.1
    · rename_i hp
      exact prods _ _ rfl rfl (hput hp (by simp)) id (fun _ => rfl) rfl (fun _ => rfl)
    · rename_i hp
      exact prods _ _ rfl rfl (hput hp (by simp)) id (fun _ => rfl) rfl (fun _ => rfl)
    · exact quiet _ _ rfl rfl rfl rfl (fun _ => rfl) rfl (fun _ => rfl)
  | _ =>
    simp only [Broadcast.step]
    repeat' split
    all_goals exact quiet _ _ rfl rfl rfl rfl (fun _ => rfl) rfl (fun _ => rfl)

theorem serves_reach {tr : Trace} {s : State} (h : machine.Reach tr s) : Serves tr s := by
  refine Machine.Reach.induct (M := machine) (P := fun tr s => Serves tr s) ?_ ?_ h
  · refine ⟨?_, ?_, ?_, ?_⟩
    · rintro i (hi | ⟨p, hp⟩)
      · cases hi
      · cases p <;> simp [init, Slots.get] at hp
    · intro _ i hi; cases hi
    · intro i hi; simp [init] at hi
    · intro i _; rfl
  · intro tr s op hr ih
    exact ih.step op (mode_reach hr) (trks_reach hr)
      (trks_reach (Machine.Reach.step (M := machine) op hr))

end Verif.Model.Broadcast
