import Verif.Js.AudioCaptureLemmas

/-!
# Publishing audio from the browser: which groups have ended, and how
-/

set_option autoImplicit false

namespace Verif.Js.AudioCapture

open Verif

open Verif.Js.Frames (Input)

/-! ## Groups of a track -/

theorem find_add {t : Track.State} {x y : Track.Grp} {o : Track.Out} {g : Nat} (h : Track.find t g = some x) :
    Track.find (Track.add t y o).2 g = some x := by
  unfold Track.add
  split
  · unfold Track.find at h ⊢
    dsimp only
    rw [List.find?_append, h]
    rfl
  · exact h

/-- A group that has ended is not changed any more. -/
theorem find_onGroup {t : Track.State} {x : Track.Grp} {g : Nat} (h : Track.find t g = some x) (hl : x.status ≠ .live)
    (k : Nat) (f : Track.Grp → Track.Grp) (hf : ∀ x, (f x).id = x.id) :
    Track.find (Track.onGroup t k f).2 g = some x := by
  unfold Track.onGroup
  cases hk : Track.find t k with
  | none => exact h
  | some y =>
    dsimp only
    by_cases hy : y.status = .live
    · by_cases hgk : g = k
      · subst hgk
        rw [h] at hk
        cases hk
        exact absurd hy hl
      · rw [if_pos hy]
        have := (Receive.group_step hk hy f hf).2.other g hgk
        unfold Track.onGroup at this
        rw [hk] at this
        dsimp only at this
        rw [if_pos hy] at this
        rw [this]
        exact h
    · rw [if_neg hy]
      exact h

theorem find_keep {t : Track.State} {x : Track.Grp} {g : Nat} (h : Track.find t g = some x) (hl : x.status ≠ .live)
    (op : Track.Op) : Track.find (Track.step t op).2 g = some x := by
  have hr : Receive.reads op = true → Track.find (Track.step t op).2 g = some x := by
    intro hr
    unfold Track.find
    rw [(Receive.reads_keeps hr t).1]
    exact h
  cases op with
  | append => exact find_add h
  | insert id fs st =>
    rw [Track.step]
    split
    · exact h
    · exact find_add h
  | write id b => exact find_onGroup h hl _ _ fun _ => rfl
  | closeGroup id => exact find_onGroup h hl _ _ fun _ => rfl
  | abortGroup id => exact find_onGroup h hl _ _ fun _ => rfl
  | close =>
    rw [Track.step]
    split <;> exact h
  | abort =>
    rw [Track.step]
    split <;> exact h
  | consume => exact hr rfl
  | run c => exact hr rfl
  | nextGroup c => exact hr rfl
  | nextFrame c p => exact hr rfl
  | closeSub c => exact hr rfl

theorem ended_onGroup {t : Track.State} {g : Nat} {st : Group.Status}
    (ho : (Track.onGroup t g fun x => { x with status := st }).1 = .ok) :
    ∃ x, Track.find (Track.onGroup t g fun x => { x with status := st }).2 g = some x ∧ x.status = st := by
  cases hk : Track.find t g with
  | none =>
    unfold Track.onGroup at ho
    rw [hk] at ho
    cases ho
  | some y =>
    by_cases hy : y.status = .live
    · exact ⟨_, (Receive.group_step hk hy (fun x => { x with status := st }) fun _ => rfl).2.this, rfl⟩
    · unfold Track.onGroup at ho
      rw [hk] at ho
      dsimp only at ho
      rw [if_neg hy] at ho
      cases ho

/-- A group that was ended stays so, in the same way. -/
theorem ended_find {ttr : Track.Trace} {t : Track.State} (h : Track.machine.Reach ttr t) (g : Nat) :
    ((.closeGroup g, .ok) ∈ ttr → ∃ x, Track.find t g = some x ∧ x.status = .closed) ∧
    ((.abortGroup g, .ok) ∈ ttr → ∃ x, Track.find t g = some x ∧ x.status = .aborted) := by
  refine Machine.Reach.induct (M := Track.machine) (P := fun ttr t =>
    ((Track.Op.closeGroup g, Track.Out.ok) ∈ ttr → ∃ x, Track.find t g = some x ∧ x.status = .closed) ∧
    ((Track.Op.abortGroup g, Track.Out.ok) ∈ ttr → ∃ x, Track.find t g = some x ∧ x.status = .aborted)) ?_ ?_ h
  · exact ⟨fun h => (by cases h), fun h => (by cases h)⟩
  · intro ttr t op hr i
    constructor
    · intro hm
      rcases List.mem_append.1 hm with hm | hm
      · obtain ⟨x, h1, h2⟩ := i.1 hm
        exact ⟨x, find_keep h1 (by rw [h2]; simp) op, h2⟩
      · have := List.mem_singleton.1 hm
        injection this with h1 h2
        subst h1
        exact ended_onGroup h2.symm
    · intro hm
      rcases List.mem_append.1 hm with hm | hm
      · obtain ⟨x, h1, h2⟩ := i.2 hm
        exact ⟨x, find_keep h1 (by rw [h2]; simp) op, h2⟩
      · have := List.mem_singleton.1 hm
        injection this with h1 h2
        subst h1
        exact ended_onGroup h2.symm

/-! ## Calls -/

/-- The calls that are made. -/
def Grows (P : Track.Op → Prop) (s s' : State) : Prop :=
  ∃ l, s'.calls = s.calls ++ l ∧ ∀ e ∈ l, P e.2.1

theorem Grows.refl {P : Track.Op → Prop} (s : State) : Grows P s s :=
  ⟨[], by simp, fun _ h => (by cases h)⟩

theorem Grows.trans {P : Track.Op → Prop} {a b c : State} (h1 : Grows P a b) (h2 : Grows P b c) :
    Grows P a c := by
  obtain ⟨l, e1, p1⟩ := h1
  obtain ⟨m, e2, p2⟩ := h2
  refine ⟨l ++ m, by rw [e2, e1, List.append_assoc], fun e he => ?_⟩
  rcases List.mem_append.1 he with h | h
  · exact p1 e h
  · exact p2 e h

theorem Grows.of {P : Track.Op → Prop} {s s' : State} (h : s'.calls = s.calls) : Grows P s s' :=
  ⟨[], by simp [h], fun _ h => (by cases h)⟩

theorem grows_act {P : Track.Op → Prop} (s : State) (r : Nat) (op : Track.Op) (h : P op) :
    Grows P s (act s r op) := by
  unfold act
  split
  · refine ⟨_, rfl, fun e he => ?_⟩
    rw [List.mem_singleton.1 he]
    exact h
  · exact .refl s

/-- Groups are not inserted, and aborted only if an encoder fails. -/
def Allowed (bad : Prop) : Track.Op → Prop
  | .insert _ _ _ => False
  | .abortGroup _ => bad
  | _ => True

theorem grows_cleanup (bad : Prop) (s : State) : Grows (Allowed bad) s (cleanup s) := by
  unfold cleanup
  split
  · dsimp only
    split
    · exact (grows_act _ _ .close trivial).trans (.of rfl)
    · exact .of rfl
  · exact .refl s

theorem grows_write (bad : Prop) (s : State) (k g : Nat) (c : Input) :
    Grows (Allowed bad) s (write s k g c).2 := by
  unfold write
  split
  · exact .refl s
  · split
    · exact grows_act _ _ (.write _ _) trivial
    · exact .refl s

theorem grows_rotate (bad : Prop) (s : State) (r : Nat) (c : Input) :
    Grows (Allowed bad) s (rotate s r c).2 := by
  have h1 : Grows (Allowed bad) s (closeGroup s) := by
    unfold closeGroup
    split
    · exact grows_act _ _ (.closeGroup _) trivial
    · exact .refl s
  unfold rotate
  dsimp only
  split
  · split
    · next g _ =>
      exact h1.trans ((grows_act _ r .append trivial).trans
        ((Grows.of (s' := { act (closeGroup s) r .append with
          group := some (r, g), timestamp := c.timestamp }) rfl).trans (grows_write bad ..)))
    · exact h1.trans (grows_act _ r .append trivial)
  · exact .refl s

theorem step_grows (s : State) (op : Op) :
    Grows (Allowed (∃ r, op = .error r ∧ (step s op).1 = .ok)) s (step s op).2 := by
  generalize hb : (∃ r, op = .error r ∧ (step s op).1 = .ok) = bad
  cases op with
  | start =>
    rw [step]
    split
    · exact .refl s
    · exact (grows_cleanup bad s).trans (.of rfl)
  | stop =>
    rw [step]
    split
    · exact .refl s
    · exact grows_cleanup bad s
  | close =>
    rw [step]
    split
    · exact .refl s
    · exact (grows_cleanup bad s).trans (.of rfl)
  | output r c =>
    rw [step]
    split
    · unfold emit
      split
      · split
        · exact grows_rotate ..
        · split
          · exact grows_rotate ..
          · exact grows_write ..
      · exact .refl s
    · exact .refl s
  | error r =>
    rw [step] at hb ⊢
    split
    · next h =>
      rw [if_pos h] at hb
      have hbad : bad := by
        rw [← hb]
        exact ⟨r, rfl, rfl⟩
      have h1 : Grows (Allowed bad) s (abortGroup s) := by
        unfold abortGroup
        split
        · exact grows_act _ _ (.abortGroup _) hbad
        · exact .refl s
      exact h1.trans ((Grows.of (s' := { abortGroup s with group := none, working := false }) rfl).trans
        (grows_act _ r .abort trivial))
    · exact .refl s
  | track r op =>
    rw [step]
    split
    · split
      · refine grows_act _ _ _ ?_
        cases op <;> trivial
      · exact .refl s
    · exact .refl s

theorem calls_allowed {tr : Trace} {s : State} (h : machine.Reach tr s) :
    ∀ e ∈ s.calls, Allowed (∃ r, Errored tr r) e.2.1 := by
  refine Machine.Reach.induct (M := machine)
    (P := fun tr s => ∀ e ∈ s.calls, Allowed (∃ r, Errored tr r) e.2.1) ?_ ?_ h
  · intro e he
    cases he
  · intro tr s op hr i e he
    have hmono : ∀ {P Q : Prop} (op : Track.Op), (P → Q) → Allowed P op → Allowed Q op := by
      intro P Q op hpq h
      cases op <;> first | exact h | exact hpq h
    obtain ⟨l, h1, h2⟩ := step_grows s op
    change e ∈ (step s op).2.calls at he
    rw [h1] at he
    change Allowed (∃ r, Errored (tr ++ [(op, (step s op).1)]) r) e.2.1
    rcases List.mem_append.1 he with he | he
    · refine hmono _ ?_ (i e he)
      rintro ⟨r, hr⟩
      exact ⟨r, (errored_snoc ..).2 (.inl hr)⟩
    · refine hmono _ ?_ (h2 e he)
      rintro ⟨r, ho, hk⟩
      exact ⟨r, (errored_snoc ..).2 (.inr (by rw [hk, ho]))⟩

theorem trackTrace_allowed {tr : Trace} {s : State} (h : machine.Reach tr s) (r : Nat) :
    ∀ e ∈ trackTrace s r, Allowed (∃ r, Errored tr r) e.1 := by
  intro e he
  obtain ⟨a, ha, hb⟩ := List.mem_filterMap.1 he
  split at hb
  · cases hb
    exact calls_allowed h a ha
  · cases hb

/-- A failure closes no group. -/
theorem error_grows (s : State) (r : Nat) : Grows (fun op => ∀ g, op ≠ .closeGroup g) s (step s (.error r)).2 := by
  rw [step]
  split
  · have h1 : Grows (fun op => ∀ g, op ≠ .closeGroup g) s (abortGroup s) := by
      unfold abortGroup
      split
      · exact grows_act _ _ (.abortGroup _) (by simp)
      · exact .refl s
    have h2 : Grows (fun op => ∀ g, op ≠ .closeGroup g) (abortGroup s)
        { abortGroup s with group := none, working := false } := .of rfl
    have h3 : ∀ g, Track.Op.abort ≠ .closeGroup g := fun _ h => by cases h
    exact h1.trans (h2.trans (grows_act _ r .abort h3))
  · exact .refl s

theorem error_closes {s : State} {r k g : Nat} {o : Track.Out}
    (h : (.closeGroup g, o) ∈ trackTrace (step s (.error r)).2 k) : (.closeGroup g, o) ∈ trackTrace s k := by
  obtain ⟨l, h1, h2⟩ := error_grows s r
  unfold trackTrace at h ⊢
  rw [h1, List.filterMap_append] at h
  rcases List.mem_append.1 h with h | h
  · exact h
  · obtain ⟨a, ha, hb⟩ := List.mem_filterMap.1 h
    split at hb
    · have := h2 a ha g
      rw [Option.some.inj hb] at this
      exact absurd rfl this
    · cases hb

end Verif.Js.AudioCapture
