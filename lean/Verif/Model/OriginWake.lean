import Verif.Model.OriginLemmas

/-!
# Lemmas about the tasks of an origin and about the wake-ups of its consumers
-/

set_option autoImplicit false

namespace Verif.Model.Origin

open Verif Verif.Model.Origin.Spec

theorem wakeups_snoc (tr : Trace) (e : Op × Out) (c : Nat) :
    wakeups (tr ++ [e]) c = wakeups tr c + wakeups [e] c := by
  simp [wakeups]

theorem publications_snoc (tr : Trace) (e : Op × Out) (path : Path) (bc : Nat) :
    publications (tr ++ [e]) path bc = publications tr path bc + publications [e] path bc := by
  simp [publications]

theorem removals_snoc (tr : Trace) (e : Op × Out) (path : Path) (bc : Nat) :
    removals (tr ++ [e]) path bc = removals tr path bc + removals [e] path bc := by
  simp [removals]

theorem publications_one (q path : Path) (b bc : Nat) (u : Bool) :
    publications [(.publishStep, .published q b u)] path bc =
      if (q, b) = (path, bc) then 1 else 0 := by
  by_cases h : (q, b) = (path, bc) <;>
    simp only [publications, List.filterMap_cons, List.filterMap_nil, h] <;> rfl

theorem removals_one (k : Nat) (q path : Path) (b bc : Nat) :
    removals [(.task k, .removed q b)] path bc = if (q, b) = (path, bc) then 1 else 0 := by
  by_cases h : (q, b) = (path, bc) <;>
    simp only [removals, List.filterMap_cons, List.filterMap_nil, h] <;> rfl

/-! ## Tasks -/

theorem tasks_put {s : Slots (Path × Nat)} {i : Nat} {a : Path × Nat} (h : s.get i = some a)
    (t : Path × Nat) :
    List.count (some t) (s.put i none) + (if a = t then 1 else 0) = List.count (some t) s := by
  have hlt := Slots.get_some_lt h
  unfold Slots.put
  have hs : s[i] = some a := by
    unfold Slots.get at h
    rw [List.getElem?_eq_getElem hlt] at h
    simpa using h
  rw [List.count_set hlt]
  have hpos : a = t → 0 < List.count (some t) s := by
    rintro rfl
    rw [List.count_pos_iff]
    exact hs ▸ List.getElem_mem hlt
  by_cases ha : a = t
  · have := hpos ha
    simp [hs, ha]
    omega
  · simp [hs, ha]

theorem tasks_add (s : Slots (Path × Nat)) (a t : Path × Nat) :
    List.count (some t) (s.add a) = List.count (some t) s + (if a = t then 1 else 0) := by
  unfold Slots.add
  rw [List.count_append]
  by_cases ha : a = t <;> simp [ha]

/-- There is one task for every publication whose end was not processed yet. -/
def Tasks (tr : Trace) (s : State) : Prop :=
  ∀ path bc, List.count (some (path, bc)) s.tasks + removals tr path bc = publications tr path bc

theorem Tasks.step {tr : Trace} {s : State} (op : Op) (h : Tasks tr s) :
    Tasks (tr ++ [(op, (step s op).1)]) (step s op).2 := by
  have quiet : ∀ (e : Op × Out) (s' : State), s'.tasks = s.tasks →
      (∀ path bc, removals [e] path bc = 0) → (∀ path bc, publications [e] path bc = 0) →
      Tasks (tr ++ [e]) s' := by
    intro e s' h1 h2 h3 path bc
    rw [removals_snoc, publications_snoc, h1, h2, h3]
    exact h path bc
  cases op with
  | publishStep =>
    simp only [Origin.step]
    (repeat' split) <;> try exact quiet _ _ rfl (fun _ _ => rfl) (fun _ _ => rfl)
    rename_i u hu _ hn _ hend
    intro path bc
    rw [removals_snoc, publications_snoc, tasks_add]
    rw [publications_one]
    have h0 : removals [(Op.publishStep, Out.published u.path u.bc (Origin.get s.active u.path).isNone)]
      path bc = 0 := rfl
    have := h path bc
    dsimp only at *
    omega
  | task k =>
    simp only [Origin.step]
    (repeat' split) <;> try exact quiet _ _ rfl (fun _ _ => rfl) (fun _ _ => rfl)
    rename_i q b hk _ _ _
    intro path bc
    rw [removals_snoc, publications_snoc]
    rw [removals_one]
    have h0 : publications [(Op.task k, Out.removed q b)] path bc = 0 := rfl
    have := h path bc
    have := tasks_put hk (path, bc)
    dsimp only at *
    omega
  | _ =>
    simp only [Origin.step]
    (repeat' split) <;> exact quiet _ _ rfl (fun _ _ => rfl) (fun _ _ => rfl)

theorem tasks_reach {tr : Trace} {s : State} (h : machine.Reach tr s) : Tasks tr s := by
  refine Machine.Reach.induct (M := machine) (P := fun tr s => Tasks tr s) ?_ ?_ h
  · intro path bc; rfl
  · intro tr s op _ ih
    exact ih.step op

theorem task_of_count {s : Slots (Path × Nat)} {t : Path × Nat} (h : 0 < List.count (some t) s) :
    ∃ k, s.get k = some t := by
  rw [List.count_pos_iff] at h
  obtain ⟨k, hk, e⟩ := List.mem_iff_getElem.1 h
  refine ⟨k, ?_⟩
  unfold Slots.get
  rw [List.getElem?_eq_getElem hk, e]
  rfl

/-! ## Waiting consumers -/

theorem waiting_snoc (tr : Trace) (e : Op × Out) (c : Nat) :
    waiting (tr ++ [e]) c =
      match e with
      | (.check d, .empty) => if d = c then true else waiting tr c
      | (.recv d, .woken) => if d = c then false else waiting tr c
      | (.recv d, .ended) => if d = c then false else waiting tr c
      | (.cancel d, .ok) => if d = c then false else waiting tr c
      | _ => waiting tr c := by
  unfold waiting
  rw [List.foldl_append]
  rfl

/-- The phases of the consumers agree with the history. -/
structure Waits (tr : Trace) (s : State) : Prop where
  phase : ∀ (c : Nat) (k : Cons), s.consumers.get c = some k →
    (k.phase = .waiting ↔ waiting tr c = true)
  fresh : ∀ c, s.consumers.length ≤ c → waiting tr c = false

theorem Waits.same {tr : Trace} {s s' : State} {e : Op × Out} (h : Waits tr s)
    (hw : ∀ c, waiting (tr ++ [e]) c = waiting tr c)
    (hl : s'.consumers.length = s.consumers.length)
    (hc : ∀ (c : Nat) (k' : Cons), s'.consumers.get c = some k' → ∃ k, s.consumers.get c = some k ∧
      (k'.phase = .waiting ↔ k.phase = .waiting)) : Waits (tr ++ [e]) s' := by
  refine ⟨?_, ?_⟩
  · intro c k' hk'
    obtain ⟨k, hk, hp⟩ := hc c k' hk'
    rw [hw, hp]; exact h.phase c k hk
  · intro c hx
    rw [hw]; exact h.fresh c (hl ▸ hx)

theorem Waits.add {tr : Trace} {s s' : State} {e : Op × Out} {v : Cons} (h : Waits tr s)
    (hw : ∀ c, waiting (tr ++ [e]) c = waiting tr c) (hc : s'.consumers = s.consumers.add v)
    (hv : v.phase ≠ .waiting) : Waits (tr ++ [e]) s' := by
  refine ⟨?_, ?_⟩
  · intro c k' hk'
    rw [hw]
    rw [hc] at hk'
    rcases get_add_cases hk' with ⟨rfl, rfl⟩ | ⟨_, he⟩
    · rw [h.fresh _ (Nat.le_refl _)]
      simp [hv]
    · exact h.phase c k' he
  · intro c hx
    rw [hw]
    rw [hc, Slots.length_add] at hx
    exact h.fresh c (by omega)

theorem Waits.put {tr : Trace} {s s' : State} {e : Op × Out} {c : Nat} {v : Cons} (h : Waits tr s)
    (hlt : c < s.consumers.length)
    (hw : ∀ x, waiting (tr ++ [e]) x = if c = x then decide (v.phase = .waiting) else waiting tr x)
    (hc : s'.consumers = s.consumers.put c (some v)) : Waits (tr ++ [e]) s' := by
  refine ⟨?_, ?_⟩
  · intro x k' hk'
    rw [hw]
    rw [hc] at hk'
    rcases get_put_cases hk' with ⟨rfl, he⟩ | ⟨hne, he⟩
    · injection he with he
      subst he
      simp
    · rw [if_neg hne]
      exact h.phase x k' he
  · intro x hx
    rw [hc, Slots.length_put] at hx
    rw [hw, if_neg (by omega)]
    exact h.fresh x hx

theorem waits_step {tr : Trace} {s : State} (h : Waits tr s) (op : Op) :
    Waits (tr ++ [(op, (step s op).1)]) (step s op).2 := by
  have id' : ∀ (c : Nat) (k' : Cons), s.consumers.get c = some k' →
      ∃ k, s.consumers.get c = some k ∧ (k'.phase = .waiting ↔ k.phase = .waiting) :=
    fun c k' hk => ⟨k', hk, Iff.rfl⟩
  have quiet : ∀ (e : Op × Out) (s' : State), s'.consumers = s.consumers →
      (∀ c, waiting (tr ++ [e]) c = waiting tr c) → Waits (tr ++ [e]) s' := by
    intro e s' h1 h2
    exact h.same h2 (by rw [h1]) (by rw [h1]; exact id')
  have upd : ∀ (e : Op × Out) (s' : State) (c : Nat) (k v : Cons), s.consumers.get c = some k →
      s'.consumers = s.consumers.put c (some v) → (v.phase = .waiting ↔ k.phase = .waiting) →
      (∀ c, waiting (tr ++ [e]) c = waiting tr c) → Waits (tr ++ [e]) s' := by
    intro e s' c k v hk hc hp hw
    refine h.same hw (by rw [hc, Slots.length_put]) ?_
    intro x k' hk'
    rw [hc] at hk'
    rcases get_put_cases hk' with ⟨rfl, he⟩ | ⟨_, he⟩
    · injection he with he
      subst he
      exact ⟨k, hk, hp⟩
    · exact id' x k' he
  cases op with
  | publishStep =>
    simp only [Origin.step]
    (repeat' split) <;> try exact quiet _ _ rfl (fun _ => waiting_snoc _ _ _)
    · refine h.same (fun _ => waiting_snoc _ _ _) (wake_length _ _) ?_
      intro x k' hk'
      obtain ⟨k, hk, _, _, hp, _⟩ := wake_cases hk'
      exact ⟨k, hk, by rw [hp]⟩
    · rename_i k hk _ _ _
      exact upd _ _ _ k _ hk rfl Iff.rfl (fun _ => waiting_snoc _ _ _)
  | consumePrefix p pre order =>
    simp only [Origin.step]
    (repeat' split) <;> try exact quiet _ _ rfl (fun _ => waiting_snoc _ _ _)
    exact h.add (fun _ => waiting_snoc _ _ _) rfl (by simp)
  | cloneStart c =>
    simp only [Origin.step]
    (repeat' split) <;> try exact quiet _ _ rfl (fun _ => waiting_snoc _ _ _)
    exact h.add (fun _ => waiting_snoc _ _ _) rfl (by simp)
  | cloneFinish c =>
    simp only [Origin.step]
    (repeat' split) <;> try exact quiet _ _ rfl (fun _ => waiting_snoc _ _ _)
    all_goals
      refine upd _ _ c _ _ (by assumption) rfl ?_ (fun _ => waiting_snoc _ _ _)
      simp [*]
  | check c =>
    simp only [Origin.step]
    (repeat' split) <;> try exact quiet _ _ rfl (fun _ => waiting_snoc _ _ _)
    · rename_i k hk hid _ _ _ _ _
      exact upd _ _ c k _ hk rfl Iff.rfl (fun _ => waiting_snoc _ _ _)
    · rename_i k hk hid _ _
      refine h.put (c := c) (Slots.get_some_lt hk) (fun x => ?_) rfl
      rw [waiting_snoc]
      by_cases hx : c = x <;> simp [hx]
  | recv c =>
    simp only [Origin.step]
    (repeat' split) <;> try exact quiet _ _ rfl (fun _ => waiting_snoc _ _ _)
    all_goals
      rename_i k hk _ _
      refine h.put (c := c) (Slots.get_some_lt (by assumption)) (fun x => ?_) rfl
      rw [waiting_snoc]
      by_cases hx : c = x <;> simp [hx]
  | cancel c =>
    simp only [Origin.step]
    (repeat' split) <;> try exact quiet _ _ rfl (fun _ => waiting_snoc _ _ _)
    all_goals
      refine h.put (c := c) (Slots.get_some_lt (by assumption)) (fun x => ?_) rfl
      rw [waiting_snoc]
      by_cases hx : c = x <;> simp [hx]
  | dropConsumer c =>
    simp only [Origin.step]
    (repeat' split) <;> try exact quiet _ _ rfl (fun _ => waiting_snoc _ _ _)
    refine h.same (fun _ => waiting_snoc _ _ _) (Slots.length_put _ _ _) ?_
    intro x k' hk'
    rcases get_put_cases hk' with ⟨_, he⟩ | ⟨_, he⟩
    · cases he
    · exact id' x k' he
  | _ =>
    simp only [Origin.step]
    (repeat' split) <;> exact quiet _ _ rfl (fun _ => waiting_snoc _ _ _)

theorem waits_reach {tr : Trace} {s : State} (h : machine.Reach tr s) : Waits tr s := by
  refine Machine.Reach.induct (M := machine) (P := fun tr s => Waits tr s) ?_ ?_ h
  · refine ⟨?_, fun c _ => rfl⟩
    intro c k hk
    cases c <;> cases hk
  · intro tr s op _ ih
    exact waits_step ih op

/-! ## The number of wake-ups -/

/-- A notification on its way to consumer `c`. -/
def coming (s : State) (c : Nat) : Nat :=
  match s.pub with
  | some u => if u.notify = some c then 1 else 0
  | none => 0

/-- Every wake-up, past or to come, belongs to an announcement. -/
structure Wakes (tr : Trace) (s : State) : Prop where
  le : ∀ (c : Nat) (k : Cons), s.consumers.get c = some k →
    wakeups tr c + k.token.toNat + coming s c ≤ (delivered tr c).length + k.updates.length
  fresh : ∀ c, s.consumers.length ≤ c → wakeups tr c = 0

theorem delivered_snoc (tr : Trace) (e : Op × Out) (c : Nat) :
    delivered (tr ++ [e]) c = ((note (book tr) e).view c).delivered := by
  unfold delivered
  rw [book_snoc]

theorem Wakes.same {tr : Trace} {s s' : State} {e : Op × Out} (h : Wakes tr s)
    (hw : ∀ c, wakeups [e] c = 0) (hd : ∀ c, delivered (tr ++ [e]) c = delivered tr c)
    (hl : s'.consumers.length = s.consumers.length)
    (hc : ∀ (c : Nat) (k' : Cons), s'.consumers.get c = some k' → ∃ k, s.consumers.get c = some k ∧
      k'.token.toNat + coming s' c + k.updates.length ≤
        k.token.toNat + coming s c + k'.updates.length) : Wakes (tr ++ [e]) s' := by
  refine ⟨?_, ?_⟩
  · intro c k' hk'
    obtain ⟨k, hk, hp⟩ := hc c k' hk'
    have := h.le c k hk
    rw [wakeups_snoc, hw, hd]
    omega
  · intro c hx
    rw [wakeups_snoc, hw, h.fresh c (hl ▸ hx)]

theorem wakes_step {tr : Trace} {s : State} (hr : Regs s) (h : Wakes tr s) (op : Op) :
    Wakes (tr ++ [(op, (step s op).1)]) (step s op).2 := by
  have coming_of : ∀ s' : State, s'.pub = s.pub → ∀ c, coming s' c = coming s c := by
    intro s' hp c; unfold coming; rw [hp]
  have quiet : ∀ (e : Op × Out) (s' : State), s'.consumers = s.consumers →
      (∀ c, wakeups [e] c = 0) → (∀ c, delivered (tr ++ [e]) c = delivered tr c) →
      (∀ c, coming s' c = coming s c) → Wakes (tr ++ [e]) s' := by
    intro e s' h1 h2 h3 h4
    refine h.same h2 h3 (by rw [h1]) ?_
    rw [h1]
    intro c k hk
    exact ⟨k, hk, by rw [h4]; omega⟩
  have quiet' : ∀ (e : Op × Out) (s' : State), s'.consumers = s.consumers → s'.pub = s.pub →
      (∀ c, wakeups [e] c = 0) → (∀ c, ((note (book tr) e).view c).delivered = ((book tr).view c).delivered) →
      Wakes (tr ++ [e]) s' := fun e s' h1 h2 h3 h4 =>
    quiet e s' h1 h3 (fun c => (delivered_snoc _ _ _).trans (h4 c)) (coming_of s' h2)
  have upd : ∀ (e : Op × Out) (s' : State) (c : Nat) (k v : Cons), s.consumers.get c = some k →
      s'.consumers = s.consumers.put c (some v) → s'.pub = s.pub → v.token = k.token →
      v.updates = k.updates → (∀ c, wakeups [e] c = 0) →
      (∀ c, ((note (book tr) e).view c).delivered = ((book tr).view c).delivered) →
      Wakes (tr ++ [e]) s' := by
    intro e s' c k v hk hc hp ht hu h3 h4
    refine h.same h3 (fun c => (delivered_snoc _ _ _).trans (h4 c)) (by rw [hc, Slots.length_put]) ?_
    intro x k' hk'
    rw [hc] at hk'
    rw [coming_of s' hp]
    rcases get_put_cases hk' with ⟨rfl, he⟩ | ⟨_, he⟩
    · injection he with he
      subst he
      exact ⟨k, hk, by rw [ht, hu]; omega⟩
    · exact ⟨k', he, by omega⟩
  have nocome : coming s s.consumers.length = 0 := by
    unfold coming
    split
    · rename_i u hu
      rw [if_neg]
      intro hn
      have := hr.pubIdx u hu _ hn
      have := hr.lt _ (List.mem_of_getElem? this)
      omega
    · rfl
  cases op with
  | publishStart p path bc =>
    simp only [Origin.step]
    (repeat' split) <;> try exact quiet' _ _ rfl rfl (fun _ => rfl) (fun _ => rfl)
    rename_i hpub
    refine quiet _ _ rfl (fun _ => rfl) (fun c => ?_) (fun c => ?_)
    · rw [delivered_snoc]
      simp only [note]
      split <;> rfl
    · simp [coming, hpub]
  | publishStep =>
    simp only [Origin.step]
    (repeat' split) <;> try exact quiet' _ _ rfl rfl (fun _ => rfl) (fun _ => rfl)
    · rename_i u hu _ c hn
      refine h.same (fun _ => rfl) (fun c => delivered_snoc _ _ _) (wake_length _ _) ?_
      intro x k' hk'
      obtain ⟨k, hk, _, hup, _, h1, h2⟩ := wake_cases hk'
      refine ⟨k, hk, ?_⟩
      simp only [coming, hu, hn]
      rw [hup]
      by_cases hx : x = c
      · subst hx
        have := Bool.toNat_le k'.token
        simp
        omega
      · have hx' : ¬ c = x := fun he => hx he.symm
        rw [h2 hx]
        simp [hx']
    · rename_i u hu _ hn _ c hc _ k hk _ suffix hs
      refine h.same (fun _ => rfl) (fun c => delivered_snoc _ _ _) (Slots.length_put _ _ _) ?_
      intro x k' hk'
      rcases get_put_cases hk' with ⟨rfl, he⟩ | ⟨hne, he⟩
      · injection he with he
        subst he
        refine ⟨k, hk, ?_⟩
        simp [coming, hu, hn]
        omega
      · refine ⟨k', he, ?_⟩
        simp [coming, hu, hn, hne]
    · rename_i u hu _ hn _ c hc _ k hk _ hs
      refine quiet _ _ rfl (fun _ => rfl) (fun c => delivered_snoc _ _ _) (fun c => ?_)
      simp [coming, hu, hn]
    · rename_i u hu _ hn _ hend
      refine quiet _ _ rfl (fun _ => rfl) (fun c => delivered_snoc _ _ _) (fun c => ?_)
      simp [coming, hu, hn]
  | consumePrefix p pre order =>
    simp only [Origin.step]
    (repeat' split) <;> try exact quiet' _ _ rfl rfl (fun _ => rfl) (fun _ => rfl)
    refine ⟨?_, ?_⟩
    · intro c k' hk'
      rw [wakeups_snoc, delivered_snoc]
      rcases get_add_cases hk' with ⟨rfl, rfl⟩ | ⟨hne, he⟩
      · rw [h.fresh _ (Nat.le_refl _)]
        have : coming s s.consumers.length = 0 := nocome
        simp [wakeups, coming, *] at this ⊢
      · have := h.le c k' he
        simp only [note, if_neg hne]
        simp [wakeups, coming, delivered] at this ⊢
        exact this
    · intro c hx
      rw [Slots.length_add] at hx
      rw [wakeups_snoc, h.fresh c (by omega)]
      rfl
  | cloneStart d =>
    simp only [Origin.step]
    (repeat' split) <;> try exact quiet' _ _ rfl rfl (fun _ => rfl) (fun _ => rfl)
    refine ⟨?_, ?_⟩
    · intro c k' hk'
      rw [wakeups_snoc, delivered_snoc]
      rcases get_add_cases hk' with ⟨rfl, rfl⟩ | ⟨hne, he⟩
      · rw [h.fresh _ (Nat.le_refl _)]
        have : coming s s.consumers.length = 0 := nocome
        simp [wakeups, coming] at this ⊢
        rw [this]
        omega
      · have := h.le c k' he
        simp only [note, if_neg hne]
        simp [wakeups, coming, delivered] at this ⊢
        exact this
    · intro c hx
      rw [Slots.length_add] at hx
      rw [wakeups_snoc, h.fresh c (by omega)]
      rfl
  | cloneFinish c =>
    simp only [Origin.step]
    (repeat' split) <;> try exact quiet' _ _ rfl rfl (fun _ => rfl) (fun _ => rfl)
    · rename_i k hk _ _ _ _
      refine upd _ _ c k _ hk rfl rfl rfl rfl (fun _ => rfl) (fun x => ?_)
      simp only [note]
      split <;> rfl
    · rename_i k hk _ _
      refine upd _ _ c k _ hk rfl rfl rfl rfl (fun _ => rfl) (fun x => ?_)
      simp only [note]
      split <;> rfl
  | check c =>
    simp only [Origin.step]
    (repeat' split) <;> try exact quiet' _ _ rfl rfl (fun _ => rfl) (fun _ => rfl)
    · rename_i k hk hid _ suffix bc rest hup
      refine ⟨?_, ?_⟩
      · intro x k' hk'
        rw [wakeups_snoc, delivered_snoc]
        rcases get_put_cases hk' with ⟨rfl, he⟩ | ⟨hne, he⟩
        · injection he with he
          subst he
          have := h.le c k hk
          rw [hup] at this
          simp [note, wakeups, coming, delivered] at this ⊢
          omega
        · have := h.le x k' he
          have hne' : ¬ x = c := fun hx => hne hx.symm
          simp [note, wakeups, coming, delivered, hne'] at this ⊢
          exact this
      · intro x hx
        rw [Slots.length_put] at hx
        rw [wakeups_snoc, h.fresh x hx]
        rfl
    · rename_i k hk hid _ hup
      exact upd _ _ c k _ hk rfl rfl rfl rfl (fun _ => rfl) (fun x => rfl)
  | recv c =>
    simp only [Origin.step]
    (repeat' split) <;> try exact quiet' _ _ rfl rfl (fun _ => rfl) (fun _ => rfl)
    · rename_i k hk hw ht
      refine ⟨?_, ?_⟩
      · intro x k' hk'
        rw [wakeups_snoc, delivered_snoc]
        rcases get_put_cases hk' with ⟨rfl, he⟩ | ⟨hne, he⟩
        · injection he with he
          subst he
          have := h.le c k hk
          rw [ht] at this
          simp [note, wakeups, coming, delivered] at this ⊢
          omega
        · have := h.le x k' he
          simp [note, wakeups, coming, delivered, hne] at this ⊢
          exact this
      · intro x hx
        rw [Slots.length_put] at hx
        have := Slots.get_some_lt hk
        rw [wakeups_snoc, h.fresh x hx]
        have hne : ¬ c = x := by omega
        simp [wakeups, hne]
    · rename_i k hk _ _ _
      exact upd _ _ c k _ hk rfl rfl rfl rfl (fun _ => rfl) (fun x => rfl)
  | cancel c =>
    simp only [Origin.step]
    (repeat' split) <;> try exact quiet' _ _ rfl rfl (fun _ => rfl) (fun _ => rfl)
    rename_i k hk _
    exact upd _ _ c k _ hk rfl rfl rfl rfl (fun _ => rfl) (fun x => rfl)
  | dropConsumer c =>
    simp only [Origin.step]
    (repeat' split) <;> try exact quiet' _ _ rfl rfl (fun _ => rfl) (fun _ => rfl)
    refine h.same (fun _ => rfl) (fun c => delivered_snoc _ _ _) (Slots.length_put _ _ _) ?_
    intro x k' hk'
    rcases get_put_cases hk' with ⟨_, he⟩ | ⟨_, he⟩
    · cases he
    · exact ⟨k', he, Nat.le_refl _⟩
  | _ =>
    simp only [Origin.step]
    (repeat' split) <;> exact quiet' _ _ rfl rfl (fun _ => rfl) (fun _ => rfl)

theorem wakes_reach {tr : Trace} {s : State} (h : machine.Reach tr s) : Wakes tr s := by
  refine Machine.Reach.induct (M := machine) (P := fun tr s => Wakes tr s) ?_ ?_ h
  · refine ⟨?_, fun c _ => rfl⟩
    intro c k hk
    cases c <;> cases hk
  · intro tr s op hr ih
    exact wakes_step (regs_reach hr) ih op

end Verif.Model.Origin
