import Verif.Model.OriginSpec

/-!
# Invariants of the origin machine
-/

set_option autoImplicit false

namespace Verif.Model.Origin

open Verif Verif.Model.Origin.Spec

/-! ## Lists -/

theorem strip_eq_some {pre path suffix : Path} :
    strip pre path = some suffix ↔ path = pre ++ suffix := by
  induction pre generalizing path with
  | nil => simp [strip, eq_comm]
  | cons a pre ih =>
    cases path with
    | nil => simp [strip]
    | cons b path =>
      simp only [strip, List.cons_append, List.cons.injEq]
      split
      · rename_i h; subst h; simp [ih]
      · rename_i h; simp; intro h'; exact absurd h'.symm h

theorem without_eq_some {pre path suffix : Path} :
    without pre path = some suffix ↔ path = pre ++ suffix := by
  unfold without
  split
  · rename_i h
    obtain ⟨t, rfl⟩ := h
    simp
  · rename_i h
    simp only [reduceCtorEq, false_iff]
    rintro rfl
    exact h (List.prefix_append _ _)

theorem strip_eq_without (pre path : Path) : strip pre path = without pre path := by
  apply Option.ext
  intro x
  rw [strip_eq_some, without_eq_some]

theorem matching_eq_under (pre : Path) (l : List (Path × Nat)) : matching pre l = under pre l := by
  unfold matching under
  congr 1
  funext e
  rw [strip_eq_without]

theorem mem_under {pre suffix : Path} {bc : Nat} {l : List (Path × Nat)} :
    (suffix, bc) ∈ under pre l ↔ (pre ++ suffix, bc) ∈ l := by
  unfold under
  rw [List.mem_filterMap]
  constructor
  · rintro ⟨⟨path, b⟩, hm, he⟩
    simp only [Option.map_eq_some_iff, Prod.mk.injEq] at he
    obtain ⟨a, ha, rfl, rfl⟩ := he
    rw [without_eq_some] at ha
    rwa [← ha]
  · intro h
    refine ⟨_, h, ?_⟩
    simp only [Option.map_eq_some_iff, Prod.mk.injEq]
    exact ⟨suffix, without_eq_some.2 rfl, rfl, trivial⟩

theorem under_append (pre : Path) (a b : List (Path × Nat)) :
    under pre (a ++ b) = under pre a ++ under pre b := by
  unfold under; simp

/-- Removing an element by swapping keeps what is before it and permutes what is after it. -/
theorem swapRemove_split (a b : List Nat) (x : Nat) :
    ∃ b', swapRemove (a ++ x :: b) a.length = a ++ b' ∧ b'.Perm b := by
  cases h : b.reverse with
  | nil =>
    have hb : b = [] := by simpa using h
    subst hb
    exact ⟨[], by simp [swapRemove], List.Perm.nil⟩
  | cons y r =>
    have hb : b = r.reverse ++ [y] := by
      have := congrArg List.reverse h
      simpa using this
    subst hb
    refine ⟨y :: r.reverse, ?_, ?_⟩
    · have h1 : a ++ x :: (r.reverse ++ [y]) = (a ++ x :: r.reverse) ++ [y] := by simp
      unfold swapRemove
      rw [h1, List.getLast?_concat]
      simp only []
      rw [List.set_append_left _ _ (by simp), List.dropLast_concat]
      simp
    · exact (List.perm_append_singleton y r.reverse).symm

theorem split_at {l : List Nat} {i x : Nat} (h : l[i]? = some x) :
    l = l.take i ++ x :: l.drop (i + 1) ∧ (l.take i).length = i := by
  rw [List.getElem?_eq_some_iff] at h
  obtain ⟨hi, hx⟩ := h
  constructor
  · rw [← hx, ← List.drop_eq_getElem_cons hi, List.take_append_drop]
  · rw [List.length_take]; omega

theorem swapRemove_at {l : List Nat} {i x : Nat} (h : l[i]? = some x) :
    (swapRemove l i).Perm (l.take i ++ l.drop (i + 1)) ∧
      ((swapRemove l i).drop i).Perm (l.drop (i + 1)) := by
  obtain ⟨hl, hlen⟩ := split_at h
  obtain ⟨b', h1, h2⟩ := swapRemove_split (l.take i) (l.drop (i + 1)) x
  rw [← hl, hlen] at h1
  rw [h1]
  refine ⟨List.Perm.append_left _ h2, ?_⟩
  rw [List.drop_append_of_le_length (by omega), List.drop_eq_nil_of_le (by omega), List.nil_append]
  exact h2

theorem nodup_split {l : List Nat} (hn : l.Nodup) {i x : Nat} (h : l[i]? = some x) :
    (l.take i ++ l.drop (i + 1)).Nodup ∧ x ∉ l.take i ++ l.drop (i + 1) := by
  obtain ⟨hl, _⟩ := split_at h
  rw [hl] at hn
  have := (List.perm_middle (a := x) (l₁ := l.take i) (l₂ := l.drop (i + 1))).nodup_iff.1 hn
  rw [List.nodup_cons] at this
  exact ⟨this.2, this.1⟩

theorem mem_split {l : List Nat} {i x : Nat} (h : l[i]? = some x) (c : Nat) :
    c ∈ l ↔ c = x ∨ c ∈ l.take i ++ l.drop (i + 1) := by
  obtain ⟨hl, _⟩ := split_at h
  have h1 : c ∈ l ↔ c ∈ l.take i ++ x :: l.drop (i + 1) := by rw [← hl]
  rw [h1]
  simp only [List.mem_append, List.mem_cons]
  grind

theorem mem_drop_split {l : List Nat} {i x : Nat} (h : l[i]? = some x) (c : Nat) :
    c ∈ l.drop i ↔ c = x ∨ c ∈ l.drop (i + 1) := by
  rw [List.getElem?_eq_some_iff] at h
  obtain ⟨hi, hx⟩ := h
  rw [List.drop_eq_getElem_cons hi, List.mem_cons, hx]

theorem get_put_cases {α : Type} {s : Slots α} {i j : Nat} {v : Option α} {x : α}
    (h : (s.put i v).get j = some x) : (i = j ∧ v = some x) ∨ (i ≠ j ∧ s.get j = some x) := by
  rw [Slots.get_put] at h
  split at h
  · split at h
    · exact .inl ⟨by assumption, h⟩
    · cases h
  · exact .inr ⟨by assumption, h⟩

theorem get_add_cases {α : Type} {s : Slots α} {j : Nat} {v x : α}
    (h : (s.add v).get j = some x) : (j = s.length ∧ x = v) ∨ (j ≠ s.length ∧ s.get j = some x) := by
  rw [Slots.get_add] at h
  split at h
  · injection h with h; exact .inl ⟨by assumption, h.symm⟩
  · exact .inr ⟨by assumption, h⟩

theorem trim_dead (f : Nat → Bool) (l : List Nat) :
    ∃ dead, l = (l.reverse.dropWhile f).reverse ++ dead ∧ ∀ c ∈ dead, f c = true := by
  refine ⟨(l.reverse.takeWhile f).reverse, ?_, ?_⟩
  · rw [← List.reverse_append, List.takeWhile_append_dropWhile, List.reverse_reverse]
  · intro c hc
    rw [List.mem_reverse] at hc
    have := List.all_takeWhile (p := f) (l := l.reverse)
    rw [List.all_eq_true] at this
    exact this c hc

/-! ## Handle tables -/

theorem producers_step {tr : Trace} {s : State} (op : Op)
    (h : s.producers.Tracks (ProducerMade tr) (ProducerGone tr)) :
    (step s op).2.producers.Tracks (ProducerMade (tr ++ [(op, (step s op).1)]))
      (ProducerGone (tr ++ [(op, (step s op).1)])) := by
  cases op <;> simp only [step] <;> (repeat' split) <;> first
    | exact h.congr (fun i => by simp [ProducerMade]) (fun i => by simp [ProducerGone])
    | exact h.add _ (fun i => by simp [ProducerMade]; grind) (fun i => by simp [ProducerGone])
    | exact h.put_none (by assumption) (fun i => by simp [ProducerMade])
        (fun i => by simp [ProducerGone])

theorem wake_tracks {cs : Slots Cons} {cr en cr' en' : Nat → Prop} (h : cs.Tracks cr en) (c : Nat)
    (hc : ∀ i, cr' i ↔ cr i) (he : ∀ i, en' i ↔ en i) : (wake cs c).Tracks cr' en' := by
  unfold wake
  split
  · exact h.put_some _ (by assumption) hc he
  · exact h.congr hc he

theorem consumers_step {tr : Trace} {s : State} (op : Op)
    (h : s.consumers.Tracks (ConsumerMade tr) (ConsumerGone tr)) :
    (step s op).2.consumers.Tracks (ConsumerMade (tr ++ [(op, (step s op).1)]))
      (ConsumerGone (tr ++ [(op, (step s op).1)])) := by
  cases op <;> simp only [step] <;> (repeat' split) <;> first
    | exact h.congr (fun i => by simp [ConsumerMade]) (fun i => by simp [ConsumerGone])
    | exact h.add _ (fun i => by simp [ConsumerMade]; grind) (fun i => by simp [ConsumerGone])
    | exact h.put_none (by assumption) (fun i => by simp [ConsumerMade])
        (fun i => by simp [ConsumerGone])
    | exact h.put_some _ (by assumption) (fun i => by simp [ConsumerMade])
        (fun i => by simp [ConsumerGone])
    | exact wake_tracks h _ (fun i => by simp [ConsumerMade]) (fun i => by simp [ConsumerGone])

/-- The handle tables agree with the history. -/
structure Tables (tr : Trace) (s : State) : Prop where
  producers : s.producers.Tracks (ProducerMade tr) (ProducerGone tr)
  consumers : s.consumers.Tracks (ConsumerMade tr) (ConsumerGone tr)

theorem tables_reach {tr : Trace} {s : State} (h : machine.Reach tr s) : Tables tr s := by
  refine Machine.Reach.induct (M := machine) (P := fun tr s => Tables tr s) ?_ ?_ h
  · constructor
    · constructor
      · intro i
        cases i <;> simp [machine, init, ProducerMade, ProducerGone, Slots.get]
      · intro i
        simp [machine, init, ProducerMade, ProducerGone]
    · constructor <;> intro i <;> simp [machine, init, ConsumerMade, ConsumerGone, Slots.get]
  · intro tr s op _ ih
    exact ⟨producers_step op ih.producers, consumers_step op ih.consumers⟩

/-! ## The list of consumers -/

/-- The list of consumers is as it should be. -/
structure Regs (s : State) : Prop where
  nodup : s.entries.Nodup
  lt : ∀ c, c ∈ s.entries → c < s.consumers.length
  reg : s.alive = true → ∀ (c : Nat) (k : Cons), s.consumers.get c = some k →
    k.phase ≠ .cloning → c ∈ s.entries
  unreg : ∀ (c : Nat) (k : Cons), s.consumers.get c = some k → k.phase = .cloning → c ∉ s.entries
  pubProducer : ∀ u, s.pub = some u → (s.producers.get u.producer).isSome
  pubIdx : ∀ u, s.pub = some u → ∀ c, u.notify = some c → s.entries[u.i]? = some c

theorem alive_iff {s : State} :
    s.alive = true ↔ (∃ p, (s.producers.get p).isSome) ∨ ∃ k, (s.tasks.get k).isSome := by
  unfold State.alive
  rw [decide_eq_true_iff]
  have h1 := Slots.count_eq_zero (s := s.producers)
  have h2 := Slots.count_eq_zero (s := s.tasks)
  constructor
  · intro h
    by_cases hp : s.producers.count = 0
    · refine .inr (Classical.byContradiction fun hn => ?_)
      have : s.tasks.count = 0 := h2.2 fun i => by
        cases hg : s.tasks.get i with
        | none => rfl
        | some a => exact absurd ⟨i, by simp [hg]⟩ hn
      omega
    · refine .inl (Classical.byContradiction fun hn => hp (h1.2 fun i => ?_))
      cases hg : s.producers.get i with
      | none => rfl
      | some a => exact absurd ⟨i, by simp [hg]⟩ hn
  · rintro (⟨p, hp⟩ | ⟨k, hk⟩)
    · obtain ⟨a, ha⟩ := Option.isSome_iff_exists.1 hp
      have := Slots.count_pos ha
      omega
    · obtain ⟨a, ha⟩ := Option.isSome_iff_exists.1 hk
      have := Slots.count_pos ha
      omega

theorem isSome_put_none {α : Type} {s : Slots α} {i j : Nat}
    (h : ((s.put i none).get j).isSome) : (s.get j).isSome := by
  rw [Slots.get_put] at h
  split at h
  · split at h <;> cases h
  · exact h

/-- An origin that is gone stays gone. -/
theorem alive_step {s : State} (hr : Regs s) (op : Op) (h : (step s op).2.alive = true) :
    s.alive = true := by
  revert h
  cases op <;> simp only [step] <;> (repeat' split) <;> intro h <;> first
    | exact h
    | exact alive_iff.2 (.inl ⟨_, hr.pubProducer _ (by assumption)⟩)
    | exact alive_iff.2 (.inl ⟨_, Option.isSome_iff_exists.2 ⟨_, by assumption⟩⟩)
    | exact alive_iff.2 (.inr ⟨_, Option.isSome_iff_exists.2 ⟨_, by assumption⟩⟩)

theorem wake_cases {cs : Slots Cons} {c x : Nat} {k : Cons} (h : (wake cs c).get x = some k) :
    ∃ k₀, cs.get x = some k₀ ∧ k.pre = k₀.pre ∧ k.updates = k₀.updates ∧ k.phase = k₀.phase ∧
      (x = c → k.token = true) ∧ (x ≠ c → k.token = k₀.token) := by
  unfold wake at h
  split at h
  · rename_i k' hk'
    rcases get_put_cases h with ⟨rfl, he⟩ | ⟨hne, he⟩
    · injection he with he
      subst he
      exact ⟨k', hk', rfl, rfl, rfl, fun _ => rfl, fun hx => absurd rfl hx⟩
    · exact ⟨k, he, rfl, rfl, rfl, fun hx => absurd hx.symm hne, fun _ => rfl⟩
  · rename_i hn
    refine ⟨k, h, rfl, rfl, rfl, fun hx => ?_, fun _ => rfl⟩
    subst hx
    rw [hn] at h
    cases h

theorem wake_length (cs : Slots Cons) (c : Nat) : (wake cs c).length = cs.length := by
  unfold wake
  split <;> simp

theorem Regs.of {s s' : State} (h : Regs s) (he : s'.entries = s.entries)
    (hl : s'.consumers.length = s.consumers.length)
    (hc : ∀ (c : Nat) (k' : Cons), s'.consumers.get c = some k' →
      ∃ k, s.consumers.get c = some k ∧ (k.phase = .cloning ↔ k'.phase = .cloning))
    (ha : s'.alive = true → s.alive = true)
    (hp : ∀ u, s'.pub = some u → (s'.producers.get u.producer).isSome)
    (hi : ∀ u, s'.pub = some u → ∀ c, u.notify = some c → s.entries[u.i]? = some c) : Regs s' := by
  refine ⟨by rw [he]; exact h.nodup, by rw [he, hl]; exact h.lt, ?_, ?_, hp, by rw [he]; exact hi⟩
  · intro al c k' hk' hn
    obtain ⟨k, hk, hph⟩ := hc c k' hk'
    rw [he]
    exact h.reg (ha al) c k hk (fun hx => hn (hph.1 hx))
  · intro c k' hk' hn
    obtain ⟨k, hk, hph⟩ := hc c k' hk'
    rw [he]
    exact h.unreg c k hk (hph.2 hn)

theorem put_live {s : Slots Cons} {c : Nat} {k v : Cons} (hk : s.get c = some k)
    (hv : k.phase = .cloning ↔ v.phase = .cloning) (x : Nat) (k' : Cons)
    (h : (s.put c (some v)).get x = some k') :
    ∃ k, s.get x = some k ∧ (k.phase = .cloning ↔ k'.phase = .cloning) := by
  rcases get_put_cases h with ⟨rfl, he⟩ | ⟨_, he⟩
  · injection he with he
    subst he
    exact ⟨k, hk, hv⟩
  · exact ⟨k', he, Iff.rfl⟩

theorem put_dead {s : Slots Cons} {c : Nat} (x : Nat) (k' : Cons)
    (h : (s.put c none).get x = some k') :
    ∃ k, s.get x = some k ∧ (k.phase = .cloning ↔ k'.phase = .cloning) := by
  rcases get_put_cases h with ⟨_, he⟩ | ⟨_, he⟩
  · cases he
  · exact ⟨k', he, Iff.rfl⟩

/-- A consumer is added to the list. -/
theorem Regs.push {s s' : State} (h : Regs s) {c : Nat} {v : Cons}
    (he : s'.entries = s.entries ++ [c]) (hnew : c ∉ s.entries)
    (hget : ∀ x, s'.consumers.get x = if x = c then some v else s.consumers.get x)
    (hl : s.consumers.length ≤ s'.consumers.length) (hcl : c < s'.consumers.length)
    (hv : v.phase ≠ .cloning)
    (ha : s'.alive = true → s.alive = true) (hp : s'.pub = none) : Regs s' := by
  refine ⟨?_, ?_, ?_, ?_, by rw [hp]; simp, by rw [hp]; simp⟩
  · rw [he, List.nodup_append]
    refine ⟨h.nodup, by simp, ?_⟩
    intro a ha b hb hab
    rw [List.mem_singleton] at hb
    subst hab; subst hb
    exact hnew ha
  · intro x hx
    rw [he, List.mem_append, List.mem_singleton] at hx
    rcases hx with hx | rfl
    · have := h.lt x hx; omega
    · exact hcl
  · intro al x k hk hn
    rw [he, List.mem_append, List.mem_singleton]
    rw [hget] at hk
    split at hk
    · exact .inr (by assumption)
    · exact .inl (h.reg (ha al) x k hk hn)
  · intro x k hk hn hx
    rw [hget] at hk
    split at hk
    · injection hk with hk; subst hk; exact hv hn
    · rename_i hne
      rw [he, List.mem_append, List.mem_singleton] at hx
      rcases hx with hx | hx
      · exact h.unreg x k hk hn hx
      · exact hne hx

/-- Entries of consumers that are gone are removed from the list. -/
theorem Regs.prune {s s' : State} (h : Regs s) (hn : s'.entries.Nodup)
    (hsub : ∀ c, c ∈ s'.entries → c ∈ s.entries)
    (hdead : ∀ c, c ∈ s.entries → c ∉ s'.entries → s.consumers.get c = none)
    (hc : s'.consumers = s.consumers) (ha : s'.alive = s.alive)
    (hp : ∀ u, s'.pub = some u → (s'.producers.get u.producer).isSome)
    (hi : ∀ u, s'.pub = some u → u.notify = none) : Regs s' := by
  refine ⟨hn, ?_, ?_, ?_, hp, ?_⟩
  · intro c hc'
    rw [hc]; exact h.lt c (hsub c hc')
  · intro al c k hk hx
    rw [hc] at hk
    rw [ha] at al
    have hm := h.reg al c k hk hx
    refine Classical.byContradiction fun hne => ?_
    rw [hdead c hm hne] at hk
    cases hk
  · intro c k hk hx hm
    rw [hc] at hk
    exact h.unreg c k hk hx (hsub c hm)
  · intro u hu c hcn
    rw [hi u hu] at hcn
    cases hcn

theorem regs_step {s : State} (hr : Regs s) (op : Op) : Regs (step s op).2 := by
  have ha := alive_step hr op
  have same : ∀ (x : Nat) (k' : Cons), s.consumers.get x = some k' →
      ∃ k, s.consumers.get x = some k ∧ (k.phase = .cloning ↔ k'.phase = .cloning) :=
    fun x k' h => ⟨k', h, Iff.rfl⟩
  have idx := hr.pubIdx
  have prod := hr.pubProducer
  revert ha
  cases op with
  | publishStart p path bc =>
    simp only [step]
    (repeat' split) <;> intro ha
    · exact hr
    · exact hr
    · refine hr.of rfl rfl same ha ?_ ?_
      · intro u hu; cases hu; simp_all
      · intro u hu c hc; cases hu; cases hc
  | publishStep =>
    simp only [step]
    (repeat' split) <;> intro ha
    · exact hr
    · rename_i u hu _ _ _
      refine hr.of rfl (wake_length _ _) ?_ ha ?_ ?_
      · intro x k' h
        obtain ⟨k, hk, _, _, hph, _⟩ := wake_cases h
        exact ⟨k, hk, by rw [hph]⟩
      · rintro v ⟨⟩; exact prod u hu
      · rintro u ⟨⟩ c ⟨⟩
    · rename_i u hu _ hnone _ c hc _ hdead
      obtain ⟨p1, _⟩ := swapRemove_at hc
      obtain ⟨n1, n2⟩ := nodup_split hr.nodup hc
      refine hr.prune (p1.nodup_iff.2 n1) ?_ ?_ rfl rfl prod ?_
      · intro x hx
        exact (mem_split hc x).2 (.inr (p1.mem_iff.1 hx))
      · intro x hx hn
        rcases (mem_split hc x).1 hx with rfl | hm
        · exact hdead
        · exact absurd (p1.mem_iff.2 hm) hn
      · intro v hv
        simp only [hu, Option.some.injEq] at hv
        subst hv
        exact hnone
    · rename_i u hu _ hnone _ c hc _ k hk _ suffix hs
      refine hr.of rfl (by simp) (put_live hk Iff.rfl) ha ?_ ?_
      · rintro v ⟨⟩; exact prod u hu
      · rintro u ⟨⟩ c ⟨⟩; exact hc
    · rename_i u hu _ hnone _ c hc _ k hk _ hs
      refine hr.of rfl rfl same ha ?_ ?_
      · rintro v ⟨⟩; exact prod u hu
      · rintro v ⟨⟩ c hcn
        simp_all
    · exact hr.of rfl rfl same ha (by simp) (by simp)
  | lookup p path => simp only [step]; (repeat' split) <;> intro _ <;> exact hr
  | consumePrefix p pre order =>
    simp only [step]
    (repeat' split) <;> intro ha <;> try exact hr
    refine hr.push (c := s.consumers.length) rfl ?_ (fun x => Slots.get_add _ _ x)
      (by simp) (by simp) (by simp) ha (by assumption)
    intro hm
    exact Nat.lt_irrefl _ (hr.lt _ hm)
  | unused p =>
    simp only [step]
    (repeat' split) <;> intro ha <;> try exact hr
    all_goals
      obtain ⟨dead, hd, hall⟩ := trim_dead (fun c => (s.consumers.get c).isNone) s.entries
      generalize hg : (List.dropWhile (fun c => (s.consumers.get c).isNone) s.entries.reverse).reverse = rest at *
      have hnd := hr.nodup
      rw [hd, List.nodup_append] at hnd
      refine hr.prune hnd.1 ?_ ?_ rfl rfl prod (by simp_all)
      · intro c hc
        rw [hd]
        exact List.mem_append_left _ hc
      · intro c hc hn
        rw [hd, List.mem_append] at hc
        rcases hc with hc | hc
        · exact absurd hc hn
        · simpa using hall c hc
  | cloneProducer p =>
    simp only [step]
    (repeat' split) <;> intro ha <;> try exact hr
    refine hr.of rfl rfl same ha ?_ idx
    intro u hu
    rw [Slots.get_add]
    split
    · rfl
    · exact prod u hu
  | dropProducer p =>
    simp only [step]
    (repeat' split) <;> intro ha <;> try exact hr
    rename_i hne
    refine hr.of rfl rfl same ha ?_ idx
    intro u hu
    simp only [] at hu
    rw [hu] at hne
    simp only [Option.map_some, Option.some.injEq] at hne
    rw [Slots.get_put_ne _ (fun h => hne h.symm)]
    exact prod u hu
  | close bc => simp only [step]; intro ha; exact hr.of rfl rfl same ha prod idx
  | task k =>
    simp only [step]
    (repeat' split) <;> intro ha <;> first
      | exact hr
      | exact hr.of rfl rfl same ha prod idx
  | check c =>
    simp only [step]
    (repeat' split) <;> intro ha <;> first
      | exact hr
      | exact hr.of rfl (by simp) (put_live (by assumption) (by simp_all)) ha prod idx
  | recv c =>
    simp only [step]
    (repeat' split) <;> intro ha <;> first
      | exact hr
      | exact hr.of rfl (by simp) (put_live (by assumption) (by simp_all)) ha prod idx
  | cancel c =>
    simp only [step]
    (repeat' split) <;> intro ha <;> first
      | exact hr
      | exact hr.of rfl (by simp) (put_live (by assumption) (by simp_all)) ha prod idx
  | cloneStart c =>
    simp only [step]
    (repeat' split) <;> intro ha <;> try exact hr
    obtain ⟨h1, h2, h3, h4, h5, h6⟩ := hr
    refine ⟨h1, ?_, ?_, ?_, h5, h6⟩
    · intro x hx
      have := h2 x hx
      simp only [Slots.length_add]
      omega
    · intro al x k hk hn
      rcases get_add_cases hk with ⟨_, rfl⟩ | ⟨_, hk⟩
      · exact absurd rfl hn
      · exact h3 (ha al) x k hk hn
    · intro x k hk hn hx
      rcases get_add_cases hk with ⟨rfl, rfl⟩ | ⟨_, hk⟩
      · exact Nat.lt_irrefl _ (h2 _ hx)
      · exact h4 x k hk hn hx
  | cloneFinish c =>
    simp only [step]
    (repeat' split) <;> intro ha <;> try exact hr
    · rename_i k hk hph _ _ hpub
      refine hr.push (c := c) rfl (hr.unreg c k hk hph)
        (v := ⟨k.pre, k.updates, k.token, .idle⟩) (fun x => ?_)
        (by simp) (by simpa using Slots.get_some_lt hk) (by simp) ha hpub
      rw [Slots.get_put]
      by_cases hx : c = x
      · subst hx; rw [if_pos rfl, if_pos rfl, if_pos (Slots.get_some_lt hk)]
      · rw [if_neg hx, if_neg (fun h => hx h.symm)]
    · rename_i k hk hph hal
      obtain ⟨h1, h2, h3, h4, h5, h6⟩ := hr
      refine ⟨h1, by simpa using h2, fun al => absurd (ha al) hal, ?_, h5, h6⟩
      intro x k' hk' hn
      rcases get_put_cases hk' with ⟨_, he⟩ | ⟨_, he⟩
      · injection he with he; subst he; cases hn
      · exact h4 x k' he hn
  | dropConsumer c =>
    simp only [step]
    (repeat' split) <;> intro ha <;> first
      | exact hr
      | exact hr.of rfl (by simp) put_dead ha prod idx

theorem regs_reach {tr : Trace} {s : State} (h : machine.Reach tr s) : Regs s := by
  refine Machine.Reach.induct (M := machine) (P := fun _ s => Regs s) ?_ ?_ h
  · refine ⟨by simp [init], by simp [init], ?_, ?_, ?_, ?_⟩ <;> simp [init, Slots.get]
  · intro tr s op _ ih
    exact regs_step ih op

/-! ## What the consumers receive -/

/-- The consumers a `publish` still has to visit. -/
def todo (entries : List Nat) (u : Pub) : List Nat :=
  match u.notify with
  | none => entries.drop u.i
  | some _ => entries.drop (u.i + 1)

/-- What a consumer is still going to get from a `publish` in progress. -/
def owed (s : State) (c : Nat) (pre : Path) : List (Path × Nat) :=
  match s.pub with
  | none => []
  | some u => if c ∈ todo s.entries u then under pre [(u.path, u.bc)] else []

/-- The state of the consumers agrees with the history. -/
structure Views (b : Book) (s : State) : Prop where
  publishing : b.publishing = s.pub.isSome
  pre : ∀ (c : Nat) (k : Cons), s.consumers.get c = some k → (b.view c).pre = k.pre
  ex : ∀ (c : Nat) (k : Cons), s.consumers.get c = some k →
    ((b.view c).exists' = true ↔ k.phase ≠ .cloning)
  flow : ∀ (c : Nat) (k : Cons), s.consumers.get c = some k → (b.view c).clean = true →
    (b.view c).expected = (b.view c).delivered ++ k.updates ++ owed s c k.pre
  half : ∀ (c : Nat) (k : Cons), s.consumers.get c = some k → k.phase = .cloning →
    (b.view c).clean = true → s.pub = none

theorem book_snoc (tr : Trace) (e : Op × Out) : book (tr ++ [e]) = note (book tr) e := by
  simp [book]

theorem Views.of {b b' : Book} {s s' : State} (h : Views b s) (hv : b'.view = b.view)
    (hp : b'.publishing = s'.pub.isSome) (hn : s.pub = none → s'.pub = none)
    (hc : ∀ (c : Nat) (k' : Cons), s'.consumers.get c = some k' → ∃ k, s.consumers.get c = some k ∧
      k'.pre = k.pre ∧ k'.updates ++ owed s' c k.pre = k.updates ++ owed s c k.pre ∧
      (k.phase = .cloning ↔ k'.phase = .cloning)) : Views b' s' := by
  refine ⟨hp, ?_, ?_, ?_, ?_⟩
  · intro c k' hk'
    obtain ⟨k, hk, h1, h2, h3⟩ := hc c k' hk'
    rw [hv, h1]; exact h.pre c k hk
  · intro c k' hk'
    obtain ⟨k, hk, h1, h2, h3⟩ := hc c k' hk'
    rw [hv, h.ex c k hk]
    exact not_congr h3
  · intro c k' hk' hcl
    obtain ⟨k, hk, h1, h2, h3⟩ := hc c k' hk'
    rw [hv] at hcl ⊢
    rw [h.flow c k hk hcl, h1, List.append_assoc, List.append_assoc, h2]
  · intro c k' hk' hph hcl
    obtain ⟨k, hk, h1, h2, h3⟩ := hc c k' hk'
    rw [hv] at hcl
    exact hn (h.half c k hk (h3.2 hph) hcl)

/-- Nothing happened that matters here. -/
theorem Views.quiet {b b' : Book} {s s' : State} (h : Views b s) (hb : b' = b)
    (hp : s'.pub = s.pub) (he : ∀ u, s.pub = some u → s'.entries = s.entries)
    (hc : ∀ (c : Nat) (k' : Cons), s'.consumers.get c = some k' → ∃ k, s.consumers.get c = some k ∧
      k'.pre = k.pre ∧ k'.updates = k.updates ∧ (k.phase = .cloning ↔ k'.phase = .cloning)) :
    Views b' s' := by
  subst hb
  refine h.of rfl (by rw [hp]; exact h.publishing) (fun hx => by rw [hp]; exact hx) ?_
  intro c k' hk'
  obtain ⟨k, hk, h1, h2, h3⟩ := hc c k' hk'
  refine ⟨k, hk, h1, ?_, h3⟩
  rw [h2]
  congr 1
  unfold owed
  rw [hp]
  cases hpu : s.pub with
  | none => rfl
  | some u => simp only []; rw [he u hpu]

theorem put_quiet {s : Slots Cons} {c : Nat} {k v : Cons} (hk : s.get c = some k)
    (h1 : v.pre = k.pre) (h2 : v.updates = k.updates)
    (hv : k.phase = .cloning ↔ v.phase = .cloning) (x : Nat) (k' : Cons)
    (h : (s.put c (some v)).get x = some k') :
    ∃ k, s.get x = some k ∧ k'.pre = k.pre ∧ k'.updates = k.updates ∧
      (k.phase = .cloning ↔ k'.phase = .cloning) := by
  rcases get_put_cases h with ⟨rfl, he⟩ | ⟨_, he⟩
  · injection he with he
    subst he
    exact ⟨k, hk, h1, h2, hv⟩
  · exact ⟨k', he, rfl, rfl, Iff.rfl⟩

theorem put_none_quiet {s : Slots Cons} {c : Nat} (x : Nat) (k' : Cons)
    (h : (s.put c none).get x = some k') :
    ∃ k, s.get x = some k ∧ k'.pre = k.pre ∧ k'.updates = k.updates ∧
      (k.phase = .cloning ↔ k'.phase = .cloning) := by
  rcases get_put_cases h with ⟨_, he⟩ | ⟨_, he⟩
  · cases he
  · exact ⟨k', he, rfl, rfl, Iff.rfl⟩

theorem owed_none {s : State} (h : s.pub = none) (c : Nat) (pre : Path) : owed s c pre = [] := by
  unfold owed; rw [h]

theorem owed_in {s : State} {u : Pub} (h : s.pub = some u) {c : Nat}
    (hm : c ∈ todo s.entries u) (pre : Path) : owed s c pre = under pre [(u.path, u.bc)] := by
  unfold owed; rw [h]; exact if_pos hm

theorem owed_out {s : State} {u : Pub} (h : s.pub = some u) {c : Nat}
    (hm : c ∉ todo s.entries u) (pre : Path) : owed s c pre = [] := by
  unfold owed; rw [h]; exact if_neg hm

theorem owed_congr {s s' : State} {u u' : Pub} (h : s.pub = some u) (h' : s'.pub = some u')
    (hp : u'.path = u.path) (hb : u'.bc = u.bc) {c : Nat}
    (hm : c ∈ todo s'.entries u' ↔ c ∈ todo s.entries u) (pre : Path) :
    owed s' c pre = owed s c pre := by
  by_cases hc : c ∈ todo s.entries u
  · rw [owed_in h hc, owed_in h' (hm.2 hc), hp, hb]
  · rw [owed_out h hc, owed_out h' (fun hx => hc (hm.1 hx))]

theorem Views.finish {b : Book} {s s' : State} (h : Views b s) {c : Nat} {k : Cons}
    (hk : s.consumers.get c = some k)
    (hcons : s'.consumers = s.consumers.put c (some { k with phase := .idle }))
    (hp : s'.pub = s.pub) (he : s'.entries = s.entries ∨ s.pub = none) :
    Views (note b (.cloneFinish c, .ok)) s' := by
  have ho : ∀ x pre, owed s' x pre = owed s x pre := by
    intro x pre
    rcases he with he | he
    · unfold owed; rw [hp, he]
    · rw [owed_none he, owed_none (hp.trans he)]
  have key : ∀ (x : Nat) (k' : Cons), s'.consumers.get x = some k' →
      (x = c ∧ k' = { k with phase := .idle }) ∨ (x ≠ c ∧ s.consumers.get x = some k') := by
    intro x k' hk'
    rw [hcons] at hk'
    rcases get_put_cases hk' with ⟨rfl, he⟩ | ⟨hne, he⟩
    · injection he with he; exact .inl ⟨rfl, he.symm⟩
    · exact .inr ⟨fun hx => hne hx.symm, he⟩
  refine ⟨by rw [hp]; exact h.publishing, ?_, ?_, ?_, ?_⟩
  · intro x k' hk'
    simp only [note]
    rcases key x k' hk' with ⟨rfl, rfl⟩ | ⟨hne, hk'⟩
    · rw [if_pos rfl]; exact h.pre x k hk
    · rw [if_neg hne]; exact h.pre x k' hk'
  · intro x k' hk'
    simp only [note]
    rcases key x k' hk' with ⟨rfl, rfl⟩ | ⟨hne, hk'⟩
    · rw [if_pos rfl]; simp
    · rw [if_neg hne]; exact h.ex x k' hk'
  · intro x k' hk'
    simp only [note]
    rw [ho]
    rcases key x k' hk' with ⟨rfl, rfl⟩ | ⟨hne, hk'⟩
    · rw [if_pos rfl]; exact h.flow x k hk
    · rw [if_neg hne]; exact h.flow x k' hk'
  · intro x k' hk'
    simp only [note]
    rw [hp]
    rcases key x k' hk' with ⟨rfl, rfl⟩ | ⟨hne, hk'⟩
    · intro hx; cases hx
    · rw [if_neg hne]; exact h.half x k' hk'

theorem views_step {b : Book} {s : State} (hr : Regs s) (h : Views b s) (op : Op) :
    Views (note b (op, (step s op).1)) (step s op).2 := by
  have same : ∀ (x : Nat) (k' : Cons), s.consumers.get x = some k' →
      ∃ k, s.consumers.get x = some k ∧ k'.pre = k.pre ∧ k'.updates = k.updates ∧
        (k.phase = .cloning ↔ k'.phase = .cloning) :=
    fun x k' h => ⟨k', h, rfl, rfl, Iff.rfl⟩
  cases op with
  | publishStart p path bc =>
    simp only [step]
    (repeat' split)
    · exact h.quiet rfl rfl (fun _ _ => rfl) same
    · exact h.quiet rfl rfl (fun _ _ => rfl) same
    · rename_i hp hpub
      have hal : s.alive = true := alive_iff.2 (.inl ⟨p, by rw [hp]; rfl⟩)
      refine ⟨rfl, ?_, ?_, ?_, ?_⟩
      · intro c k hk
        simp only [note]
        split <;> exact h.pre c k hk
      · intro c k hk
        simp only [note]
        split <;> exact h.ex c k hk
      · intro c k hk
        simp only [note]
        split
        · rename_i hex
          intro hcl
          have hm := hr.reg hal c k hk ((h.ex c k hk).1 hex)
          simp only [] at hcl ⊢
          rw [h.flow c k hk hcl, owed_none hpub, List.append_nil, h.pre c k hk]
          simp only [owed, todo, List.drop_zero]
          rw [if_pos hm]
        · intro hcl; cases hcl
      · intro c k hk hph
        simp only [note]
        split
        · rename_i hex
          exact absurd hph ((h.ex c k hk).1 hex)
        · intro hcl; cases hcl
  | publishStep =>
    simp only [step]
    split
    · exact h.quiet rfl rfl (fun _ _ => rfl) same
    · rename_i u hu
      split
      · rename_i c hc
        refine h.of rfl (by rw [show (note b (Op.publishStep, Out.pending)) = b from rfl, h.publishing, hu]; rfl)
          (fun hx => by rw [hu] at hx; cases hx) ?_
        intro x k' hk'
        obtain ⟨k, hk, h1, h2, h3, _⟩ := wake_cases hk'
        refine ⟨k, hk, h1, ?_, by rw [h3]⟩
        rw [h2]
        refine congrArg (_ ++ ·) (owed_congr hu (by rfl) (by rfl) (by rfl) ?_ _)
        simp only [todo, hc]
      · rename_i hnone
        split
        · rename_i c hc
          split
          · rename_i hdead
            refine h.of rfl (by rw [show (note b (Op.publishStep, Out.pending)) = b from rfl, h.publishing])
              (fun hx => by rw [hu] at hx; cases hx) ?_
            intro x k hk
            refine ⟨k, hk, rfl, ?_, Iff.rfl⟩
            have hx : x ∈ (swapRemove s.entries u.i).drop u.i ↔ x ∈ s.entries.drop u.i := by
              rw [(swapRemove_at hc).2.mem_iff, mem_drop_split hc]
              constructor
              · exact .inr
              · rintro (rfl | hm)
                · simp only [] at hk; rw [hdead] at hk; cases hk
                · exact hm
            refine congrArg (_ ++ ·) (owed_congr hu (by exact hu) (by rfl) (by rfl) ?_ _)
            simpa only [todo, hnone] using hx
          · rename_i k hk
            have hnd : c ∉ s.entries.drop (u.i + 1) := fun hm =>
              (nodup_split hr.nodup hc).2 (List.mem_append_right _ hm)
            split
            · rename_i suffix hs
              refine h.of rfl (by rw [show (note b (Op.publishStep, Out.pending)) = b from rfl, h.publishing, hu]; rfl)
                (fun hx => by rw [hu] at hx; cases hx) ?_
              intro x k' hk'
              rcases get_put_cases hk' with ⟨rfl, he⟩ | ⟨hne, he⟩
              · injection he with he
                subst he
                refine ⟨k, hk, rfl, ?_, Iff.rfl⟩
                rw [owed_in hu (by simpa only [todo, hnone] using (mem_drop_split hc c).2 (.inl rfl)),
                  owed_out rfl hnd]
                rw [strip_eq_without] at hs
                simp [under, hs]
              · refine ⟨k', he, rfl, ?_, Iff.rfl⟩
                have hx : x ∈ s.entries.drop u.i ↔ x ∈ s.entries.drop (u.i + 1) := by
                  rw [mem_drop_split hc]
                  constructor
                  · rintro (rfl | hm)
                    · exact absurd rfl hne
                    · exact hm
                  · exact .inr
                refine congrArg (_ ++ ·) (owed_congr hu (by rfl) (by rfl) (by rfl) ?_ _)
                simpa only [todo, hnone] using hx.symm
            · rename_i hs
              refine h.of rfl (by rw [show (note b (Op.publishStep, Out.pending)) = b from rfl, h.publishing, hu]; rfl)
                (fun hx => by rw [hu] at hx; cases hx) ?_
              intro x k' hk'
              refine ⟨k', hk', rfl, ?_, Iff.rfl⟩
              by_cases hx : x = c
              · subst hx
                simp only [] at hk'
                rw [hk] at hk'
                injection hk' with hk'
                subst hk'
                rw [strip_eq_without] at hs
                rw [owed_in hu (by simpa only [todo, hnone] using (mem_drop_split hc x).2 (.inl rfl)),
                  owed_out rfl (by simpa only [todo, hnone] using hnd)]
                simp [under, hs]
              · refine congrArg (_ ++ ·) (owed_congr hu (by rfl) (by rfl) (by rfl) ?_ _)
                simp only [todo, hnone]
                rw [mem_drop_split hc]
                simp only [hx, false_or]
        · rename_i hend
          refine h.of rfl rfl (fun _ => rfl) ?_
          intro x k' hk'
          refine ⟨k', hk', rfl, ?_, Iff.rfl⟩
          have : s.entries.drop u.i = [] := List.drop_eq_nil_of_le (by
            rwa [List.getElem?_eq_none_iff] at hend)
          rw [owed_out hu (by simp [todo, hnone, this]), owed_none rfl]
  | lookup p path => simp only [step]; (repeat' split) <;> exact h.quiet rfl rfl (fun _ _ => rfl) same
  | consumePrefix p pre order =>
    simp only [step]
    (repeat' split) <;> try exact h.quiet rfl rfl (fun _ _ => rfl) same
    rename_i hpub _
    refine ⟨h.publishing, ?_, ?_, ?_, ?_⟩
    · intro c k hk
      simp only [note]
      rcases get_add_cases hk with ⟨rfl, rfl⟩ | ⟨hne, hk⟩
      · rw [if_pos rfl]
      · rw [if_neg hne]; exact h.pre c k hk
    · intro c k hk
      simp only [note]
      rcases get_add_cases hk with ⟨rfl, rfl⟩ | ⟨hne, hk⟩
      · rw [if_pos rfl]; simp
      · rw [if_neg hne]; exact h.ex c k hk
    · intro c k hk
      simp only [note]
      intro hcl
      refine Eq.trans ?_ (congrArg (HAppend.hAppend _) (owed_none (by exact hpub) _ _).symm)
      revert hcl
      rcases get_add_cases hk with ⟨rfl, rfl⟩ | ⟨hne, hk⟩
      · rw [if_pos rfl]; simp [matching_eq_under]
      · rw [if_neg hne]; intro hcl; rw [h.flow c k hk hcl, owed_none hpub]
    · intro c k hk _ _
      exact hpub
  | unused p =>
    simp only [step]
    (repeat' split) <;> try exact h.quiet rfl rfl (fun _ _ => rfl) same
    all_goals
      rename_i hpub _
      exact h.quiet rfl rfl (fun u hu => by rw [hpub] at hu; cases hu) same
  | cloneProducer p => simp only [step]; (repeat' split) <;> exact h.quiet rfl rfl (fun _ _ => rfl) same
  | dropProducer p => simp only [step]; (repeat' split) <;> exact h.quiet rfl rfl (fun _ _ => rfl) same
  | close bc => exact h.quiet rfl rfl (fun _ _ => rfl) same
  | task k => simp only [step]; (repeat' split) <;> exact h.quiet rfl rfl (fun _ _ => rfl) same
  | check c =>
    simp only [step]
    (repeat' split) <;> try exact h.quiet rfl rfl (fun _ _ => rfl) same
    · rename_i k hk hph _ suffix bc rest hup
      have key : ∀ (x : Nat) (k' : Cons), (s.consumers.put c (some { k with updates := rest })).get x = some k' →
          (x = c ∧ k' = { k with updates := rest }) ∨ (x ≠ c ∧ s.consumers.get x = some k') := by
        intro x k' hk'
        rcases get_put_cases hk' with ⟨rfl, he⟩ | ⟨hne, he⟩
        · injection he with he; exact .inl ⟨rfl, he.symm⟩
        · exact .inr ⟨fun hx => hne hx.symm, he⟩
      refine ⟨h.publishing, ?_, ?_, ?_, ?_⟩
      · intro x k' hk'
        simp only [note]
        rcases key x k' hk' with ⟨rfl, rfl⟩ | ⟨hne, hk'⟩
        · rw [if_pos rfl]; exact h.pre x k hk
        · rw [if_neg hne]; exact h.pre x k' hk'
      · intro x k' hk'
        simp only [note]
        rcases key x k' hk' with ⟨rfl, rfl⟩ | ⟨hne, hk'⟩
        · rw [if_pos rfl]; exact h.ex x k hk
        · rw [if_neg hne]; exact h.ex x k' hk'
      · intro x k' hk'
        simp only [note]
        rcases key x k' hk' with ⟨rfl, rfl⟩ | ⟨hne, hk'⟩
        · rw [if_pos rfl]
          intro hcl
          simp only [] at hcl ⊢
          rw [h.flow x k hk hcl, hup]
          simp only [List.append_assoc, List.cons_append, List.nil_append]
          rfl
        · rw [if_neg hne]; exact h.flow x k' hk'
      · intro x k' hk'
        simp only [note]
        rcases key x k' hk' with ⟨rfl, rfl⟩ | ⟨hne, hk'⟩
        · rw [if_pos rfl]; exact h.half x k hk
        · rw [if_neg hne]; exact h.half x k' hk'
    · exact h.quiet rfl rfl (fun _ _ => rfl) (put_quiet (by assumption) (by rfl) (by rfl) (by simp_all))
  | recv c =>
    simp only [step]
    (repeat' split) <;> first
      | exact h.quiet rfl rfl (fun _ _ => rfl) same
      | exact h.quiet rfl rfl (fun _ _ => rfl) (put_quiet (by assumption) (by rfl) (by rfl) (by simp_all))
  | cancel c =>
    simp only [step]
    (repeat' split) <;> first
      | exact h.quiet rfl rfl (fun _ _ => rfl) same
      | exact h.quiet rfl rfl (fun _ _ => rfl) (put_quiet (by assumption) (by rfl) (by rfl) (by simp_all))
  | cloneStart d =>
    simp only [step]
    (repeat' split) <;> try exact h.quiet rfl rfl (fun _ _ => rfl) same
    rename_i kd hkd hph
    refine ⟨h.publishing, ?_, ?_, ?_, ?_⟩
    · intro c k hk
      simp only [note]
      rcases get_add_cases hk with ⟨rfl, rfl⟩ | ⟨hne, hk⟩
      · rw [if_pos rfl]; exact h.pre d kd hkd
      · rw [if_neg hne]; exact h.pre c k hk
    · intro c k hk
      simp only [note]
      rcases get_add_cases hk with ⟨rfl, rfl⟩ | ⟨hne, hk⟩
      · rw [if_pos rfl]; simp
      · rw [if_neg hne]; exact h.ex c k hk
    · intro c k hk
      simp only [note]
      rcases get_add_cases hk with ⟨rfl, rfl⟩ | ⟨hne, hk⟩
      · rw [if_pos rfl]
        intro hcl
        simp only [Bool.and_eq_true, Bool.not_eq_true'] at hcl ⊢
        have hpub : s.pub = none := by
          have := h.publishing
          rw [hcl.2] at this
          simpa using this.symm
        rw [h.flow d kd hkd hcl.1, owed_none hpub, owed_none (by exact hpub)]
      · rw [if_neg hne]; exact h.flow c k hk
    · intro c k hk
      simp only [note]
      rcases get_add_cases hk with ⟨rfl, rfl⟩ | ⟨hne, hk⟩
      · rw [if_pos rfl]
        intro _ hcl
        simp only [Bool.and_eq_true, Bool.not_eq_true'] at hcl ⊢
        have := h.publishing
        rw [hcl.2] at this
        simpa using this.symm
      · rw [if_neg hne]; exact h.half c k hk
  | cloneFinish c =>
    simp only [step]
    (repeat' split) <;> try exact h.quiet rfl rfl (fun _ _ => rfl) same
    · exact h.finish (by assumption) rfl rfl (.inr (by assumption))
    · exact h.finish (by assumption) rfl rfl (.inl rfl)
  | dropConsumer c =>
    simp only [step]
    (repeat' split) <;> first
      | exact h.quiet rfl rfl (fun _ _ => rfl) same
      | exact h.quiet rfl rfl (fun _ _ => rfl) put_none_quiet

theorem views_reach {tr : Trace} {s : State} (h : machine.Reach tr s) : Views (book tr) s := by
  refine Machine.Reach.induct (M := machine) (P := fun tr s => Views (book tr) s) ?_ ?_ h
  · refine ⟨rfl, ?_, ?_, ?_, ?_⟩ <;> simp [init, Slots.get]
  · intro tr s op hreach ih
    rw [book_snoc]
    exact views_step (regs_reach hreach) ih op

/-! ## Notifications -/

/-- A consumer that waits although its queue is not empty is notified or about to be. -/
def Told (s : State) : Prop :=
  ∀ (c : Nat) (k : Cons), s.consumers.get c = some k → k.phase = .waiting → k.updates ≠ [] →
    k.token = true ∨ ∃ u, s.pub = some u ∧ u.notify = some c

theorem told_step {s : State} (h : Told s) (op : Op) : Told (step s op).2 := by
  have put : ∀ (cs : Slots Cons) (c : Nat) (v : Cons), v.phase ≠ .waiting ∨ v.updates = [] → ∀ (x : Nat) (k : Cons),
      (cs.put c (some v)).get x = some k → k.phase = .waiting → k.updates ≠ [] →
      cs.get x = some k := by
    intro cs c v hv x k hk h1 h2
    rcases get_put_cases hk with ⟨_, he⟩ | ⟨_, he⟩
    · injection he with he
      subst he
      rcases hv with hv | hv
      · exact absurd h1 hv
      · exact absurd hv h2
    · exact he
  cases op with
  | publishStep =>
    simp only [step]
    (repeat' split)
    · exact h
    · rename_i u hu _ c hc
      intro x k hk h1 h2
      obtain ⟨k₀, hk₀, _, e2, e3, e4, e5⟩ := wake_cases hk
      by_cases hx : x = c
      · exact .inl (e4 hx)
      · refine .inl ?_
        rw [e5 hx]
        rcases h x k₀ hk₀ (e3 ▸ h1) (e2 ▸ h2) with ht | ⟨u', hu', hn⟩
        · exact ht
        · rw [hu] at hu'
          cases hu'
          rw [hc] at hn
          cases hn
          exact absurd rfl hx
    · exact h
    · rename_i u hu _ hnone _ c hc _ k hk _ suffix hs
      intro x k' hk' h1 h2
      rcases get_put_cases hk' with ⟨rfl, he⟩ | ⟨_, he⟩
      · exact .inr ⟨_, rfl, rfl⟩
      · rcases h x k' he h1 h2 with ht | ⟨u', hu', hn⟩
        · exact .inl ht
        · rw [hu] at hu'
          cases hu'
          rw [hnone] at hn
          cases hn
    all_goals
      rename_i u hu _ hnone _ _
      intro x k' hk' h1 h2
      rcases h x k' hk' h1 h2 with ht | ⟨u', hu', hn⟩
      · exact .inl ht
      · simp_all
  | publishStart p path bc =>
    simp only [step]
    (repeat' split) <;> try exact h
    rename_i hpub
    intro x k' hk' h1 h2
    rcases h x k' hk' h1 h2 with ht | ⟨u', hu', hn⟩
    · exact .inl ht
    · rw [hpub] at hu'; cases hu'
  | _ =>
    simp only [step]
    (repeat' split) <;> first
      | exact h
      | (intro x k' hk' h1 h2
         first
          | exact h x k' hk' h1 h2
          | (refine h x k' (put _ _ _ ?_ x k' hk' h1 h2) h1 h2
             first
              | exact .inr (by assumption)
              | (left; simp only [*]; simp; done))
          | (rcases get_put_cases hk' with ⟨_, he⟩ | ⟨_, he⟩
             · cases he
             · exact h x k' he h1 h2)
          | (rcases get_add_cases hk' with ⟨rfl, rfl⟩ | ⟨_, he⟩
             · cases h1
             · exact h x k' he h1 h2))

theorem told_reach {tr : Trace} {s : State} (h : machine.Reach tr s) : Told s := by
  refine Machine.Reach.induct (M := machine) (P := fun _ s => Told s) ?_ ?_ h
  · intro c k hk
    cases c <;> cases hk
  · intro tr s op _ ih
    exact told_step ih op

/-! ## What is available -/

/-- What an event says about a path. -/
def effect (path : Path) : Op × Out → Option (Option Nat)
  | (.publishStep, .published q bc _) => if q = path then some (some bc) else none
  | (.task _, .removed q _) => if q = path then some none else none
  | _ => none

theorem available_snoc (tr : Trace) (e : Op × Out) (path : Path) :
    available (tr ++ [e]) path =
      match effect path e with
      | some v => v
      | none => available tr path := by
  have h : ∀ t : Trace, lastAt t path = (t.filterMap (effect path)).getLast? := by
    intro t
    unfold lastAt
    congr 2
  unfold available
  rw [h, h, List.filterMap_append]
  cases he : effect path e with
  | none => simp [he]
  | some v => simp [he]

theorem get_remove_self (m : List (Path × Nat)) (path : Path) : get (remove m path) path = none := by
  simp [get, remove]

theorem get_remove_ne (m : List (Path × Nat)) {path q : Path} (h : q ≠ path) :
    get (remove m path) q = get m q := by
  unfold get remove
  rw [List.find?_filter]
  congr 1
  congr 1
  funext e
  by_cases he : e.1 = q
  · simp [he, h]
  · simp [he]

theorem get_insert_self (m : List (Path × Nat)) (path : Path) (bc : Nat) :
    get (insert m path bc) path = some bc := by
  simp [get, insert]

theorem get_insert_ne (m : List (Path × Nat)) {path q : Path} (bc : Nat) (h : q ≠ path) :
    get (insert m path bc) q = get m q := by
  rw [← get_remove_ne m h]
  unfold get insert
  rw [List.find?_cons_of_neg]
  simpa using fun hx => h hx.symm

/-- At most one broadcast per path. -/
def Keys (m : List (Path × Nat)) : Prop := (m.map (·.1)).Nodup

theorem keys_remove {m : List (Path × Nat)} (h : Keys m) (path : Path) : Keys (remove m path) :=
  h.sublist (List.filter_sublist.map _)

theorem keys_insert {m : List (Path × Nat)} (h : Keys m) (path : Path) (bc : Nat) :
    Keys (insert m path bc) := by
  unfold Keys insert
  rw [List.map_cons, List.nodup_cons]
  refine ⟨?_, keys_remove h path⟩
  simp [remove]

theorem keys_get {m : List (Path × Nat)} (h : Keys m) (path : Path) (bc : Nat) :
    (path, bc) ∈ m ↔ get m path = some bc := by
  induction m with
  | nil => simp [get]
  | cons e m ih =>
    unfold Keys at h
    rw [List.map_cons, List.nodup_cons] at h
    have ih := ih h.2
    obtain ⟨q, b⟩ := e
    unfold get at ih ⊢
    by_cases hq : q = path
    · subst hq
      rw [List.find?_cons_of_pos (by simp), List.mem_cons]
      simp only [Option.map_some, Option.some.injEq, Prod.mk.injEq, true_and]
      constructor
      · rintro (rfl | hm)
        · rfl
        · exact absurd (List.mem_map.2 ⟨_, hm, rfl⟩) h.1
      · rintro rfl; exact .inl rfl
    · rw [List.find?_cons_of_neg (by simpa using hq), List.mem_cons, ← ih]
      constructor
      · rintro (h' | h')
        · injection h' with h1 h2; exact absurd h1.symm hq
        · exact h'
      · exact .inr

/-- The map of the origin agrees with the history. -/
structure Active (tr : Trace) (s : State) : Prop where
  keys : Keys s.active
  get : ∀ path, Origin.get s.active path = available tr path

theorem Active.same {tr : Trace} {s s' : State} (h : Active tr s) {e : Op × Out}
    (hs : s'.active = s.active) (he : ∀ path, effect path e = none) : Active (tr ++ [e]) s' := by
  refine ⟨by rw [hs]; exact h.keys, fun path => ?_⟩
  rw [hs, available_snoc, he]
  exact h.get path

theorem active_step {tr : Trace} {s : State} (h : Active tr s) (op : Op) :
    Active (tr ++ [(op, (step s op).1)]) (step s op).2 := by
  cases op with
  | publishStep =>
    simp only [step]
    (repeat' split) <;> try exact h.same rfl (fun _ => rfl)
    rename_i u hu _ hn _ hend
    refine ⟨keys_insert h.keys _ _, fun path => ?_⟩
    rw [available_snoc]
    by_cases hp : u.path = path
    · subst hp
      simp [effect, get_insert_self]
    · simp only [effect, if_neg hp]
      rw [get_insert_ne _ _ (fun hx => hp hx.symm)]
      exact h.get path
  | task k =>
    simp only [step]
    (repeat' split) <;> try exact h.same rfl (fun _ => rfl)
    rename_i q bc _ _ _ _
    refine ⟨keys_remove h.keys _, fun path => ?_⟩
    rw [available_snoc]
    by_cases hp : q = path
    · subst hp
      simp [effect, get_remove_self]
    · simp only [effect, if_neg hp]
      rw [get_remove_ne _ (fun hx => hp hx.symm)]
      exact h.get path
  | _ =>
    simp only [step]
    (repeat' split) <;> exact h.same rfl (fun _ => rfl)

theorem active_reach {tr : Trace} {s : State} (h : machine.Reach tr s) : Active tr s := by
  refine Machine.Reach.induct (M := machine) (P := fun tr s => Active tr s) ?_ ?_ h
  · exact ⟨by simp [Keys, init], fun path => rfl⟩
  · intro tr s op _ ih
    exact active_step ih op

/-! ## Only published broadcasts are announced -/

/-- A publication of this broadcast under this path has begun. -/
def Started (tr : Trace) (path : Path) (bc : Nat) : Prop :=
  ∃ p, (Op.publishStart p path bc, Out.ok) ∈ tr

theorem Started.mono {tr : Trace} {path : Path} {bc : Nat} (h : Started tr path bc) (e : Op × Out) :
    Started (tr ++ [e]) path bc := by
  obtain ⟨p, hp⟩ := h
  exact ⟨p, List.mem_append_left _ hp⟩

/-- Everything stems from a publication. -/
structure Origins (tr : Trace) (s : State) : Prop where
  active : ∀ path bc, (path, bc) ∈ s.active → Started tr path bc
  tasks : ∀ (k : Nat) (path : Path) (bc : Nat), s.tasks.get k = some (path, bc) →
    Started tr path bc
  pub : ∀ u, s.pub = some u → Started tr u.path u.bc
  updates : ∀ (c : Nat) (k : Cons), s.consumers.get c = some k → ∀ suffix bc,
    (suffix, bc) ∈ k.updates → Started tr (k.pre ++ suffix) bc
  delivered : ∀ c suffix bc, (suffix, bc) ∈ ((book tr).view c).delivered →
    Started tr (((book tr).view c).pre ++ suffix) bc

theorem Origins.same {tr : Trace} {s s' : State} (h : Origins tr s) {e : Op × Out}
    (ha : ∀ path bc, (path, bc) ∈ s'.active → (path, bc) ∈ s.active)
    (ht : ∀ (k : Nat) (path : Path) (bc : Nat), s'.tasks.get k = some (path, bc) →
      s.tasks.get k = some (path, bc))
    (hp : ∀ u, s'.pub = some u → ∃ v, s.pub = some v ∧ u.path = v.path ∧ u.bc = v.bc)
    (hc : ∀ (c : Nat) (k' : Cons), s'.consumers.get c = some k' → ∃ k, s.consumers.get c = some k ∧
      k'.pre = k.pre ∧ ∀ x ∈ k'.updates, x ∈ k.updates)
    (hb : ∀ c, ((note (book tr) e).view c).pre = ((book tr).view c).pre ∧
      ((note (book tr) e).view c).delivered = ((book tr).view c).delivered) :
    Origins (tr ++ [e]) s' := by
  refine ⟨?_, ?_, ?_, ?_, ?_⟩
  · intro path bc hm
    exact (h.active path bc (ha path bc hm)).mono e
  · intro k path bc hm
    exact (h.tasks k path bc (ht k path bc hm)).mono e
  · intro u hu
    obtain ⟨v, hv, h1, h2⟩ := hp u hu
    rw [h1, h2]
    exact (h.pub v hv).mono e
  · intro c k' hk' suffix bc hm
    obtain ⟨k, hk, h1, h2⟩ := hc c k' hk'
    rw [h1]
    exact (h.updates c k hk suffix bc (h2 _ hm)).mono e
  · intro c suffix bc
    rw [book_snoc, (hb c).1, (hb c).2]
    intro hm
    exact (h.delivered c suffix bc hm).mono e

theorem put_less {s : Slots Cons} {c : Nat} {k v : Cons} (hk : s.get c = some k)
    (h1 : v.pre = k.pre) (h2 : ∀ x ∈ v.updates, x ∈ k.updates) (x : Nat) (k' : Cons)
    (h : (s.put c (some v)).get x = some k') :
    ∃ k, s.get x = some k ∧ k'.pre = k.pre ∧ ∀ y ∈ k'.updates, y ∈ k.updates := by
  rcases get_put_cases h with ⟨rfl, he⟩ | ⟨_, he⟩
  · injection he with he
    subst he
    exact ⟨k, hk, h1, h2⟩
  · exact ⟨k', he, rfl, fun _ h => h⟩

theorem put_none_less {s : Slots Cons} {c : Nat} (x : Nat) (k' : Cons)
    (h : (s.put c none).get x = some k') :
    ∃ k, s.get x = some k ∧ k'.pre = k.pre ∧ ∀ y ∈ k'.updates, y ∈ k.updates := by
  rcases get_put_cases h with ⟨_, he⟩ | ⟨_, he⟩
  · cases he
  · exact ⟨k', he, rfl, fun _ h => h⟩

theorem origins_step {tr : Trace} {s : State} (hv : Views (book tr) s) (h : Origins tr s) (op : Op) :
    Origins (tr ++ [(op, (step s op).1)]) (step s op).2 := by
  have ida : ∀ path bc, (path, bc) ∈ s.active → (path, bc) ∈ s.active := fun _ _ h => h
  have idt : ∀ (k : Nat) (path : Path) (bc : Nat), s.tasks.get k = some (path, bc) →
      s.tasks.get k = some (path, bc) := fun _ _ _ h => h
  have idp : ∀ u, s.pub = some u → ∃ v, s.pub = some v ∧ u.path = v.path ∧ u.bc = v.bc :=
    fun u hu => ⟨u, hu, rfl, rfl⟩
  have idc : ∀ (c : Nat) (k' : Cons), s.consumers.get c = some k' →
      ∃ k, s.consumers.get c = some k ∧ k'.pre = k.pre ∧ ∀ x ∈ k'.updates, x ∈ k.updates :=
    fun c k' h => ⟨k', h, rfl, fun _ h => h⟩
  cases op with
  | publishStart p path bc =>
    simp only [step]
    (repeat' split) <;> try exact h.same ida idt idp idc (fun _ => ⟨rfl, rfl⟩)
    refine ⟨?_, ?_, ?_, ?_, ?_⟩
    · intro q b hm; exact (h.active q b hm).mono _
    · intro k q b hm; exact (h.tasks k q b hm).mono _
    · rintro u ⟨⟩; exact ⟨p, by simp⟩
    · intro c k hk suffix b hm; exact (h.updates c k hk suffix b hm).mono _
    · intro c suffix b
      rw [book_snoc]
      simp only [note]
      split <;> intro hm <;> exact (h.delivered c suffix b hm).mono _
  | publishStep =>
    simp only [step]
    (repeat' split) <;> try exact h.same ida idt idp idc (fun _ => ⟨rfl, rfl⟩)
    · rename_i u hu _ c hc
      refine h.same ida idt (fun v hv => ⟨u, hu, by cases hv; rfl, by cases hv; rfl⟩) ?_
        (fun _ => ⟨rfl, rfl⟩)
      intro x k' hk'
      obtain ⟨k, hk, h1, h2, _⟩ := wake_cases hk'
      exact ⟨k, hk, h1, fun y hy => h2 ▸ hy⟩
    · rename_i u hu _ hnone _ c hc _ k hk _ suffix hs
      rw [strip_eq_some] at hs
      refine ⟨?_, ?_, ?_, ?_, ?_⟩
      · intro q b hm; exact (h.active q b hm).mono _
      · intro k q b hm; exact (h.tasks k q b hm).mono _
      · rintro v ⟨⟩; exact (h.pub u hu).mono _
      · intro x k' hk' sfx b hm
        rcases get_put_cases hk' with ⟨rfl, he⟩ | ⟨_, he⟩
        · injection he with he
          subst he
          simp only [List.mem_append, List.mem_singleton] at hm
          rcases hm with hm | hm
          · exact (h.updates _ k hk sfx b hm).mono _
          · injection hm with e1 e2
            subst e1 e2
            rw [← hs]
            exact (h.pub u hu).mono _
        · exact (h.updates x k' he sfx b hm).mono _
      · intro c suffix b hm
        rw [book_snoc] at hm ⊢
        exact (h.delivered c suffix b hm).mono _
    · rename_i u hu _ hnone _ c hc _ k hk _ hs
      exact h.same ida idt (fun v hv => ⟨u, hu, by cases hv; rfl, by cases hv; rfl⟩) idc
        (fun _ => ⟨rfl, rfl⟩)
    · rename_i u hu _ hnone _ hend
      refine ⟨?_, ?_, by rintro v ⟨⟩, ?_, ?_⟩
      · intro q b hm
        simp only [insert, remove, List.mem_cons, List.mem_filter] at hm
        rcases hm with hm | hm
        · injection hm with e1 e2
          subst e1 e2
          exact (h.pub u hu).mono _
        · exact (h.active q b hm.1).mono _
      · intro k q b hm
        rcases get_add_cases hm with ⟨_, he⟩ | ⟨_, he⟩
        · injection he with e1 e2
          subst e1 e2
          exact (h.pub u hu).mono _
        · exact (h.tasks k q b he).mono _
      · intro c k hk suffix b hm; exact (h.updates c k hk suffix b hm).mono _
      · intro c suffix b hm
        rw [book_snoc] at hm ⊢
        exact (h.delivered c suffix b hm).mono _
  | consumePrefix p pre order =>
    simp only [step]
    (repeat' split) <;> try exact h.same ida idt idp idc (fun _ => ⟨rfl, rfl⟩)
    rename_i hperm
    rw [List.isPerm_iff] at hperm
    refine ⟨?_, ?_, ?_, ?_, ?_⟩
    · intro q b hm; exact (h.active q b hm).mono _
    · intro k q b hm; exact (h.tasks k q b hm).mono _
    · intro u hu; exact (h.pub u hu).mono _
    · intro c k hk suffix b hm
      rcases get_add_cases hk with ⟨_, rfl⟩ | ⟨_, hk⟩
      · simp only [matching_eq_under] at hm
        rw [mem_under, hperm.mem_iff] at hm
        exact (h.active _ _ hm).mono _
      · exact (h.updates c k hk suffix b hm).mono _
    · intro c suffix b
      rw [book_snoc]
      simp only [note]
      split
      · intro hm; cases hm
      · intro hm; exact (h.delivered c suffix b hm).mono _
  | check c =>
    simp only [step]
    (repeat' split) <;> try exact h.same ida idt idp idc (fun _ => ⟨rfl, rfl⟩)
    · rename_i k hk hph _ sfx bc rest hup
      refine ⟨?_, ?_, ?_, ?_, ?_⟩
      · intro q b hm; exact (h.active q b hm).mono _
      · intro k q b hm; exact (h.tasks k q b hm).mono _
      · intro u hu; exact (h.pub u hu).mono _
      · intro x k' hk' suffix b hm
        rcases get_put_cases hk' with ⟨rfl, he⟩ | ⟨_, he⟩
        · injection he with he
          subst he
          exact (h.updates _ k hk suffix b (by rw [hup]; exact List.mem_cons_of_mem _ hm)).mono _
        · exact (h.updates x k' he suffix b hm).mono _
      · intro x suffix b
        rw [book_snoc]
        simp only [note]
        split
        · rename_i hx
          subst hx
          simp only [List.mem_append, List.mem_singleton]
          rintro (hm | hm)
          · exact (h.delivered x suffix b hm).mono _
          · injection hm with e1 e2
            subst e1 e2
            rw [hv.pre x k hk]
            exact (h.updates x k hk suffix b (by rw [hup]; exact List.mem_cons_self)).mono _
        · intro hm; exact (h.delivered x suffix b hm).mono _
    · exact h.same ida idt idp (put_less (by assumption) (by rfl) (by intro x hx; exact hx))
        (fun _ => ⟨rfl, rfl⟩)
  | cloneStart d =>
    simp only [step]
    (repeat' split) <;> try exact h.same ida idt idp idc (fun _ => ⟨rfl, rfl⟩)
    rename_i kd hkd hph
    refine ⟨?_, ?_, ?_, ?_, ?_⟩
    · intro q b hm; exact (h.active q b hm).mono _
    · intro k q b hm; exact (h.tasks k q b hm).mono _
    · intro u hu; exact (h.pub u hu).mono _
    · intro c k hk suffix b hm
      rcases get_add_cases hk with ⟨_, rfl⟩ | ⟨_, hk⟩
      · exact (h.updates d kd hkd suffix b hm).mono _
      · exact (h.updates c k hk suffix b hm).mono _
    · intro c suffix b
      rw [book_snoc]
      simp only [note]
      split
      · intro hm; exact (h.delivered d suffix b hm).mono _
      · intro hm; exact (h.delivered c suffix b hm).mono _
  | cloneFinish c =>
    have hb : ∀ x, ((note (book tr) (.cloneFinish c, .ok)).view x).pre = ((book tr).view x).pre ∧
        ((note (book tr) (.cloneFinish c, .ok)).view x).delivered =
          ((book tr).view x).delivered := by
      intro x
      simp only [note]
      split <;> exact ⟨rfl, rfl⟩
    simp only [step]
    (repeat' split) <;> first
      | exact h.same ida idt idp idc (fun _ => ⟨rfl, rfl⟩)
      | exact h.same ida idt idp (put_less (by assumption) (by rfl) (by intro x hx; exact hx)) hb
  | task k =>
    simp only [step]
    (repeat' split) <;> try exact h.same ida idt idp idc (fun _ => ⟨rfl, rfl⟩)
    refine h.same (fun q b hm => (List.mem_filter.1 hm).1) ?_ idp idc (fun _ => ⟨rfl, rfl⟩)
    intro j q b hm
    rcases get_put_cases hm with ⟨_, he⟩ | ⟨_, he⟩
    · cases he
    · exact he
  | _ =>
    simp only [step]
    (repeat' split) <;> first
      | exact h.same ida idt idp idc (fun _ => ⟨rfl, rfl⟩)
      | exact h.same ida idt idp (put_less (by assumption) (by rfl) (by intro x hx; exact hx))
          (fun _ => ⟨rfl, rfl⟩)
      | exact h.same ida idt idp put_none_less (fun _ => ⟨rfl, rfl⟩)

theorem origins_reach {tr : Trace} {s : State} (h : machine.Reach tr s) : Origins tr s := by
  refine Machine.Reach.induct (M := machine) (P := fun tr s => Origins tr s) ?_ ?_ h
  · refine ⟨?_, ?_, ?_, ?_, ?_⟩ <;> simp [init, Slots.get, book]
  · intro tr s op hreach ih
    exact origins_step (views_reach hreach) ih op

/-! ## Received announcements of consumers, also of those that are gone -/

theorem prefix_reach {tr : Trace} {s : State} (h : machine.Reach tr s) (c : Nat) :
    ((book tr).view c).clean = true →
      ((book tr).view c).delivered <+: ((book tr).view c).expected := by
  revert c
  refine Machine.Reach.induct (M := machine) (P := fun tr s => ∀ c, ((book tr).view c).clean = true →
      ((book tr).view c).delivered <+: ((book tr).view c).expected) ?_ ?_ h
  · intro c _; exact List.prefix_rfl
  · intro tr s op hreach ih c
    have hv := views_reach hreach
    rw [book_snoc]
    cases op with
    | check d =>
      simp only [machine, step]
      (repeat' split) <;> try exact ih c
      rename_i k hk hph _ sfx bc rest hup
      simp only [note]
      split
      · rename_i hx
        subst hx
        intro hcl
        simp only [] at hcl ⊢
        rw [hv.flow c k hk hcl, hup]
        exact ⟨rest ++ owed s c k.pre, by simp⟩
      · exact ih c
    | publishStart p path bc =>
      simp only [machine, step]
      (repeat' split) <;> try exact ih c
      simp only [note]
      split
      · intro hcl
        exact (ih c hcl).trans (List.prefix_append _ _)
      · intro hcl; cases hcl
    | consumePrefix p pre order =>
      simp only [machine, step]
      (repeat' split) <;> try exact ih c
      simp only [note]
      split
      · intro _; exact List.nil_prefix
      · exact ih c
    | cloneStart d =>
      simp only [machine, step]
      (repeat' split) <;> try exact ih c
      simp only [note]
      split
      · intro hcl
        simp only [Bool.and_eq_true] at hcl ⊢
        exact ih d hcl.1
      · exact ih c
    | cloneFinish d =>
      simp only [machine, step]
      (repeat' split) <;> try exact ih c
      all_goals
        simp only [note]
        split
        · exact ih c
        · exact ih c
    | _ =>
      simp only [machine, step]
      (repeat' split) <;> exact ih c

/-! ## Consumers in use -/

theorem exists_made {tr : Trace} {s : State} (h : machine.Reach tr s) (c : Nat) :
    ((book tr).view c).exists' = true → ConsumerMade tr c := by
  revert c
  refine Machine.Reach.induct (M := machine)
    (P := fun tr _ => ∀ c, ((book tr).view c).exists' = true → ConsumerMade tr c) ?_ ?_ h
  · intro c hc; cases hc
  · intro tr s op hreach ih c
    have keep : ∀ e, ConsumerMade tr c → ConsumerMade (tr ++ [e]) c := by
      rintro e (⟨p, pre, order, hm⟩ | ⟨d, hm⟩)
      · exact .inl ⟨p, pre, order, List.mem_append_left _ hm⟩
      · exact .inr ⟨d, List.mem_append_left _ hm⟩
    rw [book_snoc]
    cases op with
    | publishStart p path bc =>
      simp only [machine, step]
      (repeat' split) <;> try exact fun hx => keep _ (ih c hx)
      simp only [note]
      split <;> exact fun hx => keep _ (ih c hx)
    | consumePrefix p pre order =>
      simp only [machine, step]
      (repeat' split) <;> try exact fun hx => keep _ (ih c hx)
      simp only [note]
      split
      · rename_i hx
        subst hx
        exact fun _ => .inl ⟨p, pre, order, by simp⟩
      · exact fun hx => keep _ (ih c hx)
    | cloneStart d =>
      simp only [machine, step]
      (repeat' split) <;> try exact fun hx => keep _ (ih c hx)
      simp only [note]
      split
      · rename_i hx
        subst hx
        exact fun _ => .inr ⟨d, by simp⟩
      · exact fun hx => keep _ (ih c hx)
    | cloneFinish d =>
      simp only [machine, step]
      (repeat' split) <;> try exact fun hx => keep _ (ih c hx)
      all_goals
        rename_i k hk _ _
        simp only [note]
        split
        · rename_i hx
          subst hx
          exact fun _ => keep _ (((tables_reach hreach).consumers.live c).1 (by simp [*])).1
        · exact fun hx => keep _ (ih c hx)
    | check d =>
      simp only [machine, step]
      (repeat' split) <;> try exact fun hx => keep _ (ih c hx)
      simp only [note]
      split <;> exact fun hx => keep _ (ih c hx)
    | _ =>
      simp only [machine, step]
      (repeat' split) <;> exact fun hx => keep _ (ih c hx)

theorem alive_get {tr : Trace} {s : State} (h : machine.Reach tr s) {c : Nat} :
    ConsumerAlive tr c ↔ ∃ k, s.consumers.get c = some k ∧ k.phase ≠ .cloning := by
  have ht := tables_reach h
  have hv := views_reach h
  constructor
  · rintro ⟨h1, h2⟩
    obtain ⟨k, hk⟩ := Option.isSome_iff_exists.1 ((ht.consumers.live c).2 ⟨exists_made h c h1, h2⟩)
    exact ⟨k, hk, (hv.ex c k hk).1 h1⟩
  · rintro ⟨k, hk, hph⟩
    exact ⟨(hv.ex c k hk).2 hph, ((ht.consumers.live c).1 (by rw [hk]; rfl)).2⟩

theorem producer_get {tr : Trace} {s : State} (h : machine.Reach tr s) {p : Nat} :
    ProducerAlive tr p ↔ (s.producers.get p).isSome :=
  ((tables_reach h).producers.live p).symm

theorem publishing_iff {tr : Trace} {s : State} (h : machine.Reach tr s) :
    Publishing tr ↔ s.pub.isSome = true := by
  unfold Publishing
  rw [(views_reach h).publishing]

theorem not_publishing {tr : Trace} {s : State} (h : machine.Reach tr s) (hn : ¬ Publishing tr) :
    s.pub = none := by
  rw [publishing_iff h] at hn
  simpa using hn

/-! ## Clones -/

theorem clone_reach {tr : Trace} {s : State} (h : machine.Reach tr s) (d c : Nat)
    (hm : (Op.cloneStart d, Out.handle c) ∈ tr) :
    c < s.consumers.length ∧ d < s.consumers.length ∧ ((book tr).view d).exists' = true ∧
      (((book tr).view c).clean = true → ((book tr).view c).pre = ((book tr).view d).pre ∧
        ((book tr).view c).expected = ((book tr).view d).expected) := by
  revert d c
  refine Machine.Reach.induct (M := machine) (P := fun tr s => ∀ d c : Nat,
    (Op.cloneStart d, Out.handle c) ∈ tr → c < s.consumers.length ∧ d < s.consumers.length ∧
      ((book tr).view d).exists' = true ∧
      (((book tr).view c).clean = true → ((book tr).view c).pre = ((book tr).view d).pre ∧
        ((book tr).view c).expected = ((book tr).view d).expected)) ?_ ?_ h
  · intro d c hm; cases hm
  · intro tr s op hreach ih d c hm
    rw [List.mem_append, List.mem_singleton] at hm
    rw [book_snoc]
    have hlen : s.consumers.length ≤ (step s op).2.consumers.length := by
      cases op <;> simp only [step] <;> (repeat' split) <;> simp [wake_length]
    have keep : (Op.cloneStart d, Out.handle c) ∈ tr →
        c < (step s op).2.consumers.length ∧ d < (step s op).2.consumers.length := by
      intro hm
      have := ih d c hm
      omega
    cases op with
    | publishStart p path bc =>
      have hm : (Op.cloneStart d, Out.handle c) ∈ tr := by
        rcases hm with hm | hm
        · exact hm
        · injection hm with h1 _; cases h1
      refine ⟨(keep hm).1, (keep hm).2, ?_⟩
      obtain ⟨_, _, i1, i2⟩ := ih d c hm
      simp only [machine, step]
      (repeat' split) <;> try exact ⟨i1, i2⟩
      simp only [note]
      rw [if_pos i1]
      refine ⟨i1, ?_⟩
      split
      · intro hcl
        obtain ⟨j1, j2⟩ := i2 hcl
        exact ⟨j1, by simp only []; rw [j1, j2]⟩
      · intro hcl; cases hcl
    | consumePrefix p pre order =>
      have hm : (Op.cloneStart d, Out.handle c) ∈ tr := by
        rcases hm with hm | hm
        · exact hm
        · injection hm with h1 _; cases h1
      refine ⟨(keep hm).1, (keep hm).2, ?_⟩
      obtain ⟨i3, i4, i1, i2⟩ := ih d c hm
      simp only [machine, step]
      (repeat' split) <;> try exact ⟨i1, i2⟩
      simp only [note]
      rw [if_neg (Nat.ne_of_lt i3), if_neg (Nat.ne_of_lt i4)]
      exact ⟨i1, i2⟩
    | cloneStart e =>
      revert hm keep
      simp only [machine, step]
      split
      · intro hm keep
        simp only [Prod.mk.injEq, reduceCtorEq, and_false, or_false] at hm
        exact ⟨(keep hm).1, (keep hm).2, (ih d c hm).2.2⟩
      · rename_i k hk
        split
        · rename_i hph
          intro hm keep
          simp only [note, Slots.length_add]
          simp only [Prod.mk.injEq, Op.cloneStart.injEq, Out.handle.injEq] at hm
          rcases hm with hm | ⟨rfl, rfl⟩
          · obtain ⟨i3, i4, i1, i2⟩ := ih d c hm
            rw [if_neg (Nat.ne_of_lt i3), if_neg (Nat.ne_of_lt i4)]
            exact ⟨by omega, by omega, i1, i2⟩
          · have hd := Slots.get_some_lt hk
            rw [if_pos rfl, if_neg (Nat.ne_of_lt hd)]
            refine ⟨by omega, by omega, ?_, fun _ => ⟨rfl, rfl⟩⟩
            exact ((views_reach hreach).ex d k hk).2 (by rw [hph]; simp)
        · intro hm keep
          simp only [Prod.mk.injEq, reduceCtorEq, and_false, or_false] at hm
          exact ⟨(keep hm).1, (keep hm).2, (ih d c hm).2.2⟩
    | cloneFinish e =>
      have hm : (Op.cloneStart d, Out.handle c) ∈ tr := by
        rcases hm with hm | hm
        · exact hm
        · injection hm with h1 _; cases h1
      refine ⟨(keep hm).1, (keep hm).2, ?_⟩
      obtain ⟨i3, i4, i1, i2⟩ := ih d c hm
      simp only [machine, step]
      (repeat' split) <;> try exact ⟨i1, i2⟩
      all_goals
        simp only [note]
        by_cases h1 : c = e <;> by_cases h2 : d = e <;> simp only [h1, h2, if_true, if_false] <;>
          simp_all
    | check e =>
      have hm : (Op.cloneStart d, Out.handle c) ∈ tr := by
        rcases hm with hm | hm
        · exact hm
        · injection hm with h1 _; cases h1
      refine ⟨(keep hm).1, (keep hm).2, ?_⟩
      obtain ⟨i3, i4, i1, i2⟩ := ih d c hm
      simp only [machine, step]
      (repeat' split) <;> try exact ⟨i1, i2⟩
      all_goals
        simp only [note]
        by_cases h1 : c = e <;> by_cases h2 : d = e <;> simp only [h1, h2, if_true, if_false] <;>
          simp_all
    | _ =>
      have hm : (Op.cloneStart d, Out.handle c) ∈ tr := by
        rcases hm with hm | hm
        · exact hm
        · injection hm with h1 _; cases h1
      refine ⟨(keep hm).1, (keep hm).2, ?_⟩
      obtain ⟨i3, i4, i1, i2⟩ := ih d c hm
      simp only [machine, step]
      (repeat' split) <;> exact ⟨i1, i2⟩

/-! ## `publish` ends -/

/-- An upper bound for the steps a `publish` still takes. -/
def left (s : State) (u : Pub) : Nat :=
  2 * (s.entries.length - u.i) + match u.notify with
    | some _ => 0
    | none => 1

theorem swapRemove_length {l : List Nat} {i x : Nat} (h : l[i]? = some x) :
    (swapRemove l i).length + 1 = l.length := by
  have h1 := (swapRemove_at h).1.length_eq
  obtain ⟨h2, h3⟩ := split_at h
  have h4 := congrArg List.length h2
  simp only [List.length_append, List.length_cons] at h1 h4
  omega

theorem publish_ends {s : State} (hr : Regs s) {u : Pub} (hu : s.pub = some u) :
    ∃ n unique, (machine.runFrom s (List.replicate n Op.publishStep)).1.getLast? =
      some (.publishStep, .published u.path u.bc unique) := by
  generalize hn : left s u = n
  induction n using Nat.strongRecOn generalizing s u with
  | _ n ih =>
    have next : ∀ s' u', (step s .publishStep).2 = s' → s'.pub = some u' → u'.path = u.path →
        u'.bc = u.bc → left s' u' < n → ∃ n unique,
        (machine.runFrom s (List.replicate n Op.publishStep)).1.getLast? =
          some (.publishStep, .published u.path u.bc unique) := by
      intro s' u' hs' hu' hp hb hlt
      have hr' : Regs s' := by rw [← hs']; exact regs_step hr _
      obtain ⟨m, unique, hm⟩ := ih _ hlt hr' hu' rfl
      refine ⟨m + 1, unique, ?_⟩
      rw [List.replicate_succ]
      simp only [Machine.runFrom, List.getLast?_cons]
      rw [hs', hm, hp, hb]
      rfl
    cases hnt : u.notify with
    | some c =>
      have hi := hr.pubIdx u hu c hnt
      rw [List.getElem?_eq_some_iff] at hi
      obtain ⟨hi, _⟩ := hi
      refine next _ { u with i := u.i + 1, notify := none } rfl ?_ rfl rfl ?_
      · simp only [step, hu, hnt]
      · simp only [left, hnt] at hn
        simp only [step, hu, hnt, left]
        omega
    | none =>
      simp only [left, hnt] at hn
      cases he : s.entries[u.i]? with
      | none =>
        refine ⟨1, (get s.active u.path).isNone, ?_⟩
        simp [Machine.runFrom, List.replicate, step, hu, hnt, he]
      | some c =>
        have hi := he
        rw [List.getElem?_eq_some_iff] at hi
        obtain ⟨hi, _⟩ := hi
        cases hc : s.consumers.get c with
        | none =>
          refine next { s with entries := swapRemove s.entries u.i } u ?_ hu rfl rfl ?_
          · simp only [step, hu, hnt, he, hc]
          · have := swapRemove_length he
            simp only [left, hnt]
            omega
        | some k =>
          cases hs : strip k.pre u.path with
          | none =>
            refine next { s with pub := some { u with i := u.i + 1 } } { u with i := u.i + 1 }
              ?_ rfl rfl rfl ?_
            · simp only [step, hu, hnt, he, hc, hs]
            · simp only [left, hnt]
              omega
          | some suffix =>
            refine next _ { u with notify := some c } rfl ?_ rfl rfl ?_
            · simp only [step, hu, hnt, he, hc, hs]
            · simp only [step, hu, hnt, he, hc, hs, left]
              omega

end Verif.Model.Origin
