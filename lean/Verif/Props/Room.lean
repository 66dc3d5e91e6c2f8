import Verif.Hang.RoomSpec

/-!
# Properties of rooms: C86

The vocabulary is in `Verif/Hang/RoomSpec.lean`.
-/

set_option autoImplicit false

namespace Verif.Props.Room

open Verif Verif.Hang.Room Verif.Hang.Room.Spec

variable {path : Name} {tr : Trace} {s : State}

theorem publications_snoc (tr : Trace) (e : Op × Out) :
    publications (tr ++ [e]) = publications tr ++ publications [e] := List.filterMap_append

theorem alternating_prefix {e : Op × Out} (h : Alternating (tr ++ [e])) : Alternating tr :=
  fun pre name bc o post he => h pre name bc o (post ++ [e]) (by rw [he]; simp)

theorem noticed_snoc {e : Op × Out} {k : Nat} :
    Noticed (tr ++ [e]) k ↔ Noticed tr k ∨ e = (.cleanup k, .ok) := by
  unfold Noticed
  rw [List.mem_append, List.mem_singleton]
  exact or_congr Iff.rfl eq_comm

theorem ended_snoc {e : Op × Out} {bc : Nat} :
    Ended (tr ++ [e]) bc ↔ Ended tr bc ∨ e = (.close bc, .ok) := by
  unfold Ended
  rw [List.mem_append, List.mem_singleton]
  exact or_congr Iff.rfl eq_comm

/-- The invariant. -/
structure Inv (tr : Trace) (s : State) : Prop where
  closed : ∀ bc, bc ∈ s.closed ↔ Ended tr bc
  pubs : ∀ name bc k, (name, bc, k) ∈ publications tr →
    s.tasks[k]? = some (some (name, bc)) ∨ (s.tasks[k]? = some none ∧ Ended tr bc)
  tasks : ∀ (k : Nat) name bc, s.tasks[k]? = some (some (name, bc)) → (name, bc, k) ∈ publications tr
  noticed : ∀ k : Nat, Noticed tr k ↔ s.tasks[k]? = some none
  hidden : ∀ name, name ∈ s.publishing → ∃ (k : Nat) (bc : Nat), s.tasks[k]? = some (some (name, bc))
  all : Alternating tr → ∀ (k : Nat) name bc, s.tasks[k]? = some (some (name, bc)) → name ∈ s.publishing
  one : Alternating tr → ∀ (k k' : Nat) name bc bc', s.tasks[k]? = some (some (name, bc)) →
    s.tasks[k']? = some (some (name, bc')) → k = k'

/-- An event that changes nothing. -/
theorem Inv.same (h : Inv tr s) {e : Op × Out} (h1 : publications [e] = [])
    (h2 : ∀ k, e ≠ (.cleanup k, .ok)) (h3 : ∀ bc, e ≠ (.close bc, .ok)) : Inv (tr ++ [e]) s := by
  have hp : publications (tr ++ [e]) = publications tr := by rw [publications_snoc, h1, List.append_nil]
  refine ⟨?_, ?_, ?_, ?_, h.hidden, fun ha => h.all (alternating_prefix ha),
    fun ha => h.one (alternating_prefix ha)⟩
  · intro bc; rw [ended_snoc, h.closed]; exact ⟨.inl, fun hx => hx.resolve_right (h3 bc)⟩
  · intro name bc k hm
    rw [hp] at hm
    rcases h.pubs name bc k hm with hx | ⟨hx, hy⟩
    · exact .inl hx
    · exact .inr ⟨hx, ended_snoc.2 (.inl hy)⟩
  · intro k name bc hk; rw [hp]; exact h.tasks k name bc hk
  · intro k; rw [noticed_snoc, ← h.noticed]; exact ⟨fun hx => hx.resolve_right (h2 k), .inl⟩

theorem Inv.step (h : Inv tr s) (op : Op) : Inv (tr ++ [(op, (step path s op).1)]) (step path s op).2 := by
  cases op with
  | watch item =>
    cases item with
    | none => exact h.same rfl (by simp [Hang.Room.step]) (by simp [Hang.Room.step])
    | some it =>
      obtain ⟨name, bc⟩ := it
      simp only [Hang.Room.step]
      split
      · exact h.same rfl (by simp) (by simp)
      · exact h.same rfl (by simp) (by simp)
  | close bc =>
    have hp : publications (tr ++ [(Op.close bc, Out.ok)]) = publications tr := by
      rw [publications_snoc]; simp [publications]
    refine ⟨?_, ?_, ?_, ?_, h.hidden, fun ha => h.all (alternating_prefix ha),
      fun ha => h.one (alternating_prefix ha)⟩
    · intro b
      simp only [Hang.Room.step]
      rw [ended_snoc, List.mem_cons, h.closed]
      simp only [Prod.mk.injEq, Op.close.injEq, and_true]
      rw [or_comm, eq_comm]
    · intro name b k hm
      rcases h.pubs name b k (hp ▸ hm) with hx | ⟨hx, hy⟩
      · exact .inl hx
      · exact .inr ⟨hx, ended_snoc.2 (.inl hy)⟩
    · intro k name b hk; exact hp ▸ h.tasks k name b hk
    · intro k
      rw [noticed_snoc, h.noticed]
      simp [Hang.Room.step]
  | publish name bc =>
    simp only [Hang.Room.step]
    have hp : publications (tr ++ [(Op.publish name bc, Out.published (path ++ name) s.tasks.length)]) =
        publications tr ++ [(name, bc, s.tasks.length)] := by
      rw [publications_snoc]; rfl
    have old : ∀ {k : Nat} {x}, s.tasks[k]? = some x → (s.tasks ++ [some (name, bc)])[k]? = some x := by
      intro k x hk
      rw [List.getElem?_append_left (List.getElem?_eq_some_iff.1 hk).1]; exact hk
    have new : ∀ {k : Nat} {x}, (s.tasks ++ [some (name, bc)])[k]? = some x →
        s.tasks[k]? = some x ∨ (k = s.tasks.length ∧ x = some (name, bc)) := by
      intro k x hk
      rw [List.getElem?_append] at hk
      split at hk
      · exact .inl hk
      · rename_i hn
        rcases Nat.lt_or_ge (k - s.tasks.length) 1 with hl | hl
        · have h0 : k - s.tasks.length = 0 := by omega
          rw [h0] at hk
          exact .inr ⟨by omega, by simpa using hk.symm⟩
        · rw [List.getElem?_eq_none (by simpa using hl)] at hk; cases hk
    -- with alternating names, no other task has this name
    have free : Alternating (tr ++ [(Op.publish name bc, Out.published (path ++ name) s.tasks.length)]) →
        ∀ (k : Nat) bc', s.tasks[k]? ≠ some (some (name, bc')) := by
      intro ha k bc' hk
      have := ha tr name bc _ [] rfl bc' k (h.tasks k name bc' hk)
      rw [h.noticed, hk] at this
      cases this
    refine ⟨?_, ?_, ?_, ?_, ?_, ?_, ?_⟩
    · intro b; rw [ended_snoc, h.closed]; simp
    · intro n b k hm
      rw [hp] at hm
      rcases List.mem_append.1 hm with hm | hm
      · rcases h.pubs n b k hm with hx | ⟨hx, hy⟩
        · exact .inl (old hx)
        · exact .inr ⟨old hx, ended_snoc.2 (.inl hy)⟩
      · have := List.mem_singleton.1 hm
        simp only [Prod.mk.injEq] at this
        obtain ⟨rfl, rfl, rfl⟩ := this
        exact .inl (by simp)
    · intro k n b hk
      rw [hp]
      rcases new hk with g | ⟨e, g⟩
      · exact List.mem_append_left _ (h.tasks k n b g)
      · injection g with g; injection g with h1 h2; subst h1; subst h2; subst e
        exact List.mem_append_right _ (.head _)
    · intro k
      rw [noticed_snoc, h.noticed]
      constructor
      · rintro (hk | hk)
        · exact old hk
        · cases hk
      · intro hk
        rcases new hk with hk | ⟨-, hk⟩
        · exact .inl hk
        · cases hk
    · intro n hn
      rcases List.mem_cons.1 hn with rfl | hn
      · exact ⟨s.tasks.length, bc, by simp⟩
      · obtain ⟨k, b, hk⟩ := h.hidden n (List.mem_filter.1 hn).1
        exact ⟨k, b, old hk⟩
    · intro ha k n b hk
      by_cases hne : n = name
      · subst hne; exact .head _
      · rcases new hk with hk | ⟨-, hk⟩
        · exact .tail _ (List.mem_filter.2 ⟨h.all (alternating_prefix ha) k n b hk, by simpa using hne⟩)
        · cases hk; exact absurd rfl hne
    · intro ha k k' n b b' hk hk'
      rcases new hk with g | ⟨e, g⟩ <;> rcases new hk' with g' | ⟨e', g'⟩
      · exact h.one (alternating_prefix ha) k k' n b b' g g'
      · injection g' with g'; injection g' with h1 h2; subst h1
        exact absurd g (free ha k b)
      · injection g with g; injection g with h1 h2; subst h1
        exact absurd g' (free ha k' b')
      · rw [e, e']
  | cleanup k =>
    simp only [Hang.Room.step]
    split
    · rename_i name bc hk
      split
      · rename_i hcl
        have hlt := (List.getElem?_eq_some_iff.1 hk).1
        have hp : publications (tr ++ [(Op.cleanup k, Out.ok)]) = publications tr := by
          rw [publications_snoc]; simp [publications]
        have he : ∀ b, Ended (tr ++ [(Op.cleanup k, Out.ok)]) b ↔ Ended tr b := by
          intro b; rw [ended_snoc]; simp
        have set : ∀ {j : Nat} {x}, j ≠ k → ((s.tasks.set k none)[j]? = some x ↔ s.tasks[j]? = some x) := by
          intro j x hj
          rw [List.getElem?_set_ne (fun hx => hj hx.symm)]
        refine ⟨?_, ?_, ?_, ?_, ?_, ?_, ?_⟩
        · intro b; rw [he]; exact h.closed b
        · intro n b j hm
          rw [hp] at hm
          rw [he]
          by_cases hj : j = k
          · subst hj
            refine .inr ⟨List.getElem?_set_self hlt, ?_⟩
            rcases h.pubs n b j hm with hx | ⟨hx, -⟩
            · rw [hk] at hx; cases hx; exact (h.closed _).1 hcl
            · rw [hk] at hx; cases hx
          · rcases h.pubs n b j hm with hx | ⟨hx, hy⟩
            · exact .inl ((set hj).2 hx)
            · exact .inr ⟨(set hj).2 hx, hy⟩
        · intro j n b hj
          rw [hp]
          by_cases hjk : j = k
          · subst hjk
            simp only at hj
            rw [List.getElem?_set_self hlt] at hj; cases hj
          · exact h.tasks j n b ((set hjk).1 hj)
        · intro j
          rw [noticed_snoc, h.noticed]
          simp only [Prod.mk.injEq, Op.cleanup.injEq, and_true]
          by_cases hjk : j = k
          · subst hjk
            exact iff_of_true (.inr rfl) (List.getElem?_set_self hlt)
          · rw [set hjk]
            exact ⟨fun hx => hx.resolve_right fun hy => hjk hy.symm, .inl⟩
        · intro n hn
          obtain ⟨hn1, hn2⟩ := List.mem_filter.1 hn
          obtain ⟨j, b, hj⟩ := h.hidden n hn1
          have hjk : j ≠ k := by
            rintro rfl
            rw [hk] at hj
            cases hj
            simp at hn2
          exact ⟨j, b, (set hjk).2 hj⟩
        · intro ha j n b hj
          have hjk : j ≠ k := by
            rintro rfl
            simp only at hj
            rw [List.getElem?_set_self hlt] at hj; cases hj
          have hj' := (set hjk).1 hj
          refine List.mem_filter.2 ⟨h.all (alternating_prefix ha) j n b hj', ?_⟩
          have : n ≠ name := by
            intro hx
            rw [← hx] at hk
            exact hjk (h.one (alternating_prefix ha) j k n b bc hj' hk)
          simpa using this
        · intro ha j j' n b b' hj hj'
          have ne : ∀ {j : Nat} {x : Name × Nat}, (s.tasks.set k none)[j]? = some (some x) → j ≠ k := by
            rintro j x hj rfl
            rw [List.getElem?_set_self hlt] at hj; cases hj
          exact h.one (alternating_prefix ha) j j' n b b' ((set (ne hj)).1 hj) ((set (ne hj')).1 hj')
      · exact h.same rfl (by simp) (by simp)
    · exact h.same rfl (by simp) (by simp)

theorem inv_reach (h : (machine path).Reach tr s) : Inv tr s := by
  refine Machine.Reach.induct (M := machine path) (P := fun tr s => Inv tr s) ?_ ?_ h
  · exact ⟨fun bc => by simp [init, Ended], fun _ _ _ h => (by cases h), fun _ _ _ h => (by cases h),
      fun k => by simp [init, Noticed], fun _ h => (by cases h), fun _ _ _ _ h => (by cases h),
      fun _ _ _ _ _ _ h => (by cases h)⟩
  · intro tr s op _ ih
    exact ih.step op

/-! ## C86 -/

/-- **C86.**  A broadcast is only hidden if this room has published one under the same name and has
not noticed that it ended; every other broadcast is returned. -/
theorem c86_others (h : (machine path).Reach tr s) {name : Name} {bc : Nat} :
    (step path s (.watch (some (name, bc)))).1 = .joined bc ∨
    ((step path s (.watch (some (name, bc)))).1 = .skipped ∧
      ∃ bc' k, (name, bc', k) ∈ publications tr ∧ ¬ Noticed tr k) := by
  have hI := inv_reach h
  simp only [step]
  split
  · rename_i hn
    obtain ⟨k, b, hk⟩ := hI.hidden name hn
    refine .inr ⟨rfl, b, k, hI.tasks k name b hk, ?_⟩
    rw [hI.noticed, hk]
    exact fun hx => by cases hx
  · exact .inl rfl

/-- **C86, the end.**  Watching ends when there are no more announcements, and not before. -/
theorem c86_end (s : State) (e : Option (Name × Nat)) :
    (step path s (.watch e)).1 = .ended ↔ e = none := by
  cases e with
  | none => simp [step]
  | some e =>
    simp only [step]
    split <;> simp

/-- **C86**, partial.  If a name is only published again after the end of the earlier broadcast was
noticed, then a broadcast under the name of an own broadcast that has not ended is hidden.

Missing: names that are published again earlier, see `c86_replaced`. -/
theorem c86_own_partial (h : (machine path).Reach tr s) (ha : Alternating tr) {name : Name} {bc k : Nat}
    (hp : (name, bc, k) ∈ publications tr) (hn : ¬ Ended tr bc) (bc' : Nat) :
    (step path s (.watch (some (name, bc')))).1 = .skipped := by
  have hI := inv_reach h
  rcases hI.pubs name bc k hp with hk | ⟨-, hk⟩
  · simp only [step]
    rw [if_pos (hI.all ha k name bc hk)]
  · exact absurd hk hn

/-- **C86.**  Once an own broadcast has ended, its task notices it when it runs, and, if no other own
broadcast has the name, the name is free for others. -/
theorem c86_freed (h : (machine path).Reach tr s) {name : Name} {bc k : Nat}
    (hp : (name, bc, k) ∈ publications tr) (he : Ended tr bc) :
    (¬ Noticed tr k → (step path s (.cleanup k)).1 = .ok) ∧
    ((∀ bc' k', (name, bc', k') ∈ publications tr → Noticed tr k') → ∀ bc',
      (step path s (.watch (some (name, bc')))).1 = .joined bc') := by
  have hI := inv_reach h
  refine ⟨fun hn => ?_, fun hall bc' => ?_⟩
  · rcases hI.pubs name bc k hp with hk | ⟨hk, -⟩
    · simp only [step, hk]
      rw [if_pos ((hI.closed bc).2 he)]
    · exact absurd ((hI.noticed k).2 hk) hn
  · rcases c86_others h (name := name) (bc := bc') with hx | ⟨-, b, k', hm, hn⟩
    · exact hx
    · exact absurd (hall b k' hm) hn

/-- **C86.**  Broadcasts are published under the path of the room followed by the name. -/
theorem c86_path (h : (machine path).Reach tr s) {name : Name} {bc : Nat} {full : Name} {k : Nat}
    (hm : (Op.publish name bc, Out.published full k) ∈ tr) : full = path ++ name := by
  refine Machine.Reach.induct (M := machine path)
    (P := fun tr _ => (Op.publish name bc, Out.published full k) ∈ tr → full = path ++ name) ?_ ?_ h hm
  · intro hx; cases hx
  · intro tr s op _ ih hm
    rcases List.mem_append.1 hm with hm | hm
    · exact ih hm
    · have hm := List.mem_singleton.1 hm
      injection hm with h1 h2
      subst h1
      change Out.published full k = Out.published (path ++ name) s.tasks.length at h2
      injection h2

/-- A run: two names are published, others join, one own broadcast ends. -/
example :
    ((machine ['r', '/']).run [.publish ['a'] 0, .publish ['b'] 1, .watch (some (['a'], 0)),
      .watch (some (['c'], 5)), .watch (some (['b'], 1)), .close 0, .cleanup 1, .cleanup 0,
      .watch (some (['a'], 6)), .watch none]).1.map (·.2) =
    [.published ['r', '/', 'a'] 0, .published ['r', '/', 'b'] 1, .skipped, .joined 5, .skipped, .ok,
      .pending, .ok, .joined 6, .ended] := by decide +kernel

/-- The hypotheses of `c86_own_partial` can be met. -/
example :
    let tr := ((machine []).run [.publish ['a'] 0, .publish ['b'] 1]).1
    Alternating tr ∧ (['a'], 0, 0) ∈ publications tr ∧ ¬ Ended tr 0 := by
  have htr : ((machine []).run [.publish ['a'] 0, .publish ['b'] 1]).1 =
      [(.publish ['a'] 0, .published ['a'] 0), (.publish ['b'] 1, .published ['b'] 1)] := by decide +kernel
  simp only [htr]
  refine ⟨?_, by decide +kernel, ?_⟩
  · intro pre name bc o post he
    match pre, he with
    | [], _ => intro _ _ hm; cases hm
    | [a], he =>
      simp only [List.cons_append, List.nil_append, List.cons.injEq, Prod.mk.injEq, Op.publish.injEq] at he
      obtain ⟨rfl, ⟨⟨rfl, rfl⟩, -⟩, -⟩ := he
      intro _ _ hm
      simp [publications] at hm
    | a :: b :: rest, he => simp at he
  · intro hx
    unfold Ended at hx
    revert hx
    decide +kernel

/-- **C86 is violated by publishing a name again**: the new broadcast takes over the name, and when the
old one ends, the room takes its own new broadcast for that of another. -/
theorem c86_replaced : ∃ (tr : Trace) (s : State), (machine ['r', '/']).Reach tr s ∧
    publications tr = [(['a'], 0, 0), (['a'], 1, 1)] ∧ ¬ Ended tr 1 ∧
    (step ['r', '/'] s (.watch (some (['a'], 1)))).1 = .joined 1 :=
  ⟨_, _, (machine ['r', '/']).reach_run [.publish ['a'] 0, .publish ['a'] 1, .close 0, .cleanup 0],
    by decide +kernel, by unfold Ended; decide +kernel, by decide +kernel⟩

/-- **C86 is violated by a late echo**: an own broadcast that has ended is returned if its announcement
comes back late. -/
theorem c86_late : ∃ (tr : Trace) (s : State), (machine ['r', '/']).Reach tr s ∧ Alternating tr ∧
    publications tr = [(['a'], 0, 0)] ∧ (step ['r', '/'] s (.watch (some (['a'], 0)))).1 = .joined 0 := by
  refine ⟨_, _, (machine ['r', '/']).reach_run [.publish ['a'] 0, .close 0, .cleanup 0], ?_,
    by decide +kernel, by decide +kernel⟩
  have htr : ((machine ['r', '/']).run [.publish ['a'] 0, .close 0, .cleanup 0]).1 =
      [(.publish ['a'] 0, .published ['r', '/', 'a'] 0), (.close 0, .ok), (.cleanup 0, .ok)] := by
    decide +kernel
  rw [htr]
  intro pre name bc o post he
  match pre, he with
  | [], _ => intro _ _ hm; cases hm
  | [a], he => simp at he
  | [a, b], he => simp at he
  | a :: b :: d :: rest, he => simp at he

/-- **C86 is violated by namesakes**: the broadcast of another under the name of an own one is never
returned. -/
theorem c86_namesake : ∃ (tr : Trace) (s : State), (machine ['r', '/']).Reach tr s ∧
    publications tr = [(['a'], 0, 0)] ∧ (step ['r', '/'] s (.watch (some (['a'], 7)))).1 = .skipped :=
  ⟨_, _, (machine ['r', '/']).reach_run [.publish ['a'] 0], by decide +kernel, by decide +kernel⟩

end Verif.Props.Room
