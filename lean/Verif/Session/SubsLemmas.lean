import Verif.Session.SubsSpec
import Verif.Model.TrackLemmas

/-!
# Lemmas about subscriptions
-/

set_option autoImplicit false

namespace Verif.Session.Subs

open Verif Verif.Session Verif.Session.Subs.Spec
open Verif.Model (Track.Op Track.Out Track.State Track.init Track.step Track.machine)

theorem trackTrace_snoc (k : Nat) (tr : Trace) (e : Op × Out) :
    trackTrace k (tr ++ [e]) = trackTrace k tr ++ trackTrace k [e] := by
  simp [trackTrace]

theorem ids_snoc (tr : Trace) (e : Op × Out) : ids (tr ++ [e]) = ids tr ++ ids [e] := by
  simp [ids]

/-- The producer handles of the track in each phase. -/
def prods : Phase → Slots (Option Nat) → Prop
  | .spawned, l => l = [some none]
  | .active, l => l = [some none, some none]
  | .closed, l => l = [none, some none]
  | .gone, _ => True

/-- What is known of subscription `k`. -/
structure TaskOk (tr : Trace) (s : State) (k : Nat) (ph : Phase) (t : Track.State) : Prop where
  reach : Track.machine.Reach (trackTrace k tr) t
  started : Started tr k ↔ ph ≠ .spawned
  closed : Closed tr k ↔ ph = .closed ∨ ph = .gone
  removed : Removed tr k ↔ ph = .gone
  prods : Subs.prods ph t.producers
  open_ : t.closed = none ↔ ph = .spawned ∨ ph = .active
  table : s.table k = if ph = .active ∨ ph = .closed then some (k, 1) else none

/-- The event is about the task `k`. -/
def About (k : Nat) : Op × Out → Prop
  | (.start j, .ok) => j = k
  | (.close j _, .ok) => j = k
  | (.remove j, .ok) => j = k
  | _ => False

theorem about_iff {tr : Trace} {e : Op × Out} {k : Nat} (h : ¬ About k e) :
    (Started (tr ++ [e]) k ↔ Started tr k) ∧ (Closed (tr ++ [e]) k ↔ Closed tr k) ∧
    (Removed (tr ++ [e]) k ↔ Removed tr k) := by
  unfold Started Closed Removed
  simp only [List.mem_append, List.mem_singleton]
  refine ⟨or_iff_left ?_, ?_, or_iff_left ?_⟩
  · rintro rfl; exact h rfl
  · constructor
    · rintro ⟨r, hr | rfl⟩
      · exact ⟨r, hr⟩
      · exact absurd rfl h
    · rintro ⟨r, hr⟩; exact ⟨r, .inl hr⟩
  · rintro rfl; exact h rfl

theorem TaskOk.keep {tr : Trace} {s s' : State} {k : Nat} {ph : Phase} {t : Track.State}
    (h : TaskOk tr s k ph t) {e : Op × Out} (ha : ¬ About k e) (ht : trackTrace k [e] = [])
    (hs : s'.table k = s.table k) : TaskOk (tr ++ [e]) s' k ph t := by
  obtain ⟨a1, a2, a3⟩ := about_iff (tr := tr) ha
  refine ⟨?_, a1.trans h.started, a2.trans h.closed, a3.trans h.removed, h.prods, h.open_, ?_⟩
  · rw [trackTrace_snoc, ht, List.append_nil]; exact h.reach
  · rw [hs]; exact h.table

/-- The invariant. -/
structure Inv (tr : Trace) (s : State) : Prop where
  ids : Spec.ids tr = List.range s.tasks.length
  next : s.nextId = s.tasks.length % 2 ^ 64
  len : s.tracks.length = s.tasks.length
  task : ∀ (k id : Nat) (ph : Phase), s.tasks[k]? = some (id, ph) → id = k
  ok : ∀ (k id : Nat) (ph : Phase) (t : Track.State), s.tasks[k]? = some (id, ph) → s.tracks[k]? = some t → TaskOk tr s k ph t
  rest : ∀ k : Nat, s.tasks.length ≤ k → s.table k = none ∧ trackTrace k tr = [] ∧ ¬ Started tr k ∧
    ¬ Closed tr k ∧ ¬ Removed tr k

theorem inv_init : Inv [] init := by
  refine ⟨rfl, rfl, rfl, ?_, ?_, ?_⟩
  · intro k id ph h; simp [init] at h
  · intro k id ph t h; simp [init] at h
  · intro k _
    refine ⟨rfl, rfl, ?_, ?_, ?_⟩
    · intro h; cases h
    · rintro ⟨_, h⟩; cases h
    · intro h; cases h

/-- Nothing but one subscription changes. -/
theorem Inv.update {tr : Trace} {s s' : State} (h : Inv tr s) {e : Op × Out} {k id : Nat}
    {ph' : Phase} {t' : Track.State} (hk : k < s.tasks.length)
    (hid : id = k) (hi : Spec.ids [e] = []) (hn : s'.nextId = s.nextId)
    (htasks : s'.tasks = s.tasks.set k (id, ph')) (htracks : s'.tracks = s.tracks.set k t')
    (hother : ∀ j, j ≠ k → ¬ About j e ∧ trackTrace j [e] = [] ∧ s'.table j = s.table j)
    (hok : TaskOk (tr ++ [e]) s' k ph' t') : Inv (tr ++ [e]) s' := by
  subst hid
  have hl : s'.tasks.length = s.tasks.length := by rw [htasks, List.length_set]
  refine ⟨?_, ?_, ?_, ?_, ?_, ?_⟩
  · rw [ids_snoc, hi, List.append_nil, hl]; exact h.ids
  · rw [hn, hl]; exact h.next
  · rw [hl, htracks, List.length_set]; exact h.len
  · intro j i ph hj
    rw [htasks, List.getElem?_set] at hj
    split at hj
    · rename_i hkj
      cases hj; exact hkj
    · exact h.task j i ph hj
  · intro j i ph t hj ht
    by_cases hjk : j = id
    · subst hjk
      rw [htasks, List.getElem?_set, if_pos rfl, if_pos hk] at hj
      rw [htracks, List.getElem?_set, if_pos rfl, if_pos (by rw [h.len]; exact hk)] at ht
      cases hj; cases ht
      exact hok
    · rw [htasks, List.getElem?_set_ne (Ne.symm hjk)] at hj
      rw [htracks, List.getElem?_set_ne (Ne.symm hjk)] at ht
      obtain ⟨h1, h2, h3⟩ := hother j hjk
      exact (h.ok j i ph t hj ht).keep h1 h2 h3
  · intro j hj
    rw [hl] at hj
    obtain ⟨h1, h2, h3⟩ := hother j (by omega)
    obtain ⟨g1, g2, g3, g4, g5⟩ := h.rest j hj
    obtain ⟨a1, a2, a3⟩ := about_iff (tr := tr) h1
    refine ⟨by rw [h3]; exact g1, by rw [trackTrace_snoc, h2, g2]; rfl, ?_, ?_, ?_⟩
    · rw [a1]; exact g3
    · rw [a2]; exact g4
    · rw [a3]; exact g5

/-- Nothing changes. -/
theorem Inv.quiet {tr : Trace} {s : State} (h : Inv tr s) {e : Op × Out} (hi : Spec.ids [e] = [])
    (ho : ∀ j, ¬ About j e ∧ trackTrace j [e] = []) : Inv (tr ++ [e]) s := by
  refine ⟨?_, h.next, h.len, h.task, ?_, ?_⟩
  · rw [ids_snoc, hi, List.append_nil]; exact h.ids
  · intro j i ph t hj ht
    exact (h.ok j i ph t hj ht).keep (ho j).1 (ho j).2 rfl
  · intro j hj
    obtain ⟨g1, g2, g3, g4, g5⟩ := h.rest j hj
    obtain ⟨a1, a2, a3⟩ := about_iff (tr := tr) (ho j).1
    refine ⟨g1, by rw [trackTrace_snoc, (ho j).2, g2]; rfl, ?_, ?_, ?_⟩
    · rw [a1]; exact g3
    · rw [a2]; exact g4
    · rw [a3]; exact g5

/-- What is in the table. -/
theorem Inv.table {tr : Trace} {s : State} (h : Inv tr s) {i k hd : Nat}
    (hi : s.table i = some (k, hd)) : k = i ∧ hd = 1 ∧ ∃ ph t, s.tasks[i]? = some (i, ph) ∧
      s.tracks[i]? = some t ∧ (ph = .active ∨ ph = .closed) ∧ TaskOk tr s i ph t := by
  by_cases hl : i < s.tasks.length
  · have h1 : s.tasks[i]? = some (s.tasks[i].1, s.tasks[i].2) := List.getElem?_eq_getElem hl
    have h2 : s.tracks[i]? = some (s.tracks[i]'(by rw [h.len]; exact hl)) :=
      List.getElem?_eq_getElem (by rw [h.len]; exact hl)
    have hid := h.task _ _ _ h1
    have ok := h.ok _ _ _ _ h1 h2
    have ht := ok.table
    rw [hi] at ht
    split at ht
    · rename_i hph
      cases ht
      rw [hid] at h1
      exact ⟨rfl, rfl, _, _, h1, h2, hph, ok⟩
    · cases ht
  · rw [(h.rest i (by omega)).1] at hi; cases hi

theorem Inv.request {tr : Trace} {s : State} (h : Inv tr s) (hb : s.tasks.length < 2 ^ 64) :
    Inv (tr ++ [(.request, (step s .request).1)]) (step s .request).2 := by
  simp only [step]
  have hn : s.nextId = s.tasks.length := by rw [h.next]; exact Nat.mod_eq_of_lt hb
  rw [hn]
  have ho : ∀ j, ¬ About j (Op.request, Out.id s.tasks.length) ∧
      trackTrace j [(Op.request, Out.id s.tasks.length)] = [] := fun j => ⟨id, rfl⟩
  refine ⟨?_, ?_, by simp [h.len], ?_, ?_, ?_⟩
  · rw [ids_snoc, h.ids]; simp [List.range_succ]; rfl
  · simp
  · intro k id ph hk
    by_cases hlt : k < s.tasks.length
    · exact h.task k id ph (by rw [List.getElem?_append_left hlt] at hk; exact hk)
    · rw [List.getElem?_append_right (by omega)] at hk
      rw [List.getElem?_singleton] at hk
      split at hk
      · cases hk; omega
      · cases hk
  · intro k id ph t hk ht
    by_cases hlt : k < s.tasks.length
    · exact (h.ok k id ph t (by rw [List.getElem?_append_left hlt] at hk; exact hk)
        (by rw [List.getElem?_append_left (by rw [h.len]; exact hlt)] at ht; exact ht)).keep
          (ho k).1 (ho k).2 rfl
    · rw [List.getElem?_append_right (by omega), List.getElem?_singleton] at hk
      rw [List.getElem?_append_right (by rw [h.len]; omega), List.getElem?_singleton] at ht
      split at hk
      · rename_i hz
        rw [if_pos (by rw [h.len]; exact hz)] at ht
        cases hk; cases ht
        obtain ⟨g1, g2, g3, g4, g5⟩ := h.rest k (by omega)
        obtain ⟨a1, a2, a3⟩ := about_iff (tr := tr) (ho k).1
        refine ⟨?_, ?_, ?_, ?_, rfl, by simp [Model.Track.init], ?_⟩
        · rw [trackTrace_snoc, (ho k).2, g2]; exact .init
        · rw [a1]; simp [g3]
        · rw [a2]; simp [g4]
        · rw [a3]; simp [g5]
        · simpa using g1
      · cases hk
  · intro k hk
    simp only [List.length_append, List.length_singleton] at hk
    obtain ⟨g1, g2, g3, g4, g5⟩ := h.rest k (by omega)
    obtain ⟨a1, a2, a3⟩ := about_iff (tr := tr) (ho k).1
    refine ⟨g1, by rw [trackTrace_snoc, (ho k).2, g2]; rfl, ?_, ?_, ?_⟩
    · rw [a1]; exact g3
    · rw [a2]; exact g4
    · rw [a3]; exact g5

theorem trackTrace_one {k j : Nat} {e : Op × Out} {x : Track.Op × Track.Out}
    (h : ∀ i, trackTrace i [e] = if j = i then [x] else []) (hk : k ≠ j) :
    trackTrace k [e] = [] := by
  rw [h k, if_neg (Ne.symm hk)]

theorem Inv.start {tr : Trace} {s : State} (h : Inv tr s) (k : Nat) :
    Inv (tr ++ [(.start k, (step s (.start k)).1)]) (step s (.start k)).2 := by
  have q : Inv (tr ++ [(.start k, .invalid)]) s := h.quiet rfl fun j => ⟨id, rfl⟩
  simp only [step]
  split
  · rename_i id t hk ht
    have hid := h.task _ _ _ hk
    subst hid
    have ok := h.ok _ _ _ _ hk ht
    have hp : t.producers = [some none] := ok.prods
    have hst : Track.step t (.cloneProducer 0) =
        (.handle 1, { t with producers := [some none, some none] }) := by
      simp [Model.Track.step, hp, Slots.get, Slots.add]
    rw [hst]
    simp only
    have htt : ∀ i, trackTrace i [(Op.start id, Out.ok)] =
        if id = i then [(Track.Op.cloneProducer 0, Track.Out.handle 1)] else [] := by
      intro i; unfold trackTrace; simp only [List.filterMap_cons, List.filterMap_nil]
      by_cases hi : id = i <;> simp [hi]
    have hlt := (List.getElem?_eq_some_iff.1 hk).1
    refine h.update hlt rfl rfl rfl rfl rfl ?_ ?_
    · intro j hj
      exact ⟨fun hx => hj hx.symm, trackTrace_one htt hj, by simp [hj]⟩
    · refine ⟨?_, ?_, ?_, ?_, rfl, ?_, by simp⟩
      · rw [trackTrace_snoc, htt, if_pos rfl]
        have := Machine.Reach.step (M := Track.machine) (.cloneProducer 0) ok.reach
        simp only [hst] at this
        exact this
      · simp [Started]
      · have := ok.closed
        simp only [Closed, List.mem_append, List.mem_singleton] at this ⊢
        simpa using this
      · have := ok.removed
        simp only [Removed, List.mem_append, List.mem_singleton] at this ⊢
        simpa using this
      · have := ok.open_
        simpa using this
  · exact q

theorem Inv.close {tr : Trace} {s : State} (h : Inv tr s) (k : Nat) (r : Except Error Unit) :
    Inv (tr ++ [(.close k r, (step s (.close k r)).1)]) (step s (.close k r)).2 := by
  have q : Inv (tr ++ [(.close k r, .invalid)]) s := h.quiet rfl fun j => ⟨id, rfl⟩
  simp only [step]
  split
  · rename_i id t hk ht
    have hid := h.task _ _ _ hk
    subst hid
    have ok := h.ok _ _ _ _ hk ht
    have hp : t.producers = [some none, some none] := ok.prods
    have hst : ∃ v, Track.step t (closeOp r) =
        (.ok, { t with producers := [none, some none], closed := some v }) := by
      cases r with
      | ok u => exact ⟨.ok (), by simp [closeOp, Model.Track.step, hp, Slots.get, Slots.put]⟩
      | error e =>
        exact ⟨.error (Transfer.abortWith e),
          by simp [closeOp, Model.Track.step, hp, Slots.get, Slots.put]⟩
    obtain ⟨v, hst⟩ := hst
    have htt : ∀ i, trackTrace i [(Op.close id r, Out.ok)] =
        if id = i then [(closeOp r, Track.Out.ok)] else [] := by
      intro i; unfold trackTrace; simp only [List.filterMap_cons, List.filterMap_nil]
      by_cases hi : id = i <;> simp [hi]
    have hlt := (List.getElem?_eq_some_iff.1 hk).1
    refine h.update hlt rfl rfl rfl rfl rfl ?_ ?_
    · intro j hj
      exact ⟨fun hx => hj hx.symm, trackTrace_one htt hj, rfl⟩
    · refine ⟨?_, ?_, ?_, ?_, ?_, ?_, ?_⟩
      · rw [trackTrace_snoc, htt, if_pos rfl]
        have := Machine.Reach.step (M := Track.machine) (closeOp r) ok.reach
        simp only [hst] at this ⊢
        exact this
      · have := ok.started
        simp only [Started, List.mem_append, List.mem_singleton] at this ⊢
        simpa using this
      · refine iff_of_true ⟨r, by simp⟩ (.inl rfl)
      · have := ok.removed
        simp only [Removed, List.mem_append, List.mem_singleton] at this ⊢
        simpa using this
      · rw [hst]; rfl
      · rw [hst]; simp
      · have := ok.table; simpa using this
  · exact q

theorem Inv.remove {tr : Trace} {s : State} (h : Inv tr s) (k : Nat) :
    Inv (tr ++ [(.remove k, (step s (.remove k)).1)]) (step s (.remove k)).2 := by
  have q : Inv (tr ++ [(.remove k, .invalid)]) s := h.quiet rfl fun j => ⟨id, rfl⟩
  simp only [step]
  split
  · rename_i id hk
    have hid := h.task _ _ _ hk
    subst hid
    have hlt := (List.getElem?_eq_some_iff.1 hk).1
    have ht : s.tracks[id]? = some (s.tracks[id]'(by rw [h.len]; exact hlt)) :=
      List.getElem?_eq_getElem (by rw [h.len]; exact hlt)
    generalize s.tracks[id]'(by rw [h.len]; exact hlt) = t at ht
    have ok := h.ok _ _ _ _ hk ht
    have hp : t.producers = [none, some none] := ok.prods
    have htab : s.table id = some (id, 1) := by have := ok.table; simpa using this
    rw [htab]
    simp only [ht]
    have hst : Track.step t (.dropProducer 1) = (.ok, { t with producers := [none, none] }) := by
      simp [Model.Track.step, hp, Slots.get, Slots.put]
    have htt : ∀ i, trackTrace i [(Op.remove id, Out.ok)] =
        if id = i then [(Track.Op.dropProducer 1, Track.Out.ok)] else [] := by
      intro i; unfold trackTrace; simp only [List.filterMap_cons, List.filterMap_nil]
      by_cases hi : id = i <;> simp [hi]
    refine h.update hlt rfl rfl rfl rfl rfl ?_ ?_
    · intro j hj
      exact ⟨fun hx => hj hx.symm, trackTrace_one htt hj, by simp [hj]⟩
    · refine ⟨?_, ?_, ?_, ?_, trivial, ?_, by simp⟩
      · rw [trackTrace_snoc, htt, if_pos rfl]
        have := Machine.Reach.step (M := Track.machine) (.dropProducer 1) ok.reach
        simp only [hst] at this ⊢
        exact this
      · have := ok.started
        simp only [Started, List.mem_append, List.mem_singleton] at this ⊢
        simpa using this
      · have := ok.closed
        simp only [Closed, List.mem_append, List.mem_singleton] at this ⊢
        simpa using this
      · simp [Removed]
      · rw [hst]
        have := ok.open_
        simpa using this
  · exact q

/-- What the table's producer does with a group. -/
theorem insert_step {t : Track.State} (hp : t.producers.get 1 = some none) (seq gid : Nat)
    (hs : seq < 2 ^ 64) :
    (t.closed.isSome ∧ Track.step t (.insert 1 ⟨seq, gid⟩) = (.panic, t)) ∨
    (t.closed = none ∧ (∃ l, t.latest = some l ∧ seq ≤ l.seq) ∧
      Track.step t (.insert 1 ⟨seq, gid⟩) = (.inserted false, t)) ∨
    (t.closed = none ∧ (∀ l, t.latest = some l → l.seq < seq) ∧
      Track.step t (.insert 1 ⟨seq, gid⟩) = (.inserted true, { t with latest := some ⟨seq, gid⟩ })) := by
  simp only [Model.Track.step, hp]
  rw [if_neg (by omega)]
  rcases Model.Track.insertGroup_cases t ⟨seq, gid⟩ with ⟨h1, h2⟩ | ⟨h1, h2, h3⟩ | ⟨h1, h2, h3⟩
  · exact .inl ⟨h1, by rw [h2]⟩
  · exact .inr (.inl ⟨h1, h2, by rw [h3]⟩)
  · exact .inr (.inr ⟨h1, h2, by rw [h3]⟩)

theorem prods_one {ph : Phase} {l : Slots (Option Nat)} (h : prods ph l)
    (hp : ph = .active ∨ ph = .closed) : l.get 1 = some none := by
  rcases hp with rfl | rfl
  · have : l = [some none, some none] := h
    rw [this]; rfl
  · have : l = [none, some none] := h
    rw [this]; rfl

/-- The track of subscription `k` makes a step. -/
theorem Inv.trackStep {tr : Trace} {s : State} (h : Inv tr s) {e : Op × Out} {k : Nat} {ph : Phase}
    {t : Track.State} (hk : s.tasks[k]? = some (k, ph)) (ht : s.tracks[k]? = some t)
    (hi : Spec.ids [e] = []) (ha : ∀ j, ¬ About j e) (op : Track.Op)
    (htt : ∀ i, trackTrace i [e] = if k = i then [(op, (Track.step t op).1)] else [])
    (hp : prods ph (Track.step t op).2.producers)
    (hc : (Track.step t op).2.closed = t.closed) :
    Inv (tr ++ [e]) { s with tracks := s.tracks.set k (Track.step t op).2 } := by
  have hlt := (List.getElem?_eq_some_iff.1 hk).1
  have ok := h.ok _ _ _ _ hk ht
  have hset : s.tasks.set k (k, ph) = s.tasks := by
    have := (List.getElem?_eq_some_iff.1 hk).2
    rw [← this]; simp
  refine h.update (ph' := ph) hlt rfl hi rfl hset.symm rfl ?_ ?_
  · intro j hj
    exact ⟨ha j, trackTrace_one htt hj, rfl⟩
  · obtain ⟨a1, a2, a3⟩ := about_iff (tr := tr) (ha k)
    refine ⟨?_, a1.trans ok.started, a2.trans ok.closed, a3.trans ok.removed, hp,
      by rw [hc]; exact ok.open_, ok.table⟩
    rw [trackTrace_snoc, htt, if_pos rfl]
    exact Machine.Reach.step (M := Track.machine) op ok.reach

theorem Inv.recvGroup {tr : Trace} {s : State} (h : Inv tr s) (sub seq gid : Nat) :
    Inv (tr ++ [(.recvGroup sub seq gid, (step s (.recvGroup sub seq gid)).1)])
      (step s (.recvGroup sub seq gid)).2 := by
  have q : Inv (tr ++ [(.recvGroup sub seq gid, .invalid)]) s := h.quiet rfl fun j => ⟨id, rfl⟩
  simp only [step]
  split
  · exact q
  · rename_i hs
    split
    · exact h.quiet rfl fun j => ⟨id, rfl⟩
    · rename_i k hd htab
      obtain ⟨rfl, rfl, ph, t, hk, ht, hph, ok⟩ := h.table htab
      simp only [ht]
      have hp := prods_one ok.prods hph
      have hall := h.trackStep (e := (.recvGroup k seq gid, match (Track.step t (.insert 1 ⟨seq, gid⟩)).1 with
        | .inserted true => .created k | .inserted false => .old k | _ => .panic k)) hk ht
        (by unfold Spec.ids; simp) (by intro j; simp [About]) (.insert 1 ⟨seq, gid⟩)
      rcases insert_step hp seq gid (by omega) with ⟨h1, h2⟩ | ⟨h1, _, h2⟩ | ⟨h1, _, h2⟩
      all_goals
        rw [h2] at hall ⊢
        dsimp only at hall ⊢
        refine hall ?_ ok.prods rfl
        intro i
        unfold trackTrace
        simp only [List.filterMap_cons, List.filterMap_nil]
        by_cases hi : k = i <;> simp [hi]

theorem byConsumer_keeps {op : Track.Op} (h : byConsumer op = true) (t : Track.State) :
    (Track.step t op).2.producers = t.producers ∧ (Track.step t op).2.closed = t.closed := by
  cases op <;> first
    | (exfalso; revert h; decide)
    | (simp [byConsumer] at h; done)
    | (simp only [Model.Track.step]; (repeat' split) <;> exact ⟨rfl, rfl⟩)

theorem Inv.trackOp {tr : Trace} {s : State} (h : Inv tr s) (k : Nat) (op : Track.Op) :
    Inv (tr ++ [(.track k op, (step s (.track k op)).1)]) (step s (.track k op)).2 := by
  have q : Inv (tr ++ [(.track k op, .invalid)]) s := h.quiet rfl fun j => ⟨id, rfl⟩
  simp only [step]
  split
  · exact q
  · rename_i t ht
    split
    · rename_i hb
      obtain ⟨h1, h2⟩ := byConsumer_keeps hb t
      have hlt := (List.getElem?_eq_some_iff.1 ht).1
      rw [h.len] at hlt
      have hk : s.tasks[k]? = some (s.tasks[k].1, s.tasks[k].2) := List.getElem?_eq_getElem hlt
      have hid := h.task _ _ _ hk
      rw [hid] at hk
      have ok := h.ok _ _ _ _ hk ht
      refine h.trackStep hk ht rfl (fun j => id) op ?_ (by rw [h1]; exact ok.prods) h2
      intro i
      unfold trackTrace
      simp only [List.filterMap_cons, List.filterMap_nil]
      by_cases hi : k = i <;> simp [hi]
    · exact q

theorem inv_reach {tr : Trace} {s : State} (h : machine.Reach tr s)
    (hb : (ids tr).length ≤ 2 ^ 64) : Inv tr s := by
  revert hb
  refine Machine.Reach.induct (M := machine) (P := fun tr s => (ids tr).length ≤ 2 ^ 64 → Inv tr s)
    ?_ ?_ h
  · intro _; exact inv_init
  · intro tr s op _ ih hb
    have hb' : (ids tr).length ≤ 2 ^ 64 := by
      rw [ids_snoc, List.length_append] at hb; omega
    have ih := ih hb'
    cases op with
    | request =>
      refine ih.request ?_
      have : (ids (tr ++ [(Op.request, Out.id s.nextId)])).length ≤ 2 ^ 64 := hb
      rw [ids_snoc, ih.ids] at this
      simp [ids] at this
      omega
    | start k => exact ih.start k
    | close k r => exact ih.close k r
    | remove k => exact ih.remove k
    | recvGroup a b c => exact ih.recvGroup a b c
    | track k op => exact ih.trackOp k op

end Verif.Session.Subs
