import Verif.Js.Serve
import Verif.Js.TrackLemmas
import Verif.Js.WireLemmas

/-!
# Invariants of serving a subscription in the browser
-/

set_option autoImplicit false

namespace Verif.Js.Serve

open Verif

open Verif.Js.Group (Status)

/-! ## Groups of a track -/

/-- A group after a step of the track: frames are only added, and none once it has ended. -/
def Grows (s s' : Track.State) : Prop := ∀ g x, Track.find s g = some x →
  ∃ x', Track.find s' g = some x' ∧ x.frames <+: x'.frames ∧ (x.status ≠ .live → x' = x)

theorem Grows.refl (s : Track.State) : Grows s s :=
  fun _ x h => ⟨x, h, List.prefix_refl _, fun _ => rfl⟩

theorem Grows.of_eq {s s' : Track.State} (h : s'.groups = s.groups) : Grows s s' := by
  intro g x hx
  refine ⟨x, ?_, List.prefix_refl _, fun _ => rfl⟩
  unfold Track.find at hx ⊢
  rw [h]
  exact hx

theorem Grows.trans {s s' s'' : Track.State} (h : Grows s s') (h' : Grows s' s'') : Grows s s'' := by
  intro g x hx
  obtain ⟨x1, a1, a2, a3⟩ := h g x hx
  obtain ⟨x2, b1, b2, b3⟩ := h' g x1 a1
  refine ⟨x2, b1, a2.trans b2, fun hl => ?_⟩
  have := a3 hl
  subst this
  exact b3 hl

theorem grows_add (s : Track.State) (g : Track.Grp) (o : Track.Out) :
    Grows s (Track.add s g o).2 := by
  unfold Track.add
  split
  · intro id x hx
    refine ⟨x, ?_, List.prefix_refl _, fun _ => rfl⟩
    unfold Track.find at hx ⊢
    show (s.groups ++ [g]).find? _ = some x
    rw [List.find?_append, hx]
    rfl
  · exact .of_eq rfl

theorem find_map (l : List Track.Grp) (id : Nat) (f : Track.Grp → Track.Grp)
    (hf : ∀ g, (f g).id = g.id) (k : Nat) :
    (l.map fun x => if x.id = id then f x else x).find? (fun g => g.id = k) =
      (l.find? fun g => g.id = k).map fun x => if x.id = id then f x else x := by
  induction l with
  | nil => rfl
  | cons a l ih =>
    have he : ((if a.id = id then f a else a).id) = a.id := by
      split
      · exact hf a
      · rfl
    simp only [List.map_cons, List.find?_cons, he]
    by_cases hk : a.id = k
    · simp [hk]
    · simp only [hk, decide_false]
      exact ih

theorem grows_group (s : Track.State) (id : Nat) (f : Track.Grp → Track.Grp)
    (hid : ∀ g, (f g).id = g.id) (hfr : ∀ g, g.frames <+: (f g).frames) :
    Grows s (Track.onGroup s id f).2 := by
  unfold Track.onGroup
  split
  · next y hy =>
    split
    · next hl =>
      intro g x hx
      have hm := find_map s.groups id f hid g
      unfold Track.find at hx hy ⊢
      rw [hx] at hm
      refine ⟨_, hm, ?_, fun hs => ?_⟩
      · dsimp only
        split
        · exact hfr x
        · exact List.prefix_refl _
      · dsimp only
        split
        · next he =>
          have h1 : x.id = g := by simpa using List.find?_some hx
          have h2 : id = g := he.symm.trans h1
          rw [h2, hx] at hy
          cases hy
          exact absurd hl hs
        · rfl
    · exact .refl s
  · exact .refl s

theorem grows_sub (s : Track.State) (c : Nat) (f : Track.Sub → Track.Out × Track.Sub) :
    Grows s (Track.onSub s c f).2 := by
  unfold Track.onSub
  split
  · exact .of_eq rfl
  · exact .refl s

theorem grows_step (s : Track.State) (op : Track.Op) : Grows s (Track.step s op).2 := by
  unfold Track.step
  split
  · exact grows_add _ _ _
  · split
    · exact .refl s
    · exact grows_add _ _ _
  · exact grows_group s _ _ (fun _ => rfl) fun g => List.prefix_append _ _
  · exact grows_group s _ _ (fun _ => rfl) fun g => List.prefix_refl _
  · exact grows_group s _ _ (fun _ => rfl) fun g => List.prefix_refl _
  · split
    · exact .of_eq rfl
    · exact .refl s
  · split
    · exact .of_eq rfl
    · exact .refl s
  · exact .of_eq rfl
  · exact grows_sub _ _ _
  · exact grows_sub _ _ _
  · exact grows_sub _ _ _
  · exact grows_sub _ _ _

/-- How a group ended. -/
structure Fate (tr : Track.Trace) (s : Track.State) : Prop where
  closed : ∀ x ∈ s.groups, x.status = .closed ↔ GroupClosed tr x.id
  aborted : ∀ x ∈ s.groups, x.status = .aborted ↔ GroupAborted tr x.id
  fresh : ∀ id, id ∉ Track.ids s → ¬ GroupClosed tr id ∧ ¬ GroupAborted tr id

theorem closed_snoc (tr : Track.Trace) (e : Track.Op × Track.Out) (g : Nat) :
    GroupClosed (tr ++ [e]) g ↔ GroupClosed tr g ∨ GroupClosed [e] g := by
  unfold GroupClosed
  simp only [List.mem_append]
  constructor
  · rintro ((h | h) | ⟨fs, h | h⟩)
    · exact .inl (.inl h)
    · exact .inr (.inl h)
    · exact .inl (.inr ⟨fs, h⟩)
    · exact .inr (.inr ⟨fs, h⟩)
  · rintro ((h | ⟨fs, h⟩) | (h | ⟨fs, h⟩))
    · exact .inl (.inl h)
    · exact .inr ⟨fs, .inl h⟩
    · exact .inl (.inr h)
    · exact .inr ⟨fs, .inr h⟩

theorem aborted_snoc (tr : Track.Trace) (e : Track.Op × Track.Out) (g : Nat) :
    GroupAborted (tr ++ [e]) g ↔ GroupAborted tr g ∨ GroupAborted [e] g := by
  unfold GroupAborted
  simp only [List.mem_append]
  constructor
  · rintro ((h | h) | ⟨fs, h | h⟩)
    · exact .inl (.inl h)
    · exact .inr (.inl h)
    · exact .inl (.inr ⟨fs, h⟩)
    · exact .inr (.inr ⟨fs, h⟩)
  · rintro ((h | ⟨fs, h⟩) | (h | ⟨fs, h⟩))
    · exact .inl (.inl h)
    · exact .inr ⟨fs, .inl h⟩
    · exact .inl (.inr h)
    · exact .inr ⟨fs, .inr h⟩

/-- An entry that ends no group. -/
theorem Fate.same {tr : Track.Trace} {s s' : Track.State} (i : Fate tr s)
    {e : Track.Op × Track.Out} (hc : ∀ g, ¬ GroupClosed [e] g) (ha : ∀ g, ¬ GroupAborted [e] g)
    (hs : s'.groups = s.groups) : Fate (tr ++ [e]) s' := by
  refine ⟨fun x hx => ?_, fun x hx => ?_, fun id hid => ?_⟩
  · rw [closed_snoc]
    rw [hs] at hx
    simp only [hc, or_false]
    exact i.closed x hx
  · rw [aborted_snoc]
    rw [hs] at hx
    simp only [ha, or_false]
    exact i.aborted x hx
  · rw [closed_snoc, aborted_snoc]
    simp only [hc, ha, or_false]
    refine i.fresh id ?_
    unfold Track.ids at hid ⊢
    rwa [hs] at hid

theorem Fate.add {tr : Track.Trace} {s : Track.State} (i : Fate tr s) {op : Track.Op}
    {g : Track.Grp} {o : Track.Out} (hnew : g.id ∉ Track.ids s)
    (hc : ∀ id, GroupClosed [(op, o)] id ↔ id = g.id ∧ g.status = .closed)
    (ha : ∀ id, GroupAborted [(op, o)] id ↔ id = g.id ∧ g.status = .aborted)
    (ht : (∀ id, ¬ GroupClosed [(op, .threw)] id) ∧ ∀ id, ¬ GroupAborted [(op, .threw)] id) :
    Fate (tr ++ [(op, (Track.add s g o).1)]) (Track.add s g o).2 := by
  unfold Track.add
  split
  · have hg : ∀ x ∈ s.groups, x.id ≠ g.id := fun x hx he =>
      hnew (he ▸ List.mem_map_of_mem hx)
    refine ⟨fun x hx => ?_, fun x hx => ?_, fun id hid => ?_⟩
    · rw [closed_snoc, hc]
      rcases List.mem_append.1 hx with hx | hx
      · simp only [hg x hx, false_and, or_false]
        exact i.closed x hx
      · obtain rfl := List.mem_singleton.1 hx
        simp [(i.fresh _ hnew).1]
    · rw [aborted_snoc, ha]
      rcases List.mem_append.1 hx with hx | hx
      · simp only [hg x hx, false_and, or_false]
        exact i.aborted x hx
      · obtain rfl := List.mem_singleton.1 hx
        simp [(i.fresh _ hnew).2]
    · have h1 : id ∉ Track.ids s ∧ id ≠ g.id := by
        unfold Track.ids at hid ⊢
        dsimp only at hid
        rw [List.map_append, List.mem_append, not_or] at hid
        simpa using hid
      rw [closed_snoc, aborted_snoc, hc, ha]
      simp [h1.2, i.fresh id h1.1]
  · exact i.same ht.1 ht.2 rfl

theorem Fate.group {tr : Track.Trace} {s : Track.State} (i : Fate tr s) (hids : (Track.ids s).Nodup)
    {op : Track.Op} {id : Nat} {f : Track.Grp → Track.Grp} (hid : ∀ g, (f g).id = g.id)
    (hbad : ∀ o, o ≠ .ok → (∀ g, ¬ GroupClosed [(op, o)] g) ∧ ∀ g, ¬ GroupAborted [(op, o)] g)
    (hc : ∀ g : Track.Grp, g.status = .live →
      ((f g).status = .closed ↔ GroupClosed [(op, .ok)] id))
    (ha : ∀ g : Track.Grp, g.status = .live →
      ((f g).status = .aborted ↔ GroupAborted [(op, .ok)] id))
    (ho : ∀ k, k ≠ id → ¬ GroupClosed [(op, .ok)] k ∧ ¬ GroupAborted [(op, .ok)] k) :
    Fate (tr ++ [(op, (Track.onGroup s id f).1)]) (Track.onGroup s id f).2 := by
  unfold Track.onGroup
  split
  · next y hy =>
    split
    · next hl =>
      obtain ⟨hym, hyid⟩ := Track.find_mem hy
      have huniq : ∀ x ∈ s.groups, x.id = id → x = y := by
        intro x hx he
        unfold Track.ids at hids
        obtain ⟨a, ha⟩ := List.mem_iff_getElem?.1 hx
        obtain ⟨b, hb⟩ := List.mem_iff_getElem?.1 hym
        have hab : (s.groups.map (·.id))[a]? = (s.groups.map (·.id))[b]? := by
          rw [List.getElem?_map, List.getElem?_map, ha, hb]
          simp [he, hyid]
        have hlt : a < (s.groups.map (·.id)).length := by
          have := (List.getElem?_eq_some_iff.1 ha).1
          simpa using this
        have := (List.getElem?_inj hlt hids).1 hab
        subst this
        rw [ha] at hb
        exact Option.some.inj hb
      have hmap : ∀ x ∈ s.groups.map (fun x => if x.id = id then f x else x),
          x = f y ∧ x.id = id ∨ x ∈ s.groups ∧ x.id ≠ id := by
        intro x hx
        obtain ⟨z, hz, rfl⟩ := List.mem_map.1 hx
        by_cases he : z.id = id
        · have := huniq z hz he
          subst this
          left
          simp [he, hid]
        · right
          simp [he, hz]
      refine ⟨fun x hx => ?_, fun x hx => ?_, fun k hk => ?_⟩
      · rw [closed_snoc]
        rcases hmap x hx with ⟨h1, h2⟩ | ⟨h1, h2⟩
        · rw [h2, h1, hc y hl]
          have := i.closed y hym
          rw [hyid, hl] at this
          simp [this.symm]
        · rw [i.closed x h1]
          simp [ho _ h2]
      · rw [aborted_snoc]
        rcases hmap x hx with ⟨h1, h2⟩ | ⟨h1, h2⟩
        · rw [h2, h1, ha y hl]
          have := i.aborted y hym
          rw [hyid, hl] at this
          simp [this.symm]
        · rw [i.aborted x h1]
          simp [ho _ h2]
      · have hk' : k ∉ Track.ids s := by
          intro hm
          refine hk ?_
          obtain ⟨z, hz, rfl⟩ := List.mem_map.1 hm
          refine List.mem_map.2 ⟨_, List.mem_map_of_mem hz, ?_⟩
          split
          · exact hid z
          · rfl
        have hne : k ≠ id := fun e => hk' (by
          rw [e, ← hyid]
          exact List.mem_map_of_mem hym)
        rw [closed_snoc, aborted_snoc]
        simp [ho k hne, i.fresh k hk']
    · exact i.same (hbad _ (by simp)).1 (hbad _ (by simp)).2 rfl
  · exact i.same (hbad _ (by simp)).1 (hbad _ (by simp)).2 rfl

theorem Fate.sub {tr : Track.Trace} {s : Track.State} (i : Fate tr s) {op : Track.Op} (c : Nat)
    (f : Track.Sub → Track.Out × Track.Sub) (hc : ∀ o g, ¬ GroupClosed [(op, o)] g)
    (ha : ∀ o g, ¬ GroupAborted [(op, o)] g) :
    Fate (tr ++ [(op, (Track.onSub s c f).1)]) (Track.onSub s c f).2 := by
  unfold Track.onSub
  split
  · exact i.same (hc _) (ha _) rfl
  · exact i.same (hc _) (ha _) rfl

theorem fate_reach {tr : Track.Trace} {s : Track.State} (h : Track.machine.Reach tr s) :
    Fate tr s := by
  refine Machine.Reach.induct (M := Track.machine) (P := fun tr s => Fate tr s) ?_ ?_ h
  · exact ⟨fun x hx => (by cases hx), fun x hx => (by cases hx),
      fun id _ => ⟨by simp [GroupClosed], by simp [GroupAborted]⟩⟩
  · intro tr s op hr i
    have g := (Track.inv_reach hr).track
    have hnd : (Track.ids s).Nodup := by
      rw [g.ids]
      exact g.sorted.imp fun h => Nat.ne_of_lt h
    have hnew : ∀ k, s.next ≤ k → k ∉ Track.ids s := by
      intro k hk hm
      rw [g.ids] at hm
      have := g.below k hm
      omega
    show Fate (tr ++ [(op, (Track.step s op).1)]) (Track.step s op).2
    unfold Track.step
    split
    · exact i.add (hnew _ (Nat.le_refl _)) (by simp [GroupClosed]) (by simp [GroupAborted])
        ⟨by simp [GroupClosed], by simp [GroupAborted]⟩
    · split
      · exact i.same (by simp [GroupClosed]) (by simp [GroupAborted]) rfl
      · next hlt =>
        refine i.add (hnew _ (by dsimp only; omega)) (fun id => ?_) (fun id => ?_)
          ⟨by simp [GroupClosed], by simp [GroupAborted]⟩
        · simp only [GroupClosed, List.mem_singleton, Prod.mk.injEq, Track.Op.insert.injEq]
          constructor
          · rintro (⟨h, -⟩ | ⟨fs, ⟨h1, h2, h3⟩, -⟩)
            · cases h
            · exact ⟨h1, h3.symm⟩
          · rintro ⟨h1, h2⟩
            exact .inr ⟨_, ⟨h1, rfl, h2.symm⟩, trivial⟩
        · simp only [GroupAborted, List.mem_singleton, Prod.mk.injEq, Track.Op.insert.injEq]
          constructor
          · rintro (⟨h, -⟩ | ⟨fs, ⟨h1, h2, h3⟩, -⟩)
            · cases h
            · exact ⟨h1, h3.symm⟩
          · rintro ⟨h1, h2⟩
            exact .inr ⟨_, ⟨h1, rfl, h2.symm⟩, trivial⟩
    · refine i.group hnd (fun _ => rfl) (fun o ho => ?_) (fun g hg => ?_) (fun g hg => ?_) fun k hk => ?_
      · simp [GroupClosed, GroupAborted]
      · simp [GroupClosed, hg]
      · simp [GroupAborted, hg]
      · simp [GroupClosed, GroupAborted]
    · refine i.group hnd (fun _ => rfl) (fun o ho => ?_) (fun g hg => ?_) (fun g hg => ?_) fun k hk => ?_
      · simp [GroupClosed, GroupAborted, Ne.symm ho]
      · simp [GroupClosed]
      · simp [GroupAborted]
      · simp [GroupClosed, GroupAborted, hk]
    · refine i.group hnd (fun _ => rfl) (fun o ho => ?_) (fun g hg => ?_) (fun g hg => ?_) fun k hk => ?_
      · simp [GroupClosed, GroupAborted, Ne.symm ho]
      · simp [GroupClosed]
      · simp [GroupAborted]
      · simp [GroupClosed, GroupAborted, hk]
    · split <;> exact i.same (by simp [GroupClosed]) (by simp [GroupAborted]) rfl
    · split <;> exact i.same (by simp [GroupClosed]) (by simp [GroupAborted]) rfl
    · exact i.same (by simp [GroupClosed]) (by simp [GroupAborted]) rfl
    · exact i.sub _ _ (by simp [GroupClosed]) (by simp [GroupAborted])
    · exact i.sub _ _ (by simp [GroupClosed]) (by simp [GroupAborted])
    · exact i.sub _ _ (by simp [GroupClosed]) (by simp [GroupAborted])
    · exact i.sub _ _ (by simp [GroupClosed]) (by simp [GroupAborted])

/-! ## The history of the track -/

theorem trackTrace_snoc (tr : Trace) (e : Op × Out) :
    trackTrace (tr ++ [e]) = trackTrace tr ++ onTrack e := by
  unfold trackTrace
  rw [List.flatMap_append]
  simp

theorem reach_one {tr : Track.Trace} {s : Track.State} (h : Track.machine.Reach tr s)
    (op : Track.Op) {o : Track.Out} (ho : (Track.step s op).1 = o) :
    Track.machine.Reach (tr ++ [(op, o)]) (Track.step s op).2 := by
  subst ho
  exact Machine.Reach.step (M := Track.machine) op h

theorem closeSub_out {s : Track.State} {c : Nat} (h : c < s.subs.length) :
    (Track.step s (.closeSub c)).1 = .ok := by
  simp [Track.step, Track.onSub, h]

theorem subs_length (s : Track.State) (op : Track.Op) :
    s.subs.length ≤ (Track.step s op).2.subs.length := by
  unfold Track.step
  have hadd : ∀ g o, s.subs.length ≤ (Track.add s g o).2.subs.length := by
    intro g o
    unfold Track.add
    split
    · simp [Track.update]
    · exact Nat.le_refl _
  have hgr : ∀ id f, s.subs.length ≤ (Track.onGroup s id f).2.subs.length := by
    intro id f
    unfold Track.onGroup
    split
    · split <;> exact Nat.le_refl _
    · exact Nat.le_refl _
  have hsub : ∀ c f, s.subs.length ≤ (Track.onSub s c f).2.subs.length := by
    intro c f
    unfold Track.onSub
    split
    · simp
    · exact Nat.le_refl _
  split
  · exact hadd _ _
  · split
    · exact Nat.le_refl _
    · exact hadd _ _
  · exact hgr _ _
  · exact hgr _ _
  · exact hgr _ _
  · split
    · simp [Track.update]
    · exact Nat.le_refl _
  · split
    · simp [Track.update]
    · exact Nat.le_refl _
  · simp
  · exact hsub _ _
  · exact hsub _ _
  · exact hsub _ _
  · exact hsub _ _

/-- What the track, the consumer and the groups have to do with each other. -/
structure Base (tr : Trace) (s : State) : Prop where
  track : Track.machine.Reach (trackTrace tr) s.track
  consumer : ∀ c, s.phase.consumer = some c → c < s.track.subs.length
  none : s.phase = .none → s.tasks = [] ∧ ∀ id c, ¬ Subscribed tr id c
  id : ∀ c, s.phase.consumer = some c → Subscribed tr s.id c
  seen : ∀ c, s.phase.consumer = some c → s.tasks.map (·.group) = Track.seen (trackTrace tr) c
  unique : ∀ id c, Subscribed tr id c → s.phase.consumer = some c ∧ s.id = id

theorem onTask_eq (s : State) (i : Nat) (f : Task → Out × Task) (hf : ∀ t, (f t).2.group = t.group) :
    (onTask s i f).2.track = s.track ∧ (onTask s i f).2.id = s.id ∧
    (onTask s i f).2.phase = s.phase ∧ (onTask s i f).2.closing = s.closing ∧
    (onTask s i f).2.failed = s.failed ∧ (onTask s i f).2.ending = s.ending ∧
    (onTask s i f).2.tasks.map (·.group) = s.tasks.map (·.group) := by
  unfold onTask
  split
  · next t ht =>
    refine ⟨rfl, rfl, rfl, rfl, rfl, rfl, ?_⟩
    dsimp only
    rw [List.map_set, hf]
    refine List.ext_getElem? fun j => ?_
    by_cases hj : i = j
    · subst hj
      rw [List.getElem?_set]
      obtain ⟨hlt, hg⟩ := List.getElem?_eq_some_iff.1 ht
      simp [hlt, hg]
    · rw [List.getElem?_set_ne hj]
  · exact ⟨rfl, rfl, rfl, rfl, rfl, rfl, rfl⟩

theorem opened_group (id : Nat) (t : Task) (ok : Bool) : (opened id t ok).2.group = t.group := by
  unfold opened
  split
  · split
    · rfl
    · split <;> rfl
  · rfl

theorem sendLength_group (t : Task) (b : Bytes) : (sendLength t b).group = t.group := by
  unfold sendLength
  split
  · rfl
  · split <;> rfl

theorem frame_group (s : Track.State) (t : Task) : (frame s t).2.group = t.group := by
  unfold frame
  split
  · split
    · rfl
    · split
      · exact sendLength_group _ _
      · split <;> rfl
  · rfl

theorem flushed_group (t : Task) : (flushed t).2.group = t.group := by
  unfold flushed
  split
  · split <;> rfl
  · rfl

theorem sawFailed_group (t : Task) : (sawFailed t).2.group = t.group := by
  unfold sawFailed
  split
  · split <;> rfl
  · rfl

/-- An entry of somebody else brings no group to the consumer. -/
theorem arrival_other {op : Track.Op} {o : Track.Out} {c : Nat} (h : uses op ≠ some c) :
    Track.arrival c (op, o) = none := by
  unfold uses at h
  unfold Track.arrival
  split at h <;> split <;> first | rfl | (split <;> simp_all)

theorem subscribed_snoc (tr : Trace) (e : Op × Out) (id c : Nat) : Subscribed (tr ++ [e]) id c ↔
    Subscribed tr id c ∨ e = (.subscribe id, .subscribed c) := by
  unfold Subscribed
  rw [List.mem_append, List.mem_singleton]
  exact or_congr Iff.rfl eq_comm

/-- An entry that changes neither the track nor the consumer. -/
theorem Base.same {tr : Trace} {s s' : State} (b : Base tr s) {e : Op × Out}
    (he : onTrack e = []) (hs : ∀ id c, e ≠ (.subscribe id, .subscribed c))
    (h1 : s'.track = s.track) (h2 : s'.phase.consumer = s.phase.consumer)
    (h3 : s'.phase = .none → s.phase = .none)
    (h4 : s'.tasks.map (·.group) = s.tasks.map (·.group)) (h5 : s'.id = s.id) :
    Base (tr ++ [e]) s' := by
  have hsub : ∀ id c, Subscribed (tr ++ [e]) id c ↔ Subscribed tr id c := by
    intro id c
    rw [subscribed_snoc]
    simp [hs id c]
  refine ⟨?_, ?_, ?_, ?_, ?_, ?_⟩
  · rw [trackTrace_snoc, he, List.append_nil, h1]
    exact b.track
  · rw [h1, h2]
    exact b.consumer
  · intro h
    obtain ⟨a1, a2⟩ := b.none (h3 h)
    refine ⟨?_, fun id c hc => a2 id c ((hsub id c).1 hc)⟩
    rw [a1] at h4
    exact List.map_eq_nil_iff.1 h4
  · intro c hc
    rw [hsub, h5]
    exact b.id c (h2 ▸ hc)
  · intro c hc
    rw [trackTrace_snoc, he, List.append_nil, h4]
    exact b.seen c (h2 ▸ hc)
  · intro id c hc
    rw [h2, h5]
    exact b.unique id c ((hsub id c).1 hc)

/-- The consumer asks for a group, and is perhaps closed. -/
theorem Base.own {tr : Trace} {s s' : State} (b : Base tr s) {e : Op × Out} {c : Nat}
    (hc : s.phase.consumer = some c) (hs : ∀ id c, e ≠ (.subscribe id, .subscribed c))
    (h1 : Track.machine.Reach (trackTrace (tr ++ [e])) s'.track)
    (h2 : s'.phase.consumer = some c) (h3 : s.track.subs.length ≤ s'.track.subs.length)
    (h4 : s'.tasks.map (·.group) = s.tasks.map (·.group) ++ Track.seen (onTrack e) c)
    (h5 : s'.id = s.id) : Base (tr ++ [e]) s' := by
  have hsub : ∀ id c, Subscribed (tr ++ [e]) id c ↔ Subscribed tr id c := by
    intro id c
    rw [subscribed_snoc]
    simp [hs id c]
  refine ⟨h1, ?_, ?_, ?_, ?_, ?_⟩
  · intro d hd
    rw [h2] at hd
    cases hd
    have := b.consumer c hc
    omega
  · intro h
    rw [h] at h2
    cases h2
  · intro d hd
    rw [h2] at hd
    cases hd
    rw [hsub, h5]
    exact b.id c hc
  · intro d hd
    rw [h2] at hd
    cases hd
    rw [h4, b.seen c hc, trackTrace_snoc]
    unfold Track.seen
    rw [List.filterMap_append]
  · intro id d hd
    rw [h2, h5, ← hc]
    exact b.unique id d ((hsub id d).1 hd)

theorem endTrack_eq (s : State) (c : Nat) (e : End) : (endTrack s c e).phase = .over c ∧
    (endTrack s c e).tasks = s.tasks ∧ (endTrack s c e).id = s.id ∧
    (endTrack s c e).track = (Track.step s.track (.closeSub c)).2 ∧
    (endTrack s c e).failed = s.failed ∧ (endTrack s c e).closing = s.closing ∧
    (endTrack s c e).ending = if s.failed then s.ending else s.ending.or (some e) :=
  ⟨rfl, rfl, rfl, rfl, rfl, rfl, rfl⟩

theorem nextGroup_closeSub {tr : Track.Trace} {s : Track.State} {c : Nat}
    (h : Track.machine.Reach tr s) (hc : c < s.subs.length) :
    Track.machine.Reach (tr ++ [(.nextGroup c, (Track.step s (.nextGroup c)).1), (.closeSub c, .ok)])
      (Track.step (Track.step s (.nextGroup c)).2 (.closeSub c)).2 := by
  have h1 := reach_one h (.nextGroup c) rfl
  have h2 := reach_one h1 (.closeSub c) (closeSub_out (Nat.lt_of_lt_of_le hc (subs_length s _)))
  simpa using h2

theorem base_next {tr : Trace} {s : State} (b : Base tr s) {c : Nat} (hp : s.phase = .running c) :
    Base (tr ++ [(.next, (next s c).1)]) (next s c).2 := by
  have hc : s.phase.consumer = some c := by rw [hp]; rfl
  have hlt := b.consumer c hc
  have h1 := reach_one b.track (.nextGroup c) rfl
  have h2 := nextGroup_closeSub b.track hlt
  have hl := subs_length s.track (.nextGroup c)
  have hl2 := subs_length (Track.step s.track (.nextGroup c)).2 (.closeSub c)
  have hout : ∀ g, (Track.step s.track (.nextGroup c)).1 ≠ .moved g := by
    intro g
    show (Track.onSub s.track c (Track.nextGroup s.track)).1 ≠ _
    unfold Track.onSub
    split
    · unfold Track.nextGroup
      split <;> simp
    · simp
  unfold next
  generalize hst : Track.step s.track (.nextGroup c) = r at *
  obtain ⟨o, t⟩ := r
  dsimp only at h1 h2 hl hl2 ⊢
  have hseen : ∀ o : Track.Out, (∀ g, o ≠ .group g) → Track.seen (onTrack (.next, .next c o)) c = [] := by
    intro o ho
    cases o <;> first | rfl | exact absurd rfl (ho _)
  cases o with
  | group g =>
    refine b.own hc (by simp) ?_ hc hl ?_ rfl
    · rw [trackTrace_snoc]
      exact h1
    · simp [onTrack, Track.seen, Track.arrival]
  | undefined =>
    refine b.own hc (by simp) ?_ rfl (Nat.le_trans hl hl2) ?_ rfl
    · rw [trackTrace_snoc]
      exact h2
    · rw [hseen _ (by simp)]
      simp [endTrack]
  | rejected =>
    refine b.own hc (by simp) ?_ rfl (Nat.le_trans hl hl2) ?_ rfl
    · rw [trackTrace_snoc]
      exact h2
    · rw [hseen _ (by simp)]
      simp [endTrack]
  | _ =>
    refine b.own hc (by simp) ?_ hc hl ?_ rfl
    · rw [trackTrace_snoc]
      exact h1
    · rw [hseen _ (by simp)]
      simp

theorem base_step {tr : Trace} {s : State} (b : Base tr s) (op : Op) :
    Base (tr ++ [(op, (step s op).1)]) (step s op).2 := by
  have inv : ∀ op : Op, Base (tr ++ [(op, .invalid)]) s := fun op =>
    b.same (by cases op <;> rfl) (by simp) rfl rfl id rfl rfl
  have task : ∀ (op : Op) (i : Nat) (f : Task → Out × Task), (∀ t, (f t).2.group = t.group) →
      (∀ o, onTrack (op, o) = []) → (∀ id, op ≠ .subscribe id) →
      Base (tr ++ [(op, (onTask s i f).1)]) (onTask s i f).2 := by
    intro op i f hf ho hop
    obtain ⟨e1, e2, e3, -, -, -, e7⟩ := onTask_eq s i f hf
    refine b.same (ho _) (fun id c h => hop id (congrArg Prod.fst h)) e1 ?_ ?_ e7 e2
    · rw [e3]
    · rw [e3]
      exact id
  cases op with
  | track op =>
    rw [step.eq_def]
    dsimp only
    split
    · exact inv _
    · next hu =>
      have hsub : ∀ id c, Subscribed (tr ++ [(.track op, .track (Track.step s.track op).1)]) id c ↔
          Subscribed tr id c := by
        intro id c
        rw [subscribed_snoc]
        simp
      have ht : trackTrace (tr ++ [(.track op, .track (Track.step s.track op).1)]) =
          trackTrace tr ++ [(op, (Track.step s.track op).1)] := trackTrace_snoc _ _
      refine ⟨?_, ?_, ?_, ?_, ?_, ?_⟩
      · rw [ht]
        exact reach_one b.track op rfl
      · intro c hc
        have := b.consumer c hc
        have := subs_length s.track op
        dsimp only
        omega
      · intro h
        obtain ⟨a1, a2⟩ := b.none h
        exact ⟨a1, fun id c hc => a2 id c ((hsub id c).1 hc)⟩
      · intro c hc
        rw [hsub]
        exact b.id c hc
      · intro c hc
        have hc : s.phase.consumer = some c := hc
        rw [ht, Track.seen_snoc, arrival_other]
        · simpa using b.seen c hc
        · intro he
          exact hu ⟨by simp [he], he.trans hc.symm⟩
      · intro id c hc
        exact b.unique id c ((hsub id c).1 hc)
  | subscribe k =>
    rw [step.eq_def]
    dsimp only
    split
    · next c t hp hst =>
      have hn := b.none hp
      have ho : (Track.step s.track .consume).1 = .sub c := by rw [hst]
      have h1 := reach_one b.track .consume ho
      have ht : trackTrace (tr ++ [(.subscribe k, .subscribed c)]) =
          trackTrace tr ++ [(.consume, .sub c)] := trackTrace_snoc _ _
      have hcl : c = s.track.subs.length := by
        simp only [Track.step, Prod.mk.injEq, Track.Out.sub.injEq] at hst
        exact hst.1.symm
      refine ⟨?_, ?_, ?_, ?_, ?_, ?_⟩
      · rw [ht]
        rw [hst] at h1
        exact h1
      · intro d hd
        cases hd
        have : t.subs.length = s.track.subs.length + 1 := by
          simp only [Track.step, Prod.mk.injEq] at hst
          rw [← hst.2]
          simp
        dsimp only
        omega
      · intro h
        cases h
      · intro d hd
        cases hd
        exact (subscribed_snoc _ _ _ _).2 (.inr rfl)
      · intro d hd
        cases hd
        rw [ht, Track.seen_snoc]
        have := ((Track.inv_reach b.track).fresh c (by omega)).1
        rw [this]
        simp [hn.1, Track.arrival]
      · intro id d hd
        rcases (subscribed_snoc _ _ _ _).1 hd with hd | hd
        · exact absurd hd (hn.2 _ _)
        · simp only [Prod.mk.injEq, Op.subscribe.injEq, Out.subscribed.injEq] at hd
          exact ⟨congrArg some hd.2, hd.1⟩
    · exact inv _
  | answered ok =>
    rw [step.eq_def]
    dsimp only
    split
    · next c hp =>
      have hc : s.phase.consumer = some c := by rw [hp]; rfl
      refine b.same rfl (by simp) rfl ?_ ?_ rfl rfl
      · dsimp only
        rw [hc]
        split <;> rfl
      · dsimp only
        split <;> intro h <;> cases h
    · exact inv _
  | next =>
    rw [step.eq_def]
    dsimp only
    split
    · next c hp => exact base_next b hp
    · exact inv _
  | unsubscribe =>
    rw [step.eq_def]
    dsimp only
    split
    · exact b.same rfl (by simp) rfl rfl id rfl rfl
    · exact inv _
  | stop =>
    rw [step.eq_def]
    exact b.same rfl (by simp) rfl rfl id rfl rfl
  | sawClosed =>
    rw [step.eq_def]
    dsimp only
    split
    · next c hp =>
      have hc : s.phase.consumer = some c := by rw [hp]; rfl
      have hend : ∀ e, Base (tr ++ [(.sawClosed, .over c)]) (endTrack s c e) := by
        intro e
        refine b.own hc (by simp) ?_ rfl (subs_length _ _) ?_ rfl
        · rw [trackTrace_snoc]
          exact reach_one b.track _ (closeSub_out (b.consumer c hc))
        · simp [onTrack, Track.seen, Track.arrival, endTrack]
      split
      · exact hend _
      · split
        · exact hend _
        · exact inv _
    · exact inv _
  | opened i ok => exact task _ i _ (fun t => opened_group _ _ _) (fun _ => rfl) (by simp)
  | frame i => exact task _ i _ (fun t => frame_group _ _) (fun _ => rfl) (by simp)
  | flushed i => exact task _ i _ (fun t => flushed_group _) (fun _ => rfl) (by simp)
  | fail i => exact task _ i _ (fun t => rfl) (fun _ => rfl) (by simp)
  | sawFailed i => exact task _ i _ (fun t => sawFailed_group _) (fun _ => rfl) (by simp)

theorem base_reach {tr : Trace} {s : State} (h : machine.Reach tr s) : Base tr s := by
  refine Machine.Reach.induct (M := machine) (P := fun tr s => Base tr s) ?_ ?_ h
  · exact ⟨.init, fun c h => (by cases h), fun _ => ⟨rfl, fun _ _ h => (by cases h)⟩,
      fun c h => (by cases h), fun c h => (by cases h), fun _ _ h => (by cases h)⟩
  · intro tr s op _ ih
    exact base_step ih op

/-! ## The streams of the groups -/

/-- Frames as `#runGroup` writes them. -/
def body (fs : List Bytes) : Bytes := (fs.map fun f => (encodeFrame f).bytes).flatten

theorem body_snoc (fs : List Bytes) (f : Bytes) : body (fs ++ [f]) = body fs ++ (encodeFrame f).bytes := by
  simp [body]

/-- The stream has the header, `k` frames, and then `cut`. -/
structure Sent (id : Nat) (x : Track.Grp) (t : Task) (k : Nat) (cut : Bytes) : Prop where
  header : (openUni ⟨id, t.group⟩).thrown = none
  bytes : t.bytes = (openUni ⟨id, t.group⟩).bytes ++ body (x.frames.take k) ++ cut
  le : k ≤ x.frames.length
  fine : ∀ f ∈ x.frames.take k, f.length ≤ MAX_U53

/-- Between two frames, or the length of frame `k` is written and the frame is not. -/
def Cut (x : Track.Grp) (k : Nat) (cut : Bytes) : Prop :=
  cut = [] ∨ ∃ b, x.frames[k]? = some b ∧ b.length ≤ MAX_U53 ∧ cut = (writeU53 b.length).bytes

/-- What the end of a stream means. -/
structure Ended (x : Track.Grp) (t : Task) (k : Nat) (cut : Bytes) : Prop where
  finished : t.ending = some .finished → x.status = .closed ∧ k = x.frames.length ∧ cut = []
  reset : t.ending = some .reset → cut = [] ∧ (x.status = .aborted ∧ k = x.frames.length ∨
    ∃ b, x.frames[k]? = some b ∧ MAX_U53 < b.length)
  none : t.ending = none → t.failed = true

def TOk (id : Nat) (x : Track.Grp) (t : Task) : Prop :=
  match t.phase with
  | .opening => t.bytes = [] ∧ t.index = 0 ∧ t.ending = none
  | .looping => Sent id x t t.index [] ∧ t.ending = none
  | .writing b => ∃ k, t.index = k + 1 ∧ x.frames[k]? = some b ∧ b.length ≤ MAX_U53 ∧
      Sent id x t k (writeU53 b.length).bytes ∧ t.ending = none
  | .over => ∃ k cut, Sent id x t k cut ∧ Cut x k cut ∧ Ended x t k cut
  | .lost => t.ending = none ∧ (t.bytes = [] ∨ (openUni ⟨id, t.group⟩).thrown ≠ none)

theorem Sent.mono {id : Nat} {x x' : Track.Grp} {t : Task} {k : Nat} {cut : Bytes}
    (h : Sent id x t k cut) (hx : x.frames <+: x'.frames) : Sent id x' t k cut := by
  obtain ⟨r, hr⟩ := hx
  have ht : x'.frames.take k = x.frames.take k := by
    rw [← hr, List.take_append_of_le_length h.le]
  refine ⟨h.header, ?_, ?_, ?_⟩
  · rw [ht]
    exact h.bytes
  · rw [← hr, List.length_append]
    have := h.le
    omega
  · rw [ht]
    exact h.fine

theorem get_mono {x x' : Track.Grp} {k : Nat} {b : Bytes} (h : x.frames[k]? = some b)
    (hx : x.frames <+: x'.frames) : x'.frames[k]? = some b := by
  obtain ⟨r, hr⟩ := hx
  rw [← hr, List.getElem?_append_left (List.getElem?_eq_some_iff.1 h).1]
  exact h

theorem TOk.mono {id : Nat} {x x' : Track.Grp} {t : Task} (h : TOk id x t)
    (hx : x.frames <+: x'.frames) (he : x.status ≠ .live → x' = x) : TOk id x' t := by
  unfold TOk at h ⊢
  split
  · next hp => rw [hp] at h; exact h
  · next hp =>
    rw [hp] at h
    exact ⟨h.1.mono hx, h.2⟩
  · next hp =>
    rw [hp] at h
    obtain ⟨k, h1, h2, h3, h4, h5⟩ := h
    exact ⟨k, h1, get_mono h2 hx, h3, h4.mono hx, h5⟩
  · next hp =>
    rw [hp] at h
    obtain ⟨k, cut, h1, h2, h3⟩ := h
    refine ⟨k, cut, h1.mono hx, ?_, ?_, ?_, h3.none⟩
    · rcases h2 with h2 | ⟨b, a1, a2, a3⟩
      · exact .inl h2
      · exact .inr ⟨b, get_mono a1 hx, a2, a3⟩
    · intro hf
      have hc := h3.finished hf
      rw [he (by rw [hc.1]; simp)]
      exact hc
    · intro hf
      obtain ⟨a1, a2 | ⟨b, a2, a3⟩⟩ := h3.reset hf
      · rw [he (by rw [a2.1]; simp)]
        exact ⟨a1, .inl a2⟩
      · exact ⟨a1, .inr ⟨b, get_mono a2 hx, a3⟩⟩
  · next hp => rw [hp] at h; exact h

theorem TOk.opened {id : Nat} {x : Track.Grp} {t : Task} (h : TOk id x t) (ok : Bool) :
    TOk id x (opened id t ok).2 := by
  unfold Serve.opened
  split
  · next hp =>
    unfold TOk at h
    rw [hp] at h
    split
    · exact ⟨h.2.2, .inl h.1⟩
    · split
      · next b hb =>
        refine ⟨⟨?_, ?_, ?_, ?_⟩, h.2.2⟩
        · show (openUni ⟨id, t.group⟩).thrown = none
          rw [hb]
        · show b = (openUni ⟨id, t.group⟩).bytes ++ body (x.frames.take t.index) ++ []
          rw [hb, h.2.1]
          simp [body]
        · show t.index ≤ _
          rw [h.2.1]
          exact Nat.zero_le _
        · show ∀ f ∈ x.frames.take t.index, _
          rw [h.2.1]
          simp
      · next b e hb =>
        refine ⟨h.2.2, .inr ?_⟩
        show (openUni ⟨id, t.group⟩).thrown ≠ none
        rw [hb]
        simp
  · exact h

theorem take_get {fs : List Bytes} {k : Nat} {b : Bytes} (h : fs[k]? = some b) :
    fs.take (k + 1) = fs.take k ++ [b] := by
  rw [List.take_add_one, h]
  rfl

/-- A stream that has failed is given up. -/
theorem finish_failed {id : Nat} {x : Track.Grp} {t : Task} {k : Nat} {cut : Bytes}
    (h : Sent id x t k cut) (hc : Cut x k cut) (hn : t.ending = none) (hf : t.failed = true)
    (n : Nat) (e : End) : TOk id x ({ t with index := n }.finish e) := by
  refine ⟨k, cut, ⟨h.header, h.bytes, h.le, h.fine⟩, hc, ?_, ?_, fun _ => hf⟩ <;>
  · intro he
    simp only [Task.finish, hf, if_true, hn] at he
    cases he

theorem TOk.frame {id : Nat} {s : Track.State} {x : Track.Grp} {t : Task} (h : TOk id x t)
    (hx : Track.find s t.group = some x) : TOk id x (frame s t).2 := by
  unfold Serve.frame
  split
  · next hp =>
    unfold TOk at h
    rw [hp] at h
    obtain ⟨hs, hn⟩ := h
    rw [hx]
    dsimp only
    split
    · next b hb =>
      unfold sendLength
      split
      · next hf => exact finish_failed hs (.inl rfl) hn hf _ _
      · next hf =>
        split
        · next l hl =>
          have hle : b.length ≤ MAX_U53 := by
            refine Classical.byContradiction fun hgt => ?_
            have := writeU53_thrown b.length (by omega)
            rw [hl] at this
            cases this
          refine ⟨t.index, rfl, hb, hle, ⟨hs.header, ?_, hs.le, hs.fine⟩, hn⟩
          show t.bytes ++ l = _
          rw [hs.bytes, hl, List.append_nil]
        · next l e hl =>
          have hgt : MAX_U53 < b.length := by
            refine Classical.byContradiction fun hle => ?_
            have := (writeU53_ok b.length (by omega)).1
            rw [hl] at this
            cases this
          refine ⟨t.index, [], ⟨hs.header, hs.bytes, hs.le, hs.fine⟩, .inl rfl, ?_, ?_, ?_⟩
          · intro he
            simp [Task.finish, hf] at he
          · intro _
            exact ⟨rfl, .inr ⟨b, hb, hgt⟩⟩
          · intro he
            simp [Task.finish, hf] at he
    · next hb =>
      have hk : t.index = x.frames.length := by
        have := List.getElem?_eq_none_iff.1 hb
        have := hs.le
        omega
      have hend : ∀ e : End, (e = .finished → x.status = .closed) → (e = .reset → x.status = .aborted) →
          TOk id x (t.finish e) := by
        intro e h1 h2
        refine ⟨t.index, [], ⟨hs.header, hs.bytes, hs.le, hs.fine⟩, .inl rfl, ?_, ?_, ?_⟩
        · intro he
          refine ⟨h1 ?_, hk, rfl⟩
          simp only [Task.finish, hn] at he
          split at he
          · cases he
          · exact Option.some.inj he
        · intro he
          refine ⟨rfl, .inl ⟨h2 ?_, hk⟩⟩
          simp only [Task.finish, hn] at he
          split at he
          · cases he
          · exact Option.some.inj he
        · intro he
          simp only [Task.finish, hn] at he
          split at he
          · next hf => exact hf
          · cases he
      split
      · unfold TOk
        rw [hp]
        exact ⟨hs, hn⟩
      · next hst => exact hend _ (fun _ => hst) (fun h => by cases h)
      · next hst => exact hend _ (fun h => by cases h) (fun _ => hst)
  · exact h

theorem TOk.flushed {id : Nat} {x : Track.Grp} {t : Task} (h : TOk id x t) :
    TOk id x (flushed t).2 := by
  unfold Serve.flushed
  split
  · next b hp =>
    unfold TOk at h
    rw [hp] at h
    obtain ⟨k, h1, h2, h3, h4, h5⟩ := h
    split
    · next hf => exact finish_failed h4 (.inr ⟨b, h2, h3, rfl⟩) h5 hf t.index _
    · refine ⟨⟨h4.header, ?_, ?_, ?_⟩, h5⟩
      · show t.bytes ++ b = _ ++ body (x.frames.take t.index) ++ []
        rw [h1, take_get h2, body_snoc, h4.bytes, List.append_nil, encodeFrame,
          seq_bytes (writeU53_ok _ h3).1]
        simp [write]
      · show t.index ≤ _
        have := (List.getElem?_eq_some_iff.1 h2).1
        omega
      · show ∀ f ∈ x.frames.take t.index, _
        rw [h1, take_get h2]
        intro f hf
        rcases List.mem_append.1 hf with hf | hf
        · exact h4.fine f hf
        · obtain rfl := List.mem_singleton.1 hf
          exact h3
  · exact h

theorem TOk.sawFailed {id : Nat} {x : Track.Grp} {t : Task} (h : TOk id x t) :
    TOk id x (sawFailed t).2 := by
  unfold Serve.sawFailed
  split
  · next hp =>
    split
    · next hf =>
      unfold TOk at h
      rw [hp] at h
      exact finish_failed h.1 (.inl rfl) h.2 hf t.index _
    · exact h
  · exact h

theorem TOk.fail {id : Nat} {x : Track.Grp} {t : Task} (h : TOk id x t) :
    TOk id x { t with failed := true } := by
  unfold TOk at h ⊢
  dsimp only
  split
  · next hp => rw [hp] at h; exact h
  · next hp =>
    rw [hp] at h
    exact ⟨⟨h.1.header, h.1.bytes, h.1.le, h.1.fine⟩, h.2⟩
  · next hp =>
    rw [hp] at h
    obtain ⟨k, h1, h2, h3, h4, h5⟩ := h
    exact ⟨k, h1, h2, h3, ⟨h4.header, h4.bytes, h4.le, h4.fine⟩, h5⟩
  · next hp =>
    rw [hp] at h
    obtain ⟨k, cut, h1, h2, h3⟩ := h
    exact ⟨k, cut, ⟨h1.header, h1.bytes, h1.le, h1.fine⟩, h2, h3.finished, h3.reset, fun _ => rfl⟩
  · next hp => rw [hp] at h; exact h

/-- All streams. -/
def TInv (s : State) : Prop := ∀ (i : Nat) t, s.tasks[i]? = some t →
  ∃ x, Track.find s.track t.group = some x ∧ TOk s.id x t

/-- A step of one stream. -/
theorem TInv.task {s : State} (h : TInv s) (i : Nat) (f : Task → Out × Task)
    (hg : ∀ t, (f t).2.group = t.group)
    (hf : ∀ t x, Track.find s.track t.group = some x → TOk s.id x t → TOk s.id x (f t).2) :
    TInv (onTask s i f).2 := by
  unfold onTask
  split
  · next t ht =>
    intro j u hu
    dsimp only at hu ⊢
    by_cases hij : i = j
    · subst hij
      rw [List.getElem?_set] at hu
      simp only [if_true] at hu
      split at hu
      · cases hu
        obtain ⟨x, h1, h2⟩ := h i t ht
        exact ⟨x, by rw [hg]; exact h1, hf t x h1 h2⟩
      · cases hu
    · rw [List.getElem?_set_ne hij] at hu
      exact h j u hu
  · exact h

theorem TInv.track {s : State} (h : TInv s) (t : Track.State) (hg : Grows s.track t) :
    TInv { s with track := t } := by
  intro i u hu
  obtain ⟨x, h1, h2⟩ := h i u hu
  obtain ⟨x', a1, a2, a3⟩ := hg _ x h1
  exact ⟨x', a1, h2.mono a2 a3⟩

theorem TInv.endTrack {s : State} (h : TInv s) (c : Nat) (e : End) : TInv (endTrack s c e) :=
  h.track _ (grows_step s.track (.closeSub c))

theorem tinv_step {tr : Trace} {s : State} (b : Base tr s) (h : TInv s) (op : Op) :
    TInv (step s op).2 := by
  cases op with
  | track op =>
    rw [step.eq_def]
    dsimp only
    split
    · exact h
    · exact h.track _ (grows_step _ _)
  | subscribe k =>
    rw [step.eq_def]
    dsimp only
    split
    · next c t hp hst =>
      have := (b.none hp).1
      intro i u hu
      dsimp only at hu
      rw [this] at hu
      cases hu
    · exact h
  | answered ok =>
    rw [step.eq_def]
    dsimp only
    split <;> exact h
  | next =>
    have b' := base_step b .next
    revert b'
    rw [step.eq_def]
    dsimp only
    split
    · next c hp =>
      unfold next
      have hgr := grows_step s.track (.nextGroup c)
      generalize Track.step s.track (.nextGroup c) = r at hgr
      obtain ⟨o, t⟩ := r
      cases o with
      | group g =>
        dsimp only
        intro b' i u hu
        dsimp only at hu ⊢
        rw [List.getElem?_append] at hu
        split at hu
        · obtain ⟨x, h1, h2⟩ := h i u hu
          obtain ⟨x', a1, a2, a3⟩ := hgr _ x h1
          exact ⟨x', a1, h2.mono a2 a3⟩
        · have hu' : u = ⟨g, 0, .opening, [], none, false⟩ := by
            have := List.mem_of_getElem? hu
            simpa using this
          subst hu'
          have hc : s.phase.consumer = some c := by rw [hp]; rfl
          have hseen := b'.seen c hc
          have hlt := b'.consumer c hc
          have hm : g ∈ Track.seen (trackTrace (tr ++ [(.next, .next c (.group g))])) c := by
            rw [← hseen]
            simp
          have := ((Track.inv_reach b'.track).sub c _ (List.getElem?_eq_getElem hlt)).acc g hm
          obtain ⟨x, hx⟩ := Track.find_of_mem this
          exact ⟨x, hx, rfl, rfl, rfl⟩
      | undefined => exact fun _ => (h.track t hgr).endTrack c _
      | rejected => exact fun _ => (h.track t hgr).endTrack c _
      | _ => exact fun _ => h.track t hgr
    · exact fun _ => h
  | unsubscribe =>
    rw [step.eq_def]
    dsimp only
    split <;> exact h
  | stop => exact h
  | sawClosed =>
    rw [step.eq_def]
    dsimp only
    split
    · split
      · exact h.endTrack _ _
      · split
        · exact h.endTrack _ _
        · exact h
    · exact h
  | opened i ok => exact h.task i _ (fun t => opened_group _ _ _) fun t x _ ht => ht.opened ok
  | frame i => exact h.task i _ (fun t => frame_group _ _) fun t x hx ht => ht.frame hx
  | flushed i => exact h.task i _ (fun t => flushed_group _) fun t x _ ht => ht.flushed
  | fail i => exact h.task i _ (fun t => rfl) fun t x _ ht => ht.fail
  | sawFailed i => exact h.task i _ (fun t => sawFailed_group _) fun t x _ ht => ht.sawFailed

theorem tinv_reach {tr : Trace} {s : State} (h : machine.Reach tr s) : TInv s := by
  have : Base tr s ∧ TInv s := by
    refine Machine.Reach.induct (M := machine) (P := fun tr s => Base tr s ∧ TInv s) ?_ ?_ h
    · exact ⟨base_reach .init, fun i t ht => (by cases ht)⟩
    · intro tr s op _ ih
      exact ⟨base_step ih.1 op, tinv_step ih.1 ih.2 op⟩
  exact this.2

/-! ## Failures of streams -/

structure FInv (tr : Trace) (s : State) : Prop where
  failed : ∀ (i : Nat) t, s.tasks[i]? = some t → (t.failed = true ↔ Failed tr i)
  fresh : ∀ i, s.tasks.length ≤ i → ¬ Failed tr i

theorem failed_snoc (tr : Trace) (e : Op × Out) (i : Nat) : Failed (tr ++ [e]) i ↔
    Failed tr i ∨ e = (.fail i, .ok) := by
  unfold Failed
  rw [List.mem_append, List.mem_singleton]
  exact or_congr Iff.rfl eq_comm

theorem FInv.same {tr : Trace} {s s' : State} (h : FInv tr s) {e : Op × Out}
    (he : ∀ i, e ≠ (.fail i, .ok)) (hs : s'.tasks = s.tasks) : FInv (tr ++ [e]) s' := by
  have : ∀ i, Failed (tr ++ [e]) i ↔ Failed tr i := by
    intro i
    rw [failed_snoc]
    simp [he i]
  refine ⟨fun i t ht => ?_, fun i hi => ?_⟩
  · rw [this]
    rw [hs] at ht
    exact h.failed i t ht
  · rw [this]
    rw [hs] at hi
    exact h.fresh i hi

theorem FInv.task {tr : Trace} {s : State} (h : FInv tr s) {op : Op} (i : Nat)
    (f : Task → Out × Task) (ho : ∀ (j : Nat) (o : Out), ((op, o) : Op × Out) ≠ (.fail j, .ok))
    (hf : ∀ t, (f t).2.failed = t.failed) :
    FInv (tr ++ [(op, (onTask s i f).1)]) (onTask s i f).2 := by
  have hsn : ∀ j o, Failed (tr ++ [(op, o)]) j ↔ Failed tr j := by
    intro j o
    rw [failed_snoc]
    simp only [ho j o, or_false]
  unfold onTask
  split
  · next t ht =>
    refine ⟨fun j u hu => ?_, fun j hj => ?_⟩
    · rw [hsn]
      dsimp only at hu
      by_cases hij : i = j
      · subst hij
        rw [List.getElem?_set] at hu
        simp only [if_true] at hu
        split at hu
        · cases hu
          rw [hf]
          exact h.failed i t ht
        · cases hu
      · rw [List.getElem?_set_ne hij] at hu
        exact h.failed j u hu
    · rw [hsn]
      exact h.fresh j (by simpa using hj)
  · exact h.same (fun j => ho j _) rfl

theorem opened_failed (id : Nat) (t : Task) (ok : Bool) : (opened id t ok).2.failed = t.failed := by
  unfold opened
  split
  · split
    · rfl
    · split <;> rfl
  · rfl

theorem frame_failed (s : Track.State) (t : Task) : (frame s t).2.failed = t.failed := by
  unfold frame
  split
  · split
    · rfl
    · split
      · unfold sendLength
        split
        · rfl
        · split <;> rfl
      · split <;> rfl
  · rfl

theorem flushed_failed (t : Task) : (flushed t).2.failed = t.failed := by
  unfold flushed
  split
  · split <;> rfl
  · rfl

theorem sawFailed_failed (t : Task) : (sawFailed t).2.failed = t.failed := by
  unfold sawFailed
  split
  · split <;> rfl
  · rfl

theorem finv_step {tr : Trace} {s : State} (h : FInv tr s) (op : Op) :
    FInv (tr ++ [(op, (step s op).1)]) (step s op).2 := by
  cases op with
  | track op =>
    rw [step.eq_def]
    dsimp only
    split <;> exact h.same (by simp) rfl
  | subscribe k =>
    rw [step.eq_def]
    dsimp only
    split <;> exact h.same (by simp) rfl
  | answered ok =>
    rw [step.eq_def]
    dsimp only
    split <;> exact h.same (by simp) rfl
  | next =>
    rw [step.eq_def]
    dsimp only
    split
    · next c hp =>
      unfold next
      generalize Track.step s.track (.nextGroup c) = r
      obtain ⟨o, t⟩ := r
      cases o with
      | group g =>
        dsimp only
        have hsn : ∀ j, Failed (tr ++ [(.next, .next c (.group g))]) j ↔ Failed tr j := by
          intro j
          rw [failed_snoc]
          simp
        refine ⟨fun i u hu => ?_, fun i hi => ?_⟩
        · rw [hsn]
          dsimp only at hu
          rw [List.getElem?_append] at hu
          split at hu
          · exact h.failed i u hu
          · next hge =>
            have := List.mem_of_getElem? hu
            rw [List.mem_singleton] at this
            subst this
            have := h.fresh i (by omega)
            simp [this]
        · rw [hsn]
          refine h.fresh i ?_
          simp at hi
          omega
      | _ => exact h.same (by simp) rfl
    · exact h.same (by simp) rfl
  | unsubscribe =>
    rw [step.eq_def]
    dsimp only
    split <;> exact h.same (by simp) rfl
  | stop => exact h.same (by simp) rfl
  | sawClosed =>
    rw [step.eq_def]
    dsimp only
    split
    · split
      · exact h.same (by simp) rfl
      · split <;> exact h.same (by simp) rfl
    · exact h.same (by simp) rfl
  | opened i ok => exact h.task i _ (by simp) fun t => opened_failed _ _ _
  | frame i => exact h.task i _ (by simp) fun t => frame_failed _ _
  | flushed i => exact h.task i _ (by simp) fun t => flushed_failed _
  | sawFailed i => exact h.task i _ (by simp) fun t => sawFailed_failed _
  | fail i =>
    show FInv (tr ++ [(.fail i, (onTask s i _).1)]) (onTask s i _).2
    unfold onTask
    split
    · next t ht =>
      refine ⟨fun j u hu => ?_, fun j hj => ?_⟩
      · rw [failed_snoc]
        dsimp only at hu
        by_cases hij : i = j
        · subst hij
          rw [List.getElem?_set] at hu
          simp only [if_true] at hu
          split at hu
          · cases hu
            simp
          · cases hu
        · rw [List.getElem?_set_ne hij] at hu
          have hne : ((Op.fail i, Out.ok) : Op × Out) ≠ (.fail j, .ok) := by simpa using hij
          simp only [hne, or_false]
          exact h.failed j u hu
      · rw [failed_snoc]
        have hj : s.tasks.length ≤ j := by simpa using hj
        have := (List.getElem?_eq_some_iff.1 ht).1
        have hne : ((Op.fail i, Out.ok) : Op × Out) ≠ (.fail j, .ok) := by
          simp only [ne_eq, Prod.mk.injEq, Op.fail.injEq, and_true]
          omega
        simp only [hne, or_false]
        exact h.fresh j hj
    · exact h.same (by simp) rfl

theorem finv_reach {tr : Trace} {s : State} (h : machine.Reach tr s) : FInv tr s := by
  refine Machine.Reach.induct (M := machine) (P := fun tr s => FInv tr s) ?_ ?_ h
  · exact ⟨fun i t ht => (by cases ht), fun i _ h => (by cases h)⟩
  · intro tr s op _ ih
    exact finv_step ih op

/-! ## The subscription -/

def Phase.isOver : Phase → Bool
  | .over _ => true
  | _ => false

structure CInv (tr : Trace) (s : State) : Prop where
  failed : s.failed = true ↔ Stopped tr
  closing : s.closing = true ↔ Unsubscribed tr
  closed : ∀ c, s.phase.consumer = some c →
    (Track.Closed (trackTrace tr) c ↔ s.phase.isOver = true)
  finished : s.ending = some .finished →
    Unsubscribed tr ∨ Track.ending (trackTrace tr) = some .close
  reset : s.ending = some .reset → Track.ending (trackTrace tr) = some .abort
  none : s.phase.isOver = true → s.ending = none → Stopped tr
  over : s.phase.isOver = true ↔ Over tr
  why : s.phase.isOver = true →
    Unsubscribed tr ∨ Stopped tr ∨ Track.ending (trackTrace tr) ≠ Option.none
  first : s.closing = true → s.failed = false → s.ending = some .finished
  open' : s.phase.isOver = false → s.closing = false → s.ending = Option.none

theorem mem_snoc {tr : Trace} {e x : Op × Out} : x ∈ tr ++ [e] ↔ x ∈ tr ∨ x = e := by
  rw [List.mem_append, List.mem_singleton]

theorem over_snoc (tr : Trace) (e : Op × Out) : Over (tr ++ [e]) ↔ Over tr ∨ Over [e] := by
  unfold Over
  simp only [List.mem_append]
  constructor
  · rintro ⟨c, (h | h) | (h | h) | (h | h)⟩
    · exact .inl ⟨c, .inl h⟩
    · exact .inr ⟨c, .inl h⟩
    · exact .inl ⟨c, .inr (.inl h)⟩
    · exact .inr ⟨c, .inr (.inl h)⟩
    · exact .inl ⟨c, .inr (.inr h)⟩
    · exact .inr ⟨c, .inr (.inr h)⟩
  · rintro (⟨c, h | h | h⟩ | ⟨c, h | h | h⟩)
    · exact ⟨c, .inl (.inl h)⟩
    · exact ⟨c, .inr (.inl (.inl h))⟩
    · exact ⟨c, .inr (.inr (.inl h))⟩
    · exact ⟨c, .inl (.inr h)⟩
    · exact ⟨c, .inr (.inl (.inr h))⟩
    · exact ⟨c, .inr (.inr (.inr h))⟩

theorem ending_keep {tr tr' : Track.Trace} {op : Track.Op} (h : Track.ending tr = some op) :
    Track.ending (tr ++ tr') = some op := by
  unfold Track.ending at h ⊢
  rw [List.map_append, List.find?_append, h]
  rfl

theorem ending_keep' {tr tr' : Track.Trace} (h : Track.ending tr ≠ none) :
    Track.ending (tr ++ tr') ≠ none := by
  cases he : Track.ending tr with
  | none => exact absurd he h
  | some op =>
    rw [ending_keep he]
    simp

/-- An entry that ends nothing. -/
theorem CInv.same {tr : Trace} {s s' : State} (h : CInv tr s) {e : Op × Out}
    (h1 : ∀ c, s.phase.consumer = some c → ∀ o, (.closeSub c, o) ∉ onTrack e)
    (h2 : e ≠ (.unsubscribe, .ok)) (h3 : e ≠ (.stop, .ok)) (h4 : ¬ Over [e])
    (p1 : s'.phase.consumer = s.phase.consumer) (p2 : s'.phase.isOver = s.phase.isOver)
    (p3 : s'.closing = s.closing) (p4 : s'.failed = s.failed) (p5 : s'.ending = s.ending) :
    CInv (tr ++ [e]) s' := by
  have hu : Unsubscribed (tr ++ [e]) ↔ Unsubscribed tr := by
    unfold Unsubscribed
    rw [mem_snoc]
    simp [h2.symm]
  have hst : Stopped (tr ++ [e]) ↔ Stopped tr := by
    unfold Stopped
    rw [mem_snoc]
    simp [h3.symm]
  have ho : Over (tr ++ [e]) ↔ Over tr := by
    rw [over_snoc]
    simp [h4]
  refine ⟨?_, ?_, ?_, ?_, ?_, ?_, ?_, ?_, ?_, ?_⟩
  · rw [p4, hst]
    exact h.failed
  · rw [p3, hu]
    exact h.closing
  · intro c hc
    rw [p1] at hc
    rw [p2, ← h.closed c hc, trackTrace_snoc]
    unfold Track.Closed
    rw [List.mem_append]
    simp [h1 c hc .ok]
  · intro he
    rw [p5] at he
    rw [hu, trackTrace_snoc]
    exact (h.finished he).imp id ending_keep
  · intro he
    rw [p5] at he
    rw [trackTrace_snoc]
    exact ending_keep (h.reset he)
  · rw [p2, p5, hst]
    exact h.none
  · rw [p2, ho]
    exact h.over
  · rw [p2, hu, hst, trackTrace_snoc]
    intro hp
    exact (h.why hp).imp id (Or.imp id ending_keep')
  · rw [p3, p4, p5]
    exact h.first
  · rw [p2, p3, p5]
    exact h.open'

/-- `#runTrack` ends. -/
theorem CInv.endTrack {tr : Trace} {s : State} (h : CInv tr s) {e : Op × Out} {c : Nat}
    (s' : State) (hs1 : s'.failed = s.failed)
    (hs2 : s'.closing = s.closing) (hs3 : s'.ending = s.ending) (en : End)
    (h1 : (.closeSub c, .ok) ∈ onTrack e)
    (h2 : e ≠ (.unsubscribe, .ok)) (h3 : e ≠ (.stop, .ok)) (h4 : Over [e])
    (h5 : en = .finished → s.failed = true ∨ Unsubscribed tr ∨
      Track.ending (trackTrace tr) = some .close)
    (h6 : en = .reset → s.failed = true ∨ Track.ending (trackTrace tr) = some .abort) :
    CInv (tr ++ [e]) (endTrack s' c en) := by
  have hu : Unsubscribed (tr ++ [e]) ↔ Unsubscribed tr := by
    unfold Unsubscribed
    rw [mem_snoc]
    simp [h2.symm]
  have hst : Stopped (tr ++ [e]) ↔ Stopped tr := by
    unfold Stopped
    rw [mem_snoc]
    simp [h3.symm]
  obtain ⟨e1, -, -, -, e5, e6, e7⟩ := endTrack_eq s' c en
  have hov : (Serve.endTrack s' c en).phase.isOver = true := by rw [e1]; rfl
  refine ⟨?_, ?_, ?_, ?_, ?_, ?_, ?_, ?_, ?_, ?_⟩
  · rw [e5, hs1, hst]
    exact h.failed
  · rw [e6, hs2, hu]
    exact h.closing
  · intro d hd
    rw [e1] at hd
    cases hd
    rw [hov, trackTrace_snoc]
    simp only [iff_true]
    exact List.mem_append_right _ h1
  · intro he
    rw [e7, hs1, hs3] at he
    rw [hu, trackTrace_snoc]
    split at he
    · exact (h.finished he).imp id ending_keep
    · next hf =>
      cases hen : s.ending with
      | some x =>
        rw [hen] at he
        exact (h.finished (hen.trans he)).imp id ending_keep
      | none =>
        rw [hen] at he
        have : en = .finished := Option.some.inj he
        exact ((h5 this).resolve_left hf).imp id ending_keep
  · intro he
    rw [e7, hs1, hs3] at he
    rw [trackTrace_snoc]
    split at he
    · exact ending_keep (h.reset he)
    · next hf =>
      cases hen : s.ending with
      | some x =>
        rw [hen] at he
        exact ending_keep (h.reset (hen.trans he))
      | none =>
        rw [hen] at he
        have : en = .reset := Option.some.inj he
        exact ending_keep ((h6 this).resolve_left hf)
  · intro _ he
    rw [e7, hs1, hs3] at he
    rw [hst]
    split at he
    · next hf => exact h.failed.1 hf
    · cases hen : s.ending <;> rw [hen] at he <;> cases he
  · rw [hov, over_snoc]
    simp [h4]
  · intro _
    rw [hu, hst, trackTrace_snoc]
    cases en with
    | finished =>
      rcases h5 rfl with h | h' | h'
      · exact .inr (.inl (CInv.failed ‹_› |>.1 h))
      · exact .inl h'
      · exact .inr (.inr (ending_keep' (by rw [h']; simp)))
    | reset =>
      rcases h6 rfl with h | h'
      · exact .inr (.inl (CInv.failed ‹_› |>.1 h))
      · exact .inr (.inr (ending_keep' (by rw [h']; simp)))
  · intro hc hf
    rw [e6, hs2] at hc
    rw [e5, hs1] at hf
    rw [e7, hs1, hs3, hf, h.first hc hf]
    rfl
  · rw [hov]
    intro hx
    cases hx

/-- What `nextGroup` of a consumer that is not closed says about the track. -/
theorem nextGroup_end {tr : Track.Trace} {s : Track.State} {c : Nat} (h : Track.machine.Reach tr s)
    (hc : ¬ Track.Closed tr c) :
    ((Track.step s (.nextGroup c)).1 = .undefined → Track.ending tr = some .close) ∧
    ((Track.step s (.nextGroup c)).1 = .rejected → Track.ending tr = some .abort) := by
  have i := Track.inv_reach h
  have key : ∀ u, s.subs[c]? = some u → Track.FetchOk s (Track.seen tr c) u ∧ u.closed = false := by
    intro u hu
    have hs := i.sub c u hu
    refine ⟨hs.fetch, ?_⟩
    cases hx : u.closed with
    | false => rfl
    | true => exact absurd (hs.closed.1 hx) hc
  have hst := i.track.status
  show ((Track.onSub s c (Track.nextGroup s)).1 = _ → _) ∧ ((Track.onSub s c (Track.nextGroup s)).1 = _ → _)
  unfold Track.onSub
  split
  · next u hu =>
    obtain ⟨k1, k2⟩ := key u hu
    unfold Track.FetchOk at k1
    unfold Track.nextGroup
    split
    · simp
    · next hf =>
      rw [hf] at k1
      simp only [k2, Bool.false_eq_true, false_or] at k1
      rw [hst, k1]
      simp [Track.endOp]
    · next hf =>
      rw [hf] at k1
      rw [hst, k1]
      simp [Track.endOp]
    · simp
  · simp

theorem cinv_step {tr : Trace} {s : State} (b : Base tr s) (h : CInv tr s) (op : Op) :
    CInv (tr ++ [(op, (step s op).1)]) (step s op).2 := by
  have inv : ∀ op : Op, CInv (tr ++ [(op, .invalid)]) s := by
    intro op
    refine h.same (fun c _ o => ?_) (by simp) (by simp) ?_ rfl rfl rfl rfl rfl
    · cases op <;> simp [onTrack]
    · simp [Over]
  have task : ∀ (op : Op) (i : Nat) (f : Task → Out × Task), (∀ t, (f t).2.group = t.group) →
      (∀ o, onTrack (op, o) = []) → op ≠ .unsubscribe → op ≠ .stop → op ≠ .next → op ≠ .sawClosed →
      CInv (tr ++ [(op, (onTask s i f).1)]) (onTask s i f).2 := by
    intro op i f hf ho h2 h3 h4 h5
    obtain ⟨-, -, e3, e4, e5, e6, -⟩ := onTask_eq s i f hf
    refine h.same (fun c _ o => ?_) (by simp [h2]) (by simp [h3]) ?_ ?_ ?_ e4 e5 e6
    · rw [ho]
      simp
    · simp [Over, Ne.symm h4, Ne.symm h5]
    · rw [e3]
    · rw [e3]
  cases op with
  | track op =>
    rw [step.eq_def]
    dsimp only
    split
    · exact inv _
    · next hu =>
      refine h.same (fun c hc o hm => ?_) (by simp) (by simp) (by simp [Over]) rfl rfl rfl rfl rfl
      simp only [onTrack, List.mem_singleton, Prod.mk.injEq] at hm
      refine hu ⟨?_, ?_⟩
      · rw [← hm.1]
        simp [uses]
      · rw [← hm.1, hc]
        rfl
  | subscribe k =>
    rw [step.eq_def]
    dsimp only
    split
    · next c t hp hst =>
      have hn := b.none hp
      have hnc : s.phase.isOver = false := by rw [hp]; rfl
      have hcl : c = s.track.subs.length := by
        simp only [Track.step, Prod.mk.injEq, Track.Out.sub.injEq] at hst
        exact hst.1.symm
      have hfr := ((Track.inv_reach b.track).fresh c (by omega)).2.2
      have ht : trackTrace (tr ++ [(.subscribe k, .subscribed c)]) =
          trackTrace tr ++ [(.consume, .sub c)] := trackTrace_snoc _ _
      refine ⟨?_, ?_, ?_, ?_, ?_, ?_, ?_, ?_, ?_, ?_⟩
      · have := h.failed
        simpa [Stopped] using this
      · have := h.closing
        simpa [Unsubscribed] using this
      · intro d hd
        cases hd
        rw [ht]
        simp only [Phase.isOver, Bool.false_eq_true, iff_false]
        intro hx
        refine hfr ?_
        unfold Track.Closed at hx ⊢
        simpa using hx
      · intro he
        have := h.finished he
        rw [ht]
        exact this.imp (fun x => by unfold Unsubscribed at x ⊢; simp [x]) ending_keep
      · intro he
        rw [ht]
        exact ending_keep (h.reset he)
      · intro hx
        cases hx
      · have := h.over
        rw [hnc] at this
        rw [over_snoc, ← this]
        simp [Over, Phase.isOver]
      · intro hx
        cases hx
      · exact h.first
      · intro _ hc
        exact h.open' hnc hc
    · exact inv _
  | answered ok =>
    rw [step.eq_def]
    dsimp only
    split
    · next c hp =>
      refine h.same (fun c _ o => by simp [onTrack]) (by simp) (by simp) (by simp [Over]) ?_ ?_ rfl rfl rfl
      · rw [hp]
        dsimp only
        split <;> rfl
      · rw [hp]
        dsimp only
        split <;> rfl
    · exact inv _
  | next =>
    rw [step.eq_def]
    dsimp only
    split
    · next c hp =>
      have hc : s.phase.consumer = some c := by rw [hp]; rfl
      have hncl : ¬ Track.Closed (trackTrace tr) c := by
        rw [h.closed c hc, hp]
        simp [Phase.isOver]
      have hend := nextGroup_end b.track hncl
      unfold next
      generalize Track.step s.track (.nextGroup c) = r at hend
      obtain ⟨o, t⟩ := r
      cases o with
      | undefined =>
        exact h.endTrack (e := (.next, .next c .undefined)) (c := c) { s with track := t } rfl rfl rfl .finished (by simp [onTrack]) (by simp) (by simp) (by simp [Over])
          (fun _ => .inr (.inr (hend.1 rfl))) (fun h => by cases h)
      | rejected =>
        exact h.endTrack (e := (.next, .next c .rejected)) (c := c) { s with track := t } rfl rfl rfl .reset (by simp [onTrack]) (by simp) (by simp) (by simp [Over])
          (fun h => by cases h) (fun _ => .inr (hend.2 rfl))
      | _ =>
        exact h.same (fun d _ o => by simp [onTrack]) (by simp) (by simp) (by simp [Over]) rfl rfl rfl rfl rfl
    · exact inv _
  | unsubscribe =>
    rw [step.eq_def]
    dsimp only
    split
    · next c hp =>
      have hnc : s.phase.isOver = false := by rw [hp]; rfl
      have ht : trackTrace (tr ++ [(.unsubscribe, .ok)]) = trackTrace tr := by
        rw [trackTrace_snoc]
        simp [onTrack]
      refine ⟨?_, ?_, ?_, ?_, ?_, ?_, ?_, ?_, ?_, ?_⟩
      · have := h.failed
        simpa [Stopped] using this
      · simp [Unsubscribed]
      · rw [ht]
        exact h.closed
      · intro _
        exact .inl (by simp [Unsubscribed])
      · intro he
        rw [ht]
        dsimp only at he
        split at he
        · exact h.reset he
        · cases hen : s.ending with
          | none => rw [hen] at he; cases he
          | some x =>
            rw [hen] at he
            exact h.reset (hen.trans he)
      · intro hx
        rw [hnc] at hx
        cases hx
      · rw [over_snoc]
        have := h.over
        simpa [Over] using this
      · intro hx
        rw [hnc] at hx
        cases hx
      · intro _ hf
        dsimp only at hf ⊢
        rw [hf]
        cases hcl : s.closing with
        | true => rw [h.first hcl hf]; rfl
        | false => rw [h.open' hnc hcl]; rfl
      · intro _ hc
        cases hc
    · exact inv _
  | stop =>
    rw [step.eq_def]
    have ht : trackTrace (tr ++ [(.stop, .ok)]) = trackTrace tr := by
      rw [trackTrace_snoc]
      simp [onTrack]
    refine ⟨?_, ?_, ?_, ?_, ?_, ?_, ?_, ?_, ?_, ?_⟩
    · simp [Stopped]
    · have := h.closing
      simpa [Unsubscribed] using this
    · rw [ht]
      exact h.closed
    · rw [ht]
      intro he
      exact (h.finished he).imp (fun x => List.mem_append_left _ x) id
    · rw [ht]
      exact h.reset
    · intro _ _
      simp [Stopped]
    · rw [over_snoc]
      have := h.over
      simpa [Over] using this
    · intro _
      exact .inr (.inl (by simp [Stopped]))
    · intro _ hf
      cases hf
    · exact h.open'
  | sawClosed =>
    rw [step.eq_def]
    dsimp only
    split
    · next c hp =>
      split
      · next hf =>
        exact h.endTrack (c := c) s rfl rfl rfl _ (by simp [onTrack]) (by simp) (by simp) (by simp [Over])
          (fun _ => .inl hf) (fun _ => .inl hf)
      · split
        · next hcl =>
          exact h.endTrack (c := c) s rfl rfl rfl _ (by simp [onTrack]) (by simp) (by simp) (by simp [Over])
            (fun _ => .inr (.inl (h.closing.1 hcl))) (fun h => by cases h)
        · exact inv _
    · exact inv _
  | opened i ok =>
    exact task _ i _ (fun t => opened_group _ _ _) (fun _ => rfl) (by simp) (by simp) (by simp) (by simp)
  | frame i =>
    exact task _ i _ (fun t => frame_group _ _) (fun _ => rfl) (by simp) (by simp) (by simp) (by simp)
  | flushed i =>
    exact task _ i _ (fun t => flushed_group _) (fun _ => rfl) (by simp) (by simp) (by simp) (by simp)
  | fail i =>
    exact task _ i _ (fun t => rfl) (fun _ => rfl) (by simp) (by simp) (by simp) (by simp)
  | sawFailed i =>
    exact task _ i _ (fun t => sawFailed_group _) (fun _ => rfl) (by simp) (by simp) (by simp) (by simp)

theorem cinv_reach {tr : Trace} {s : State} (h : machine.Reach tr s) : CInv tr s := by
  have : Base tr s ∧ CInv tr s := by
    refine Machine.Reach.induct (M := machine) (P := fun tr s => Base tr s ∧ CInv tr s) ?_ ?_ h
    · refine ⟨base_reach .init, ?_⟩
      refine ⟨?_, ?_, fun c h => (by cases h), fun h => (by cases h), fun h => (by cases h),
        fun h => (by cases h), ?_, fun h => (by cases h), fun h => (by cases h), fun _ _ => rfl⟩
      · simp [Stopped, init]
      · simp [Unsubscribed, init]
      · simp [Over, init, Phase.isOver]
    · intro tr s op _ ih
      exact ⟨base_step ih.1 op, cinv_step ih.1 ih.2 op⟩
  exact this.2

end Verif.Js.Serve
