import Verif.Session.SubsLemmas
import Verif.Props.Track

/-!
# Properties C48–C49: subscription ids and the routing of incoming groups
-/

set_option autoImplicit false

namespace Verif.Props.Subs

open Verif Verif.Session Verif.Session.Subs Verif.Session.Subs.Spec
open Verif.Model (Track.Op Track.Out Track.State)

/-! ## C48: groups go to the track that was subscribed under their id -/

/-- Ids are not used twice (until the 64-bit counter wraps). -/
theorem c48_unique {tr : Trace} {s : State} (h : machine.Reach tr s)
    (hb : (ids tr).length ≤ 2 ^ 64) : (ids tr).Nodup := by
  rw [(inv_reach h hb).ids]; exact List.nodup_range

/-- At most one subscription is registered under an id. -/
theorem c48_one {tr : Trace} {s : State} (h : machine.Reach tr s)
    (hb : (ids tr).length ≤ 2 ^ 64) {id k k' : Nat} (hk : Registered tr id k)
    (hk' : Registered tr id k') : k = k' := by
  have h1 := hk.1
  have h2 := hk'.1
  rw [(inv_reach h hb).ids] at h1 h2
  have e1 := (List.getElem?_eq_some_iff.1 h1).2
  have e2 := (List.getElem?_eq_some_iff.1 h2).2
  simp only [List.getElem_range] at e1 e2
  exact e1.trans e2.symm

/-- What is registered, in terms of the state. -/
theorem registered_iff {tr : Trace} {s : State} (h : Inv tr s) (id k : Nat) :
    Registered tr id k ↔ k = id ∧ s.table id = some (id, 1) := by
  constructor
  · rintro ⟨h1, h2, h3⟩
    rw [h.ids] at h1
    have hlt : k < s.tasks.length := by
      have := (List.getElem?_eq_some_iff.1 h1).1
      simpa using this
    have hid : k = id := by
      have := (List.getElem?_eq_some_iff.1 h1).2
      simpa using this
    subst hid
    refine ⟨rfl, ?_⟩
    have hk : s.tasks[k]? = some (s.tasks[k].1, s.tasks[k].2) := List.getElem?_eq_getElem hlt
    have ht : s.tracks[k]? = some (s.tracks[k]'(by rw [h.len]; exact hlt)) :=
      List.getElem?_eq_getElem (by rw [h.len]; exact hlt)
    have ok := h.ok _ _ _ _ hk ht
    have a := ok.started.1 h2
    have b := fun hx => h3 (ok.removed.2 hx)
    rw [ok.table, if_pos]
    revert a b
    cases s.tasks[k].2 <;> simp
  · rintro ⟨rfl, ht⟩
    obtain ⟨_, _, ph, t, h1, h2, hph, ok⟩ := h.table ht
    refine ⟨?_, ok.started.2 ?_, fun hx => ?_⟩
    · rw [h.ids]
      have := (List.getElem?_eq_some_iff.1 h1).1
      simp [this]
    · rcases hph with rfl | rfl <;> simp
    · have := ok.removed.1 hx
      rcases hph with rfl | rfl <;> simp at this

/-- The answer to a group that came in: a group with an id that is not registered is refused with
`Cancel`; otherwise it is offered to the track registered under its id, which accepts it if it is
newer than everything it has, and refuses it with `Old` if not.  (What `offer` says when the track
was closed is the subject of C49.) -/
theorem c48_route {tr : Trace} {s : State} (h : machine.Reach tr s)
    (hb : (ids tr).length ≤ 2 ^ 64) (sub seq gid : Nat) (hs : seq < 2 ^ 64) :
    ((∀ k, ¬ Registered tr sub k) → (step s (.recvGroup sub seq gid)).1 = .unknown) ∧
    (∀ k, Registered tr sub k → (step s (.recvGroup sub seq gid)).1 = offer tr k seq) := by
  have hI := inv_reach h hb
  constructor
  · intro hn
    have htab : s.table sub = none := by
      cases hx : s.table sub with
      | none => rfl
      | some v =>
        obtain ⟨k, hd⟩ := v
        obtain ⟨rfl, rfl, _⟩ := hI.table hx
        exact absurd ((registered_iff hI k k).2 ⟨rfl, hx⟩) (hn k)
    simp only [step, htab]
    rw [if_neg (by omega)]
  · intro k hk
    obtain ⟨rfl, htab⟩ := (registered_iff hI _ _).1 hk
    obtain ⟨_, _, ph, t, h1, h2, hph, ok⟩ := hI.table htab
    simp only [step, htab, h2]
    rw [if_neg (by omega)]
    have hT := Model.Track.inv_reach ok.reach
    have hnew := hT.ordered.accepted.newer_iff (⟨seq, gid⟩ : Model.Track.Grp)
    rw [hT.agrees.latest] at hnew
    unfold offer groups
    rcases insert_step (prods_one ok.prods hph) seq gid hs with ⟨g1, g2⟩ | ⟨g1, ⟨l, gl, gs⟩, g2⟩ | ⟨g1, g3, g2⟩
    · rw [g2, if_pos]
      apply ok.closed.2
      rcases hph with rfl | rfl
      · have := ok.open_.2 (.inr rfl)
        rw [this] at g1; cases g1
      · exact .inl rfl
    all_goals
      have hnc : ¬ Closed tr k := by
        intro hc
        have h1 := ok.closed.1 hc
        have h2 := ok.open_.1 g1
        rcases hph with rfl | rfl <;> simp at h1 h2
      rw [g2, if_neg hnc]
    · rw [if_neg]
      intro hall
      have := hnew.1 hall l gl
      simp only at this
      omega
    · rw [if_pos]
      exact hnew.2 g3

/-- A group that is refused changes nothing. -/
theorem c48_refused {tr : Trace} {s : State} (h : machine.Reach tr s)
    (hb : (ids tr).length ≤ 2 ^ 64) (sub seq gid : Nat)
    (ho : ∀ k, (step s (.recvGroup sub seq gid)).1 ≠ .created k) :
    (step s (.recvGroup sub seq gid)).2 = s := by
  have hI := inv_reach h hb
  simp only [step] at ho ⊢
  split
  · rfl
  · rename_i hs
    rw [if_neg hs] at ho
    split
    · rfl
    · rename_i k hd htab
      obtain ⟨rfl, rfl, ph, t, h1, h2, hph, ok⟩ := hI.table htab
      simp only [htab, h2] at ho ⊢
      have hset : s.tracks.set k t = s.tracks := by
        have := (List.getElem?_eq_some_iff.1 h2).2
        rw [← this]; simp
      rcases insert_step (prods_one ok.prods hph) seq gid (by omega) with ⟨_, g2⟩ | ⟨_, _, g2⟩ | ⟨_, _, g2⟩
      · rw [g2]; simp only [hset]
      · rw [g2]; simp only [hset]
      · rw [g2] at ho; exact absurd rfl (ho k)

/-- Every group in a track came in under the id of its subscription. -/
theorem c48_from {tr : Trace} {s : State} (h : machine.Reach tr s) :
    (ids tr).length ≤ 2 ^ 64 → ∀ sub seq gid k, (Op.recvGroup sub seq gid, Out.created k) ∈ tr →
      (ids tr)[k]? = some sub := by
  refine Machine.Reach.induct (M := machine) (P := fun tr s => (ids tr).length ≤ 2 ^ 64 →
    ∀ sub seq gid k, (Op.recvGroup sub seq gid, Out.created k) ∈ tr → (ids tr)[k]? = some sub)
    ?_ ?_ h
  · intro _ _ _ _ _ hm; cases hm
  · intro tr s op hr ih hb sub seq gid k hm
    rw [ids_snoc] at hb ⊢
    have hb' : (ids tr).length ≤ 2 ^ 64 := by rw [List.length_append] at hb; omega
    have hold : (ids tr)[k]? = some sub → (ids tr ++ ids [(op, (step s op).1)])[k]? = some sub := by
      intro hx
      rw [List.getElem?_append_left (List.getElem?_eq_some_iff.1 hx).1]; exact hx
    rcases List.mem_append.1 hm with hm | hm
    · exact hold (ih hb' sub seq gid k hm)
    · apply hold
      have hm := List.mem_singleton.1 hm
      injection hm with ho ho'
      subst ho
      have hs : seq < 2 ^ 64 := by
        apply Classical.byContradiction
        intro hx
        simp only [machine, step] at ho'
        rw [if_pos (by omega)] at ho'; cases ho'
      obtain ⟨r1, r2⟩ := c48_route hr hb' sub seq gid hs
      have ho' : (step s (.recvGroup sub seq gid)).1 = .created k := ho'.symm
      apply Classical.byContradiction
      intro hne
      by_cases hreg : ∃ j, Registered tr sub j
      · obtain ⟨j, hj⟩ := hreg
        have := r2 j hj
        rw [ho'] at this
        unfold offer at this
        split at this
        · cases this
        · split at this
          · injection this with this; subst this; exact hne hj.1
          · cases this
      · have := r1 fun j hj => hreg ⟨j, hj⟩
        rw [ho'] at this; cases this

/-- What the readers of a subscribed track are given is determined by what happened to that track
alone: they get the newest group if they have not seen one as new. -/
theorem c48_next {tr : Trace} {s : State} (h : machine.Reach tr s)
    (hb : (ids tr).length ≤ 2 ^ 64) {k c : Nat} (hk : k < (ids tr).length)
    (hc : Model.Track.Spec.ConsumerAlive (trackTrace k tr) c) :
    (step s (.track k (.next c))).1 = .track (Model.Track.Spec.nextAnswer (trackTrace k tr)
      (Model.Track.Spec.received (trackTrace k tr) c)) := by
  have hI := inv_reach h hb
  rw [hI.ids, List.length_range] at hk
  have h1 : s.tasks[k]? = some (s.tasks[k].1, s.tasks[k].2) := List.getElem?_eq_getElem hk
  have h2 : s.tracks[k]? = some (s.tracks[k]'(by rw [hI.len]; exact hk)) :=
    List.getElem?_eq_getElem (by rw [hI.len]; exact hk)
  have ok := hI.ok _ _ _ _ h1 h2
  simp only [step, h2]
  rw [if_pos (show byConsumer (.next c) = true from rfl), Track.next_answer ok.reach hc]

/-- A subscription whose track is closed stays registered until the task takes its id out. -/
theorem c48_window {tr : Trace} {s : State} (h : machine.Reach tr s)
    (hb : (ids tr).length ≤ 2 ^ 64) {k : Nat} (hc : Removed tr k) : Closed tr k ∧ Started tr k := by
  have hI := inv_reach h hb
  by_cases hlt : k < s.tasks.length
  · have h1 : s.tasks[k]? = some (s.tasks[k].1, s.tasks[k].2) := List.getElem?_eq_getElem hlt
    have h2 : s.tracks[k]? = some (s.tracks[k]'(by rw [hI.len]; exact hlt)) :=
      List.getElem?_eq_getElem (by rw [hI.len]; exact hlt)
    have ok := hI.ok _ _ _ _ h1 h2
    have hg := ok.removed.1 hc
    exact ⟨ok.closed.2 (.inr hg), ok.started.2 (by rw [hg]; simp)⟩
  · exact absurd hc (hI.rest k (by omega)).2.2.2.2

/-- Two subscriptions; groups arrive for both, in a confusing order. -/
example : (machine.run [.request, .request, .start 1, .start 0, .recvGroup 1 5 0,
    .recvGroup 0 3 1, .recvGroup 1 4 2, .recvGroup 7 4 3, .recvGroup 0 4 4]).1.map (·.2) =
    [.id 0, .id 1, .ok, .ok, .created 1, .created 0, .old 1, .unknown, .created 0] := rfl

/-- The hypotheses of `c48_next` can be met. -/
example : Model.Track.Spec.ConsumerAlive (trackTrace 1 (machine.run [.request, .request, .start 1,
    .track 1 (.consume 1), .recvGroup 1 5 0]).1) 0 :=
  ⟨.inl ⟨1, List.mem_cons_of_mem _ (List.mem_cons_self ..)⟩, by
    show (Track.Op.dropConsumer 0, Track.Out.ok) ∉ [(Track.Op.cloneProducer 0, Track.Out.handle 1),
      (Track.Op.consume 1, Track.Out.handle 0), (Track.Op.insert 1 ⟨5, 0⟩, Track.Out.inserted true)]
    simp⟩

/-! ## C49: no panic when a group meets the end of its subscription -/

/-- The property is false: between the closing of a track and the removal of its id, a group with
that id trips the assertion in `insert_group`. -/
theorem c49_panic : ∃ tr s, machine.Reach tr s ∧ (ids tr).length ≤ 2 ^ 64 ∧
    (step s (.recvGroup 0 0 0)).1 = .panic 0 :=
  ⟨_, _, machine.reach_run [.request, .start 0, .close 0 (.ok ())], by
    show 1 ≤ 2 ^ 64; omega, rfl⟩

/-- The panic happens exactly in that window.  What is missing to the full property: the window. -/
theorem c49_window_partial {tr : Trace} {s : State} (h : machine.Reach tr s)
    (hb : (ids tr).length ≤ 2 ^ 64) (sub seq gid : Nat) (hs : seq < 2 ^ 64) (k : Nat) :
    (step s (.recvGroup sub seq gid)).1 = .panic k ↔ Registered tr sub k ∧ Closed tr k := by
  obtain ⟨r1, r2⟩ := c48_route h hb sub seq gid hs
  constructor
  · intro hp
    by_cases hreg : ∃ j, Registered tr sub j
    · obtain ⟨j, hj⟩ := hreg
      have := r2 j hj
      rw [hp] at this
      unfold offer at this
      split at this
      · rename_i hc
        injection this with this
        subst this; exact ⟨hj, hc⟩
      · split at this <;> cases this
    · have := r1 fun j hj => hreg ⟨j, hj⟩
      rw [hp] at this; cases this
  · rintro ⟨hr, hc⟩
    rw [r2 k hr]
    unfold offer
    rw [if_pos hc]

end Verif.Props.Subs
