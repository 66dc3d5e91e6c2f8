import Verif.Model.BroadcastServe

/-!
# Properties of broadcasts: C29 to C33, C74

The vocabulary (`requested`, `handed`, `lastBound`, `Live`, …) is defined from the history of
calls and answers in `Verif/Model/BroadcastSpec.lean`.
-/

set_option autoImplicit false

namespace Verif.Props.Broadcast

open Verif Verif.Session Verif.Model Verif.Model.Broadcast Verif.Model.Broadcast.Spec

theorem live_open {tr : Trace} {s : State} (h : machine.Reach tr s) {p : Nat} (hl : Live tr p) :
    s.queueOpen = true ∧ s.producers.get p = some .live ∧ s.producers.count = s.cloned + 1 ∧
      ∀ q φ, s.producers.get q = some φ → φ = .live := by
  have hp := ((lives_reach h).live p).2 hl
  cases mode_reach h with
  | running ho hc hl _ => exact ⟨ho, hp, hc, hl⟩
  | ending q φ hat hne hon ho hem hn =>
    by_cases hpq : p = q
    · subst hpq; rw [hp] at hat; injection hat with hat; exact absurd hat.symm hne
    · rw [hon p hpq] at hp; cases hp
  | over hno _ _ _ => rw [hno] at hp; cases hp

theorem consumer_get {tr : Trace} {s : State} (h : machine.Reach tr s) {c : Nat} :
    ConsumerAlive tr c ↔ s.consumers.get c = some () := by
  have := (tables_reach h).consumers.live c
  unfold ConsumerAlive
  rw [← this]
  cases s.consumers.get c <;> simp

theorem poll_cancelled {s : State} {t : Nat} {k : Trk} (hk : s.tracks[t]? = some k)
    (hcl : k.closed = some (.error .cancel)) : (step s (.pollTrack t)).1 = .err .cancel := by
  have hlt : t < s.tracks.length := by
    rcases Nat.lt_or_ge t s.tracks.length with hx | hx
    · exact hx
    · rw [List.getElem?_eq_none hx] at hk; cases hk
  simp only [step]
  rw [if_pos hlt]
  simp only [State.trackClosed, hk, hcl]

/-! ## C29: subscriptions to one track are shared -/

/-- **C29.**  While some producer is alive and the track last inserted under, or returned for, a
name is open, every subscription to that name returns this very track and changes nothing: in
particular it makes no request. -/
theorem c29_shared {tr : Trace} {s : State} (h : machine.Reach tr s) {p c : Nat} {n : String}
    {t : Ref} (hl : Live tr p) (hc : ConsumerAlive tr c) (hb : lastBound tr n = some t)
    (ho : (step s (.pollTrack t.id)).1 = .pending) :
    step s (.subscribe c n) = (.track t, s) := by
  have hB := bound_reach h
  have hq := (live_open h hl).1
  have hp := hB.keep hq n t hb (poll_pending.1 ho)
  have hn := (hB.name n t hb).2
  simp only [step, (consumer_get h).1 hc, hp]
  rw [← hn]

/-- **C29**, partial: as long as the producer inserts no track under a name itself, at most one
track of that name that was requested by subscriptions is open, that is queued or being served.

Missing: the producer may insert a track of the same name while a request is outstanding; then
two requests can be outstanding, see `c29_two_requests`. -/
theorem c29_one_request_partial {tr : Trace} {s : State} (h : machine.Reach tr s) {t u : Ref}
    (ht : t ∈ requested tr) (hu : u ∈ requested tr) (hn : t.name = u.name)
    (hi : ¬ Inserted tr t.name) (ho : (step s (.pollTrack t.id)).1 = .pending)
    (ho' : (step s (.pollTrack u.id)).1 = .pending) : t = u :=
  (bound_reach h).uniq t ht u hu hn hi (poll_pending.1 ho) (poll_pending.1 ho')

/-- Two subscriptions to "a", the request is taken by the producer, a third subscription. -/
def exampleOps : List Op :=
  [.consume 0, .subscribe 0 "a", .cloneConsumer 0, .subscribe 1 "a", .request 0,
   .subscribe 0 "b", .subscribe 0 "a"]

def exampleTrace : Trace :=
  [(.consume 0, .handle 0), (.subscribe 0 "a", .track ⟨"a", 0⟩), (.cloneConsumer 0, .handle 1),
   (.subscribe 1 "a", .track ⟨"a", 0⟩), (.request 0, .track ⟨"a", 0⟩),
   (.subscribe 0 "b", .track ⟨"b", 1⟩), (.subscribe 0 "a", .track ⟨"a", 0⟩)]

theorem example_run : (machine.run exampleOps).1 = exampleTrace := by decide +kernel

theorem example_reach : machine.Reach exampleTrace (machine.run exampleOps).2 := by
  rw [← example_run]; exact machine.reach_run exampleOps

example : Live exampleTrace 0 ∧ ConsumerAlive exampleTrace 1 ∧
    lastBound exampleTrace "a" = some ⟨"a", 0⟩ ∧
    (step (machine.run exampleOps).2 (.pollTrack 0)).1 = .pending := by
  refine ⟨?_, ?_, by decide +kernel, by decide +kernel⟩
  · simp [Live, ProducerMade, DropBegun, exampleTrace]
  · simp [ConsumerAlive, ConsumerMade, ConsumerGone, exampleTrace]

example : requested exampleTrace = [⟨"a", 0⟩, ⟨"b", 1⟩] ∧ ¬ Inserted exampleTrace "a" := by
  refine ⟨by decide +kernel, ?_⟩
  simp [Inserted, exampleTrace]

/-- **C29 is violated when the producer inserts a track under a requested name**: the queued
request is forgotten, and once the inserted track is gone a second request for the same name is
made while the first is still outstanding. -/
theorem c29_two_requests :
    ∃ tr s, machine.Reach tr s ∧ ∃ t u, t ∈ requested tr ∧ u ∈ requested tr ∧ t ≠ u ∧
      t.name = u.name ∧ (step s (.pollTrack t.id)).1 = .pending ∧
      (step s (.pollTrack u.id)).1 = .pending := by
  refine ⟨_, _, machine.reach_run [.consume 0, .subscribe 0 "a", .create 0 "a", .finishTrack 1,
    .cleanup 0, .subscribe 0 "a"], ⟨"a", 0⟩, ⟨"a", 2⟩, ?_⟩
  decide +kernel

/-! ## C30: closing a track never unpublishes its successor -/

/-- **C30.**  When the clean-up of track `t` runs, every name for which a subscription would have
returned another existing track still returns that track. -/
theorem c30_successor_kept {tr : Trace} {s : State} (h : machine.Reach tr s) {k c : Nat} {t u : Ref}
    {n : String} (hk : (step s (.cleanup k)).1 = .cleaned t)
    (hu : (step s (.subscribe c n)).1 = .track u) (hm : u ∈ made tr) (hne : u ≠ t) :
    (step (step s (.cleanup k)).2 (.subscribe c n)).1 = .track u := by
  have hT := trks_reach h
  have hpub : ∃ x, s.consumers.get c = some x ∧ s.published n = some u.id ∧ u.name = n := by
    simp only [step] at hu
    split at hu
    · cases hu
    · rename_i x hx
      refine ⟨x, hx, ?_⟩
      split at hu
      · rename_i v hv
        injection hu with hu
        subst hu
        exact ⟨hv, rfl⟩
      · exfalso
        have : u = ⟨n, s.tracks.length⟩ := by
          split at hu <;> (injection hu with hu; exact hu.symm)
        rw [this, hT.made] at hm
        exact fresh_not_mem s n hm
  obtain ⟨x, hx, hp, hn⟩ := hpub
  have hs : (step s (.cleanup k)).2.consumers = s.consumers ∧
      (step s (.cleanup k)).2.published n = some u.id := by
    simp only [step] at hk ⊢
    split at hk
    · cases hk
    · split at hk
      · cases hk
      · split at hk
        · rename_i v hv
          split at hk
          · rename_i hvt
            injection hk with hk
            simp only [hvt, if_true]
            refine ⟨trivial, ?_⟩
            unfold Broadcast.bind
            split
            · rename_i hnn
              exfalso
              rw [← hnn, hp] at hv
              injection hv with hv
              apply hne
              rw [← hk]
              cases u with | mk un ui => simp_all
            · exact hp
          · rename_i hvt
            simp only [hvt, if_false]
            exact ⟨trivial, hp⟩
        · exact ⟨rfl, hp⟩
  simp only [step] at hs ⊢
  rw [hs.1, hx, hs.2]
  cases u
  simp_all

/-- **C30.**  And the clean-up does remove the track itself: if `t` was the track of its name, the
next subscription makes a new track. -/
theorem c30_removed {tr : Trace} {s : State} (h : machine.Reach tr s) {k c : Nat} {t : Ref}
    (hk : (step s (.cleanup k)).1 = .cleaned t) (hc : ConsumerAlive tr c)
    (hb : lastBound tr t.name = some t) :
    ∃ u, (step (step s (.cleanup k)).2 (.subscribe c t.name)).1 = .track u ∧ u ∉ made tr := by
  have hT := trks_reach h
  have hB := bound_reach h
  have hc' := (consumer_get h).1 hc
  have hs : (step s (.cleanup k)).2.consumers = s.consumers ∧
      (step s (.cleanup k)).2.tracks = s.tracks ∧
      (step s (.cleanup k)).2.published t.name = none := by
    simp only [step] at hk ⊢
    split at hk
    · cases hk
    · split at hk
      · cases hk
      · split at hk
        · rename_i v hv
          split at hk
          · rename_i hvt
            injection hk with hk
            subst hk
            simp only [hvt, if_true]
            exact ⟨trivial, trivial, by simp [Broadcast.bind]⟩
          · exfalso
            rename_i hvt
            injection hk with hk
            subst hk
            have := hB.last _ _ hv
            rw [hb] at this
            injection this with this
            injection this with _ this
            exact hvt this.symm
        · rename_i hv
          injection hk with hk
          subst hk
          exact ⟨rfl, rfl, hv⟩
  refine ⟨⟨t.name, s.tracks.length⟩, ?_, by rw [hT.made]; exact fresh_not_mem s _⟩
  generalize (step s (.cleanup k)).2 = s' at hs
  simp only [step]
  rw [hs.1, hc', hs.2.2, hs.2.1]
  simp only
  split <;> rfl

/-- **C30**, progress: whenever a track is handed out, created or inserted, the broadcast begins to
wait for its end; as long as fewer of these tasks have ended than were begun, one of them is there:
it cleans up if the track is closed and otherwise waits. -/
theorem c30_cleanup {tr : Trace} {s : State} (h : machine.Reach tr s) {t : Ref}
    (hw : ends tr t < watches tr t) :
    ∃ k, (step s (.cleanup k)).1 =
      if (step s (.pollTrack t.id)).1 = .pending then .pending else .cleaned t := by
  have hc := (tasks_reach h).count t
  have hrun : 0 < s.running t := by omega
  unfold State.running at hrun
  split at hrun
  · rename_i hm
    rw [List.count_pos_iff] at hrun
    obtain ⟨k, hk⟩ := get_of_mem hrun
    refine ⟨k, ?_⟩
    have hn := (mem_refs.1 hm).2
    by_cases ho : (step s (.pollTrack t.id)).1 = .pending
    · have := trackClosed_none.2 (poll_pending.1 ho)
      rw [if_pos ho]
      simp only [step, hk, this]
    · have hne : s.trackClosed t.id ≠ none := fun hx => ho (poll_pending.2 (trackClosed_none.1 hx))
      rw [if_neg ho]
      obtain ⟨r, hr⟩ := Option.ne_none_iff_exists'.1 hne
      simp only [step, hk, hr]
      repeat' split
      all_goals rw [hn]
  · omega

/-- **C30**: no clean-up task ends more often than the broadcast began to wait. -/
theorem c30_no_more {tr : Trace} {s : State} (h : machine.Reach tr s) (t : Ref) :
    ends tr t ≤ watches tr t := by
  have := (tasks_reach h).count t
  omega

example : watches exampleTrace ⟨"a", 0⟩ = 1 ∧ ends exampleTrace ⟨"a", 0⟩ = 0 ∧
    (step (machine.run exampleOps).2 (.cleanup 0)).1 = .pending := by decide +kernel

/-- A replacement: "a" is inserted twice, the first closes and is cleaned up. -/
example : (step (machine.run [.consume 0, .create 0 "a", .create 0 "a", .finishTrack 0]).2
      (.cleanup 0)).1 = .cleaned ⟨"a", 0⟩ ∧
    (step (machine.run [.consume 0, .create 0 "a", .create 0 "a", .finishTrack 0]).2
      (.subscribe 0 "a")).1 = .track ⟨"a", 1⟩ := by decide +kernel

/-- Without a replacement the name becomes free. -/
example : (machine.run [.consume 0, .create 0 "a", .finishTrack 0, .cleanup 0,
    .subscribe 0 "a"]).1.getLast? = some (.subscribe 0 "a", .track ⟨"a", 1⟩) := by decide +kernel

/-! ## C31: every requested track is answered or cancelled -/

/-- **C31.**  No track is handed out twice, and tracks are handed out in the order of the
requests. -/
theorem c31_handed_once {tr : Trace} {s : State} (h : machine.Reach tr s) :
    (handed tr).Nodup ∧ handed tr <+: requested tr := by
  have hT := trks_reach h
  have h1 : (made tr).Nodup := by rw [hT.made]; exact refs_nodup s
  exact ⟨(h1.sublist hT.sub).sublist hT.pre.sublist, hT.pre⟩

/-- **C31.**  While a producer is alive, its request call returns the oldest requested track that
was not handed out, and waits only if there is none. -/
theorem c31_oldest_first {tr : Trace} {s : State} (h : machine.Reach tr s) {p : Nat}
    (hl : Live tr p) :
    (step s (.request p)).1 =
      match (requested tr).drop (handed tr).length with
      | t :: _ => .track t
      | [] => .pending := by
  have hT := trks_reach h
  obtain ⟨hq, hp, _⟩ := live_open h hl
  have hreq := hT.open' hq
  rw [hreq, List.drop_left]
  simp only [step, hp]
  cases hqq : s.queue with
  | nil => simp [hq]
  | cons t q => rfl

/-- **C31.**  Every track made by a subscription was handed out, or some producer still exists
(and will hand it out or cancel it), or its `closed` notification says `Cancel`. -/
theorem c31_answered_or_cancelled {tr : Trace} {s : State} (h : machine.Reach tr s) {t : Ref}
    (ht : t ∈ requested tr) :
    t ∈ handed tr ∨ (∃ p, ProducerMade tr p ∧ ¬ ProducerGone tr p) ∨
      (step s (.pollTrack t.id)).1 = .err .cancel := by
  have hT := trks_reach h
  rcases hT.fate t ht with hh | ⟨k, hk, hz, hf⟩
  · exact .inl hh
  · right
    by_cases hex : ∃ p, ProducerMade tr p ∧ ¬ ProducerGone tr p
    · exact .inl hex
    · right
      have hnone : ∀ p, s.producers.get p = none := by
        intro p
        have := (tables_reach h).producers.live p
        cases hp : s.producers.get p with
        | none => rfl
        | some φ =>
          rw [hp] at this
          exact absurd ⟨p, this.1 rfl⟩ hex
      have hempty : s.queue = [] := by
        cases mode_reach h with
        | running _ hc _ _ =>
          have : s.producers.count = 0 := Slots.count_eq_zero.2 hnone
          omega
        | ending q φ hat _ _ _ _ _ => rw [hnone] at hat; cases hat
        | over _ _ he _ => exact he
      have hcl : k.closed = some (.error .cancel) := by
        rcases hf with hf | ⟨q, hf⟩ | hf
        · rw [hempty] at hf; cases hf
        · rw [hnone] at hf; cases hf
        · exact hf
      exact poll_cancelled hk hcl

/-- **C31**, what becomes of a track that was handed out (or was made by the producer): its readers
see exactly how its producers closed it last; if they never did, `Cancel` once the last producer
handle is gone, and until then they wait. -/
theorem c31_served {tr : Trace} {s : State} (h : machine.Reach tr s) {t : Ref} (hm : t ∈ made tr)
    (hs : t ∈ handed tr ∨ t ∉ requested tr) :
    (step s (.pollTrack t.id)).1 =
      match lastClose tr t.id with
      | some (.ok _) => .ok
      | some (.error e) => .err e
      | none => if holders tr t.id = 0 then .err .cancel else .pending := by
  have hT := trks_reach h
  have hS := serves_reach h
  rw [hT.made] at hm
  obtain ⟨hlt, hn⟩ := mem_refs.1 hm
  have href : s.ref t.id = t := by unfold State.ref; rw [hn]
  have hcl := hS.closed t.id hlt (by rw [href]; exact hs)
  have hheld := held_reach h t.id
  have hnw : ¬ (t.id ∈ s.queue ∨ s.Holds t.id) := by
    intro hx
    obtain ⟨a, b⟩ := hS.wait _ hx
    rw [href] at a b
    exact hs.elim b (fun hx => hx a)
  have hk := List.getElem?_eq_getElem hlt
  rw [← hcl, ← hheld]
  have hp : s.produced t.id = decide (0 < s.heldOf t.id) := by
    have h1 : t.id ∉ s.queue := fun hx => hnw (.inl hx)
    have h2 : s.producers.any (Phase.holds t.id) = false := by
      cases hx : s.producers.any (Phase.holds t.id) with
      | false => rfl
      | true => exact absurd (.inr ((holds_iff _ _).1 hx)) hnw
    simp [State.produced, State.heldOf, hk, h1, h2]
  simp only [step, if_pos hlt, State.trackClosed, State.closedOf, hk, Option.bind_some]
  cases hc : s.tracks[t.id].closed with
  | some r => cases r <;> simp
  | none =>
    simp only [hp]
    by_cases hz : s.heldOf t.id = 0
    · simp [hz]
    · have : 0 < s.heldOf t.id := by omega
      simp [hz, this]

example : (⟨"a", 0⟩ : Ref) ∈ made exampleTrace ∧ (⟨"a", 0⟩ : Ref) ∈ handed exampleTrace ∧
    lastClose exampleTrace 0 = none ∧ holders exampleTrace 0 = 1 := by
  refine ⟨by decide +kernel, by decide +kernel, rfl, by decide +kernel⟩

/-- A drop interleaved with subscriptions: one before the queue is closed, one after. -/
example :
    (machine.run [.consume 0, .dropProducer 0, .subscribe 0 "a", .dropStep 0, .subscribe 0 "b",
      .dropStep 0, .subscribe 0 "a", .dropStep 0, .dropStep 0, .dropStep 0, .dropStep 0,
      .pollTrack 0, .pollTrack 1]).1.map (·.2) =
    [.handle 0, .pending, .track ⟨"a", 0⟩, .pending, .track ⟨"b", 1⟩, .pending, .track ⟨"a", 0⟩,
      .pending, .pending, .pending, .ok, .err .cancel, .err .cancel] := by decide +kernel

/-! ## C32: the clean-up runs exactly when the last producer goes away -/

/-- **C32.**  The drop of a live producer handle begins the clean-up if and only if it is the last
one. -/
theorem c32_last_drop {tr : Trace} {s : State} (h : machine.Reach tr s) {p : Nat}
    (hl : Live tr p) :
    ((step s (.dropProducer p)).1 = .pending ↔ ∀ q, Live tr q → q = p) ∧
    ((step s (.dropProducer p)).1 ≠ .pending → (step s (.dropProducer p)).1 = .ok) := by
  obtain ⟨_, hp, hc, hall⟩ := live_open h hl
  have hcount := Slots.count_put_none hp
  have hlives := (lives_reach h).live
  simp only [step, hp]
  by_cases hpos : 0 < s.cloned
  · rw [if_pos hpos]
    refine ⟨⟨fun hx => by simp at hx, fun hx => ?_⟩, fun _ => rfl⟩
    exfalso
    have hz : (s.producers.put p none).count = 0 := by
      rw [Slots.count_eq_zero]
      intro q
      by_cases hq : p = q
      · subst hq; exact Slots.get_put_self _ hp
      · rw [Slots.get_put_ne _ hq]
        cases hg : s.producers.get q with
        | none => rfl
        | some φ =>
          have := hall q φ hg
          subst this
          exact absurd (hx q ((hlives q).1 hg)).symm hq
    omega
  · rw [if_neg hpos]
    refine ⟨⟨fun _ q hq => ?_, fun _ => rfl⟩, fun hx => absurd rfl hx⟩
    have hz : (s.producers.put p none).count = 0 := by omega
    have := Slots.count_eq_zero.1 hz q
    by_cases hpq : p = q
    · exact hpq.symm
    · rw [Slots.get_put_ne _ hpq, (hlives q).2 hq] at this
      cases this

/-- **C32.**  The clean-up begins at most once. -/
theorem c32_once {tr : Trace} {s : State} (h : machine.Reach tr s) : cleanups tr ≤ 1 := by
  cases mode_reach h with
  | running _ _ _ hn => omega
  | ending _ _ _ _ _ _ _ hn => omega
  | over _ _ _ hn => omega

/-- **C32.**  The clean-up was begun exactly if no live handle is left. -/
theorem c32_exactly {tr : Trace} {s : State} (h : machine.Reach tr s) :
    cleanups tr = 1 ↔ ¬ ∃ p, Live tr p := by
  have hlives := (lives_reach h).live
  cases hm : mode_reach h with
  | running _ hc hall hn =>
    refine ⟨fun hx => by omega, fun hx => ?_⟩
    exfalso
    have : s.producers.count = 0 := by
      rw [Slots.count_eq_zero]
      intro q
      cases hg : s.producers.get q with
      | none => rfl
      | some φ =>
        have := hall q φ hg
        subst this
        exact absurd ⟨q, (hlives q).1 hg⟩ hx
    omega
  | ending q φ hat hne hon _ _ hn =>
    refine ⟨fun _ => ?_, fun _ => hn⟩
    rintro ⟨p, hp⟩
    have hp := (hlives p).2 hp
    by_cases hpq : p = q
    · subst hpq; rw [hp] at hat; injection hat with hat; exact hne hat.symm
    · rw [hon p hpq] at hp; cases hp
  | over hno _ _ hn =>
    refine ⟨fun _ => ?_, fun _ => hn⟩
    rintro ⟨p, hp⟩
    have hp := (hlives p).2 hp
    rw [hno] at hp
    cases hp

/-- **C32.**  The effect of the clean-up: once every producer handle is gone, a subscription to
any name returns a track that is closed with `Cancel`. -/
theorem c32_effect {tr : Trace} {s : State} (h : machine.Reach tr s) {c : Nat}
    (hg : ∀ p, ProducerMade tr p → ProducerGone tr p) (hc : ConsumerAlive tr c) (n : String) :
    ∃ t, (step s (.subscribe c n)).1 = .track t ∧
      (step (step s (.subscribe c n)).2 (.pollTrack t.id)).1 = .err .cancel := by
  have hnone : ∀ p, s.producers.get p = none := by
    intro p
    have := (tables_reach h).producers.live p
    cases hp : s.producers.get p with
    | none => rfl
    | some φ =>
      rw [hp] at this
      obtain ⟨h1, h2⟩ := this.1 rfl
      exact absurd (hg p h1) h2
  have hcl : s.Cleared := fun p φ hp => by rw [hnone] at hp; cases hp
  have hq := (mode_reach h).cleared_closed hcl
  simp only [step, (consumer_get h).1 hc]
  cases hp : s.published n with
  | some t =>
    obtain ⟨k, hk, hz, hc⟩ := dead_reach h hcl n t hp
    exact ⟨⟨n, t⟩, rfl, poll_cancelled hk hc⟩
  | none =>
    refine ⟨⟨n, s.tracks.length⟩, by simp [hq], ?_⟩
    simp [hq, State.trackClosed]

/-- The drop of the last handle ends: repeating its step leads to the end of the drop. -/
theorem c32_drop_ends {s : State} {p : Nat} {φ : Phase} (hp : s.producers.get p = some φ)
    (hφ : φ ≠ .live) :
    ∃ k, (step (machine.runFrom s (List.replicate k (.dropStep p))).2 (.dropStep p)).1 = .ok := by
  -- the rest of the work: two steps per queued track and a few more
  have key : ∀ (m : Nat) (s : State) (φ : Phase), s.producers.get p = some φ → φ ≠ .live →
      2 * s.queue.length + (match φ with
        | .close => 5 | .drain none => 3 | .drain (some _) => 4 | .clear => 2 | .fields => 1
        | .live => 0) ≤ m →
      ∃ k, (step (machine.runFrom s (List.replicate k (.dropStep p))).2 (.dropStep p)).1 = .ok := by
    intro m
    induction m with
    | zero =>
      intro s φ hp hφ hm
      exfalso
      cases φ with
      | drain o => cases o <;> simp at hm
      | live => exact hφ rfl
      | _ => simp at hm
    | succ m ih =>
      intro s φ hp hφ hm
      have next : ∀ (s' : State) (ψ : Phase), (step s (.dropStep p)).2 = s' →
          s'.producers.get p = some ψ → ψ ≠ .live →
          2 * s'.queue.length + (match ψ with
            | .close => 5 | .drain none => 3 | .drain (some _) => 4 | .clear => 2 | .fields => 1
            | .live => 0) ≤ m →
          ∃ k, (step (machine.runFrom s (List.replicate k (.dropStep p))).2 (.dropStep p)).1 =
            .ok := by
        intro s' ψ hs hp' hψ hm'
        obtain ⟨k, hk⟩ := ih s' ψ hp' hψ hm'
        refine ⟨k + 1, ?_⟩
        rw [List.replicate_succ]
        simp only [Machine.runFrom]
        rw [hs]
        exact hk
      cases φ with
      | live => exact absurd rfl hφ
      | close =>
        refine next _ (.drain none) rfl (by simp [step, hp, Slots.get_put_self _ hp]) (by simp) ?_
        simp [step, hp] at hm ⊢
        omega
      | drain o =>
        cases o with
        | none =>
          cases hq : s.queue with
          | nil =>
            refine next _ .clear rfl (by simp [step, hp, hq, Slots.get_put_self _ hp]) (by simp) ?_
            simp [step, hp, hq] at hm ⊢
            omega
          | cons t q =>
            refine next _ (.drain (some t)) rfl
              (by simp [step, hp, hq, Slots.get_put_self _ hp]) (by simp) ?_
            simp [step, hp, hq] at hm ⊢
            omega
        | some t =>
          refine next _ (.drain none) rfl (by simp [step, hp, Slots.get_put_self _ hp]) (by simp) ?_
          simp [step, hp, State.setClosed] at hm ⊢
          omega
      | clear =>
        refine next _ .fields rfl (by simp [step, hp, Slots.get_put_self _ hp]) (by simp) ?_
        simp [step, hp] at hm ⊢
        omega
      | fields => exact ⟨0, by simp [Machine.runFrom, step, hp]⟩
  exact key _ s φ hp hφ (Nat.le_refl _)

example : Live exampleTrace 0 ∧ (step (machine.run exampleOps).2 (.dropProducer 0)).1 = .pending ∧
    (step (machine.run (exampleOps ++ [.cloneProducer 0])).2 (.dropProducer 0)).1 = .ok := by
  refine ⟨?_, by decide +kernel, by decide +kernel⟩
  simp [Live, ProducerMade, DropBegun, exampleTrace]

/-! ## C33: broadcast closure is observed exactly -/

theorem producers_zero {tr : Trace} {s : State} (h : machine.Reach tr s) :
    s.producers.count = 0 ↔ ∀ p, ProducerMade tr p → ProducerGone tr p := by
  rw [Slots.count_eq_zero]
  refine forall_congr' fun p => ?_
  have := (tables_reach h).producers.live p
  cases hg : s.producers.get p <;> simp_all

theorem unused_zero {tr : Trace} {s : State} (h : machine.Reach tr s) :
    s.unusedFutures.count = 0 ↔ ∀ f, UnusedMade tr f → UnusedGone tr f := by
  rw [Slots.count_eq_zero]
  refine forall_congr' fun p => ?_
  have := (tables_reach h).unused.live p
  cases hg : s.unusedFutures.get p <;> simp_all

theorem consumers_zero {tr : Trace} {s : State} (h : machine.Reach tr s) :
    s.consumers.count = 0 ↔ ∀ c, ConsumerMade tr c → ConsumerGone tr c := by
  rw [Slots.count_eq_zero]
  refine forall_congr' fun p => ?_
  have := (tables_reach h).consumers.live p
  cases hg : s.consumers.get p <;> simp_all

theorem closed_zero {tr : Trace} {s : State} (h : machine.Reach tr s) :
    s.closedFutures.count = 0 ↔ ∀ f, ClosedMade tr f → ClosedGone tr f := by
  rw [Slots.count_eq_zero]
  refine forall_congr' fun p => ?_
  have := (tables_reach h).closed.live p
  cases hg : s.closedFutures.get p <;> simp_all

/-- **C33**, partial: the closed notification is ready if and only if `finish` was called or every
producer handle is gone together with every `unused()` future.

Missing: an `unused()` future keeps the broadcast open although no producer handle is left, see
`c33_closed_delayed`. -/
theorem c33_closed_partial {tr : Trace} {s : State} (h : machine.Reach tr s) {f : Nat}
    (hf : ClosedMade tr f) (hd : ¬ ClosedGone tr f) :
    ((step s (.pollClosed f)).1 = .ok ↔
      (∃ p, (Op.finish p, Out.ok) ∈ tr) ∨
      ((∀ p, ProducerMade tr p → ProducerGone tr p) ∧
        ∀ g, UnusedMade tr g → UnusedGone tr g)) ∧
    ((step s (.pollClosed f)).1 ≠ .ok → (step s (.pollClosed f)).1 = .pending) := by
  have hT := tables_reach h
  have hl := (hT.closed.live f).2 ⟨hf, hd⟩
  obtain ⟨x, hx⟩ := Option.isSome_iff_exists.1 hl
  rw [← hT.finished, ← producers_zero h, ← unused_zero h]
  simp only [step, hx]
  have e : (s.producers.count = 0 ∧ s.unusedFutures.count = 0) ↔
      s.producers.count + s.unusedFutures.count = 0 := by omega
  rw [e]
  cases s.finished <;> simp

/-- **C33**, partial: the unused notification is ready if and only if every consumer handle is
gone together with every `closed()` future.

Missing: a `closed()` future keeps the broadcast in use although no consumer handle is left, see
`c33_unused_delayed`. -/
theorem c33_unused_partial {tr : Trace} {s : State} (h : machine.Reach tr s) {f : Nat}
    (hf : UnusedMade tr f) (hd : ¬ UnusedGone tr f) :
    ((step s (.pollUnused f)).1 = .ok ↔
      (∀ c, ConsumerMade tr c → ConsumerGone tr c) ∧ ∀ g, ClosedMade tr g → ClosedGone tr g) ∧
    ((step s (.pollUnused f)).1 ≠ .ok → (step s (.pollUnused f)).1 = .pending) := by
  have hT := tables_reach h
  have hl := (hT.unused.live f).2 ⟨hf, hd⟩
  obtain ⟨x, hx⟩ := Option.isSome_iff_exists.1 hl
  rw [← consumers_zero h, ← closed_zero h]
  simp only [step, hx]
  have e : (s.consumers.count = 0 ∧ s.closedFutures.count = 0) ↔
      s.consumers.count + s.closedFutures.count = 0 := by omega
  rw [e]
  by_cases hz : s.consumers.count + s.closedFutures.count = 0 <;> simp [hz]

/-- **C33 is violated by waiting futures**: every producer handle is gone, but a future waiting
for the broadcast to become unused keeps the closed notification pending. -/
theorem c33_closed_delayed :
    ∃ tr s, machine.Reach tr s ∧ (∀ p, ProducerMade tr p → ProducerGone tr p) ∧
      ClosedMade tr 0 ∧ ¬ ClosedGone tr 0 ∧ (step s (.pollClosed 0)).1 = .pending := by
  have hr := machine.reach_run [.consume 0, .closed 0, .unused 0, .dropProducer 0, .dropStep 0,
    .dropStep 0, .dropStep 0, .dropStep 0]
  have e : (machine.run [.consume 0, .closed 0, .unused 0, .dropProducer 0, .dropStep 0,
      .dropStep 0, .dropStep 0, .dropStep 0]).1 =
    [(.consume 0, .handle 0), (.closed 0, .handle 0), (.unused 0, .handle 0),
      (.dropProducer 0, .pending), (.dropStep 0, .pending), (.dropStep 0, .pending),
      (.dropStep 0, .pending), (.dropStep 0, .ok)] := by decide +kernel
  refine ⟨_, _, hr, ?_, ?_, ?_, by decide +kernel⟩
  · rw [e]; simp [ProducerMade, ProducerGone]
  · rw [e]; simp [ClosedMade]
  · rw [e]; simp [ClosedGone]

/-- **C33 is violated by waiting futures**: every consumer handle is gone, but a future waiting
for the broadcast to be closed keeps the unused notification pending. -/
theorem c33_unused_delayed :
    ∃ tr s, machine.Reach tr s ∧ (∀ c, ConsumerMade tr c → ConsumerGone tr c) ∧
      UnusedMade tr 0 ∧ ¬ UnusedGone tr 0 ∧ (step s (.pollUnused 0)).1 = .pending := by
  have hr := machine.reach_run [.consume 0, .closed 0, .unused 0, .dropConsumer 0]
  have e : (machine.run [.consume 0, .closed 0, .unused 0, .dropConsumer 0]).1 =
    [(.consume 0, .handle 0), (.closed 0, .handle 0), (.unused 0, .handle 0),
      (.dropConsumer 0, .ok)] := by decide +kernel
  refine ⟨_, _, hr, ?_, ?_, ?_, by decide +kernel⟩
  · rw [e]; simp [ConsumerMade, ConsumerGone]
  · rw [e]; simp [UnusedMade]
  · rw [e]; simp [UnusedGone]

/-! ## C74: the result of `insert` -/

/-- **C74.**  `insert` reports that the name was free if and only if a subscription to this name at
that moment would have made a new track. -/
theorem c74_unique {tr : Trace} {s : State} (h : machine.Reach tr s) {p c : Nat} {t : Ref}
    {unique : Bool} (hi : (step s (.insert p t)).1 = .inserted unique) (hc : ConsumerAlive tr c) :
    unique = true ↔ ∃ u, (step s (.subscribe c t.name)).1 = .track u ∧ u ∉ made tr := by
  have hT := trks_reach h
  have hu : unique = (s.published t.name).isNone := by
    revert hi
    simp only [step]
    repeat' split
    all_goals intro hi; first | (injection hi with hi; exact hi.symm) | cases hi
  subst hu
  simp only [step, (consumer_get h).1 hc]
  cases hp : s.published t.name with
  | some u =>
    simp only [Option.isNone_some, Bool.false_eq_true, false_iff]
    rintro ⟨v, hv, hn⟩
    injection hv with hv
    subst hv
    rw [hT.made] at hn
    exact hn (hT.pub _ _ hp)
  | none =>
    simp only [Option.isNone_none, true_iff]
    refine ⟨⟨t.name, s.tracks.length⟩, ?_, by rw [hT.made]; exact fresh_not_mem s _⟩
    split <;> rfl

/-- **C74.**  After `insert` a subscription to the name returns the inserted track, whatever was
there before. -/
theorem c74_visible {tr : Trace} {s : State} (h : machine.Reach tr s) {p c : Nat} {t : Ref}
    {unique : Bool} (hi : (step s (.insert p t)).1 = .inserted unique) (hc : ConsumerAlive tr c) :
    (step (step s (.insert p t)).2 (.subscribe c t.name)).1 = .track t := by
  have hc' := (consumer_get h).1 hc
  have hs : (step s (.insert p t)).2 = s.insertTrack t := by
    revert hi
    simp only [step]
    repeat' split
    all_goals intro hi; first | rfl | cases hi
  rw [hs]
  simp [step, State.insertTrack, hc', Broadcast.bind]

/-- **C74.**  A live producer can insert any existing track. -/
theorem c74_possible {tr : Trace} {s : State} (h : machine.Reach tr s) {p : Nat} {t : Ref}
    (hl : Live tr p) (hm : t ∈ made tr) : ∃ unique, (step s (.insert p t)).1 = .inserted unique := by
  rw [(trks_reach h).made] at hm
  refine ⟨(s.published t.name).isNone, ?_⟩
  simp only [step, (live_open h hl).2.1, if_pos (mem_refs.1 hm)]

/-- The producer inserts its own "a" over a requested one. -/
example : (machine.run [.consume 0, .subscribe 0 "a", .newTrack "a", .insert 0 ⟨"a", 1⟩,
      .subscribe 0 "a", .newTrack "b", .insert 0 ⟨"b", 2⟩]).1.map (·.2) =
    [.handle 0, .track ⟨"a", 0⟩, .track ⟨"a", 1⟩, .inserted false, .track ⟨"a", 1⟩,
      .track ⟨"b", 2⟩, .inserted true] := by decide +kernel

end Verif.Props.Broadcast
