import Verif.Session.AnnounceLemmas
import Verif.Session.Remote
import Verif.Props.Origin

/-!
# Properties of announce streams (C42–C44)
-/

set_option autoImplicit false

namespace Verif.Props.Announce

open Verif Verif.Session Verif.Session.Announce Verif.Session.Announce.Spec
open Verif.Model.Origin (Path)

/-! ## C42: the announce stream is a well-formed history -/

/-- **C42, unannouncements.**  At every point of an announce stream, a suffix was unannounced at
most as often as it was announced: every Ended message has an Active message of its own before
it.  This holds in every execution. -/
theorem c42_ended_matched {tr : List (Sender.Op × Sender.Out)} {s : Sender.State}
    (h : Sender.machine.Reach tr s) {l : List Msg} (hl : l <+: sent tr) (suffix : Path) :
    endeds l suffix ≤ actives l suffix := by
  revert hl
  refine Machine.Reach.induct (M := Sender.machine)
    (P := fun tr _ => l <+: sent tr → endeds l suffix ≤ actives l suffix) ?_ ?_ h
  · intro hl
    rw [show sent [] = [] from rfl, List.prefix_nil] at hl
    subst hl
    simp [actives, endeds]
  · intro tr s op hreach ih hl
    have hw := (Sender.weak_reach (.step op hreach)).always suffix
    rw [Sender.sent_snoc] at hl hw
    have hcases : sent [(op, (Sender.step s op).1)] = [] ∨
        ∃ m, sent [(op, (Sender.step s op).1)] = [m] := by
      cases (Sender.step s op).1 <;> simp [sent]
    rcases hcases with h0 | ⟨m, h1⟩
    · rw [h0, List.append_nil] at hl
      exact ih hl
    · rw [h1] at hl hw
      rw [List.prefix_concat_iff] at hl
      rcases hl with rfl | hl
      · exact hw
      · exact ih hl

/-- **C42, partial.**  If broadcasts are announced only under suffixes that are not announced at
that moment, the stream is well-formed: no suffix is announced twice without being unannounced in
between, and none is unannounced that is not announced.

Missing: without the hypothesis this is false, see `c42_active_twice`. -/
theorem c42_wellformed_partial {tr : List (Sender.Op × Sender.Out)} {s : Sender.State}
    (h : Sender.machine.Reach tr s) (hp : Polite tr) : WellFormed (sent tr) :=
  (Sender.strong_reach h hp).wf

/-- **C42, partial: end.**  Under the same hypothesis a stream that was finished leaves nothing
announced.

Missing: without the hypothesis this is false, see `c42_left_announced`. -/
theorem c42_settled_partial {tr : List (Sender.Op × Sender.Out)} {s : Sender.State}
    (h : Sender.machine.Reach tr s) (hp : Polite tr)
    (hf : (Sender.Op.drain, Sender.Out.finished) ∈ tr) : Settled (sent tr) :=
  (Sender.strong_reach h hp).finished (Sender.finished_stage h hf)

/-- **C42, truth.**  While announcements are still coming, a suffix is unannounced only if a
broadcast was announced under it that has been closed. -/
theorem c42_truth {tr : List (Sender.Op × Sender.Out)} {s : Sender.State}
    (h : Sender.machine.Reach tr s) (hl : ¬ Left tr) {op : Sender.Op} {x : Path}
    (ho : (Sender.step s op).1 = .sent (.ended x)) :
    ∃ bc, (x, bc) ∈ announces tr ∧ IsClosed tr bc := by
  obtain ⟨gone, hw⟩ := watched_reach h
  have hs := hw.left.2 hl
  cases op with
  | task i =>
    simp only [Sender.step, hs] at ho
    split at ho
    · cases ho
    · rename_i suffix bc ht
      split at ho
      · rename_i hc
        cases ho
        exact ⟨bc, hw.perm.mem_iff.2 (List.mem_append_left _ (List.mem_of_getElem? ht)),
          (hw.closed bc).1 hc⟩
      · cases ho
  | announce suffix bc => simp [Sender.step, hs] at ho
  | exhausted order => simp only [Sender.step, hs] at ho; split at ho <;> cases ho
  | close bc => simp [Sender.step] at ho
  | drain => simp [Sender.step, hs] at ho
  | stop => simp [Sender.step, hs] at ho

open Classical in
/-- **C42, noticed.**  While announcements are still coming, if a suffix was unannounced less
often than broadcasts announced under it were closed, the sender can unannounce it at once. -/
theorem c42_noticed {tr : List (Sender.Op × Sender.Out)} {s : Sender.State}
    (h : Sender.machine.Reach tr s) (hl : ¬ Left tr) {x : Path}
    (hn : endeds (sent tr) x <
      (announces tr).countP fun e => e.1 = x ∧ IsClosed tr e.2) :
    ∃ i, (Sender.step s (.task i)).1 = .sent (.ended x) := by
  obtain ⟨gone, hw⟩ := watched_reach h
  have hs := hw.left.2 hl
  rw [hw.perm.countP_eq, List.countP_append, ← hw.count hs x] at hn
  have hg : gone.countP (fun e => decide (e.1 = x ∧ IsClosed tr e.2)) ≤
      gone.countP (fun e => e.1 = x) :=
    List.countP_mono_left fun e _ h => by simp only [decide_eq_true_eq] at h ⊢; exact h.1
  have ht : 0 < s.tasks.countP (fun e => decide (e.1 = x ∧ IsClosed tr e.2)) := by omega
  obtain ⟨⟨y, bc⟩, hm, hp⟩ := List.countP_pos_iff.1 ht
  simp only [decide_eq_true_eq] at hp
  obtain ⟨i, hi⟩ := List.getElem?_of_mem hm
  refine ⟨i, ?_⟩
  simp only [Sender.step, hs, hi]
  rw [if_pos ((hw.closed bc).2 hp.2), hp.1]

/-- A broadcast is closed, and the sender has not noticed yet; another one is open. -/
def unnoticed : List Sender.Op := [.announce ['a'] 1, .announce ['b'] 2, .close 1]

example : endeds (sent (Sender.machine.run unnoticed).1) ['a'] = 0 ∧
    announces (Sender.machine.run unnoticed).1 = [(['a'], 1), (['b'], 2)] ∧
    (Sender.step (Sender.machine.run unnoticed).2 (.task 0)).1 = .sent (.ended ['a']) ∧
    (Sender.step (Sender.machine.run unnoticed).2 (.task 1)).1 = .pending := by decide +kernel

example : IsClosed (Sender.machine.run unnoticed).1 1 ∧ ¬ Left (Sender.machine.run unnoticed).1 := by
  rw [show (Sender.machine.run unnoticed).1 = [(.announce ['a'] 1, .sent (.active ['a'])),
    (.announce ['b'] 2, .sent (.active ['b'])), (.close 1, .ok)] by decide +kernel]
  simp [IsClosed, Left]

/-- A broadcast is closed and another one is published at its path before the sender notices. -/
def republish : List Sender.Op := [.announce ['a'] 1, .close 1, .announce ['a'] 2, .task 0]

/-- **C42 is violated**: the suffix is announced twice without being unannounced in between. -/
theorem c42_active_twice :
    ∃ tr s, Sender.machine.Reach tr s ∧ ¬ WellFormed (sent tr) := by
  refine ⟨_, _, Sender.machine.reach_run republish, ?_⟩
  intro h
  exact absurd (h [.active ['a'], .active ['a']] (by decide +kernel) ['a']) (by decide +kernel)

/-- The same, and then the origin goes away. -/
def republishEnd : List Sender.Op :=
  [.announce ['a'] 1, .close 1, .announce ['a'] 2, .task 0, .exhausted [], .drain]

/-- **C42 is violated**: the stream is finished cleanly and leaves the suffix announced once more
than unannounced. -/
theorem c42_left_announced :
    ∃ tr s, Sender.machine.Reach tr s ∧ (Sender.Op.drain, Sender.Out.finished) ∈ tr ∧
      ¬ Settled (sent tr) := by
  refine ⟨_, _, Sender.machine.reach_run republishEnd, by decide +kernel, ?_⟩
  intro h
  exact absurd (h ['a']) (by decide +kernel)

/-- A polite history, with a path that is published again after it was unannounced. -/
def polite : List Sender.Op :=
  [.announce ['a'] 1, .announce ['b'] 2, .close 1, .task 1, .task 0, .announce ['a'] 3,
   .exhausted [['a'], ['b']], .drain, .drain, .drain]

example : Sender.machine.Reach (Sender.machine.run polite).1 (Sender.machine.run polite).2 :=
  Sender.machine.reach_run polite

example : sent (Sender.machine.run polite).1 =
    [.active ['a'], .active ['b'], .ended ['a'], .active ['a'], .ended ['a'], .ended ['b']] ∧
    (Sender.Op.drain, Sender.Out.finished) ∈ (Sender.machine.run polite).1 := by
  decide +kernel

example : Polite (Sender.machine.run polite).1 := by
  intro t₁ t₂ x bc h
  have hl : t₁.length < 10 := by
    have := congrArg List.length h
    rw [show (Sender.machine.run polite).1.length = 10 by decide +kernel] at this
    simp at this
    omega
  have ht : t₁ = (Sender.machine.run polite).1.take t₁.length := by rw [h]; simp
  have hx : (Sender.machine.run polite).1[t₁.length]? =
      some (.announce x bc, .sent (.active x)) := by rw [h]; simp
  generalize t₁.length = n at hl ht hx
  subst ht
  have hk : ∀ n < 10, ∀ x bc, (Sender.machine.run polite).1[n]? =
      some (.announce x bc, .sent (.active x)) → (n = 0 ∧ x = ['a']) ∨ (n = 1 ∧ x = ['b']) ∨
        (n = 5 ∧ x = ['a']) := by
    intro n hn x bc hx
    rw [show (Sender.machine.run polite).1 =
      [(.announce ['a'] 1, .sent (.active ['a'])), (.announce ['b'] 2, .sent (.active ['b'])),
       (.close 1, .ok), (.task 1, .pending), (.task 0, .sent (.ended ['a'])),
       (.announce ['a'] 3, .sent (.active ['a'])), (.exhausted [['a'], ['b']], .ok),
       (.drain, .sent (.ended ['a'])), (.drain, .sent (.ended ['b'])), (.drain, .finished)] from ?_] at hx
    · match n, hn with
      | 0, _ => simp at hx; simp [hx.1.1]
      | 1, _ => simp at hx; simp [hx.1.1]
      | 5, _ => simp at hx; simp [hx.1.1]
      | 2, _ | 3, _ | 4, _ | 6, _ | 7, _ | 8, _ | 9, _ => simp at hx
    · decide +kernel
  rcases hk n hl x bc hx with ⟨rfl, rfl⟩ | ⟨rfl, rfl⟩ | ⟨rfl, rfl⟩ <;> decide +kernel

/-! ## C43: the receiver mirrors the announcements -/

/-- **C43, mirror.**  As long as no message was rejected, the origin of the receiver has an open
broadcast at a suffix if and only if the suffix is announced and not unannounced. -/
theorem c43_mirror {tr : List (Receiver.Op × Receiver.Out)} {s : Receiver.State}
    (h : Receiver.machine.Reach tr s) (hf : ¬ Failed tr) (suffix : Path) :
    (∃ bc, Model.Origin.get s.active suffix = some bc ∧ bc ∉ s.closed) ↔
      Announced (accepted tr) suffix := by
  have hm := Receiver.mirror_reach h hf
  have hb := hm.balance suffix
  unfold Announced
  cases hg : Model.Origin.get s.producers suffix with
  | none =>
    rw [hg, if_pos rfl] at hb
    constructor
    · rintro ⟨bc, h1⟩
      rw [(hm.producers suffix bc).2 h1] at hg
      cases hg
    · intro; omega
  | some bc =>
    rw [hg, if_neg (by simp)] at hb
    exact ⟨fun _ => hb, fun _ => ⟨bc, (hm.producers suffix bc).1 hg⟩⟩

/-- **C43, malformed streams.**  What is accepted is always well-formed, so a stream that is not
is rejected at the first bad message or before. -/
theorem c43_accepted {tr : List (Receiver.Op × Receiver.Out)} {s : Receiver.State}
    (h : Receiver.machine.Reach tr s) (hf : ¬ Failed tr) : WellFormed (accepted tr) := by
  revert hf
  refine Machine.Reach.induct (M := Receiver.machine)
    (P := fun tr _ => ¬ Failed tr → WellFormed (accepted tr)) ?_ ?_ h
  · exact fun _ => wellFormed_nil
  · intro tr s op hreach ih hf
    have hb := (Receiver.mirror_reach (.step op hreach) hf).balance
    have ih := ih (Receiver.failed_snoc hf)
    rw [Receiver.accepted_snoc] at hb ⊢
    have hcases : accepted [(op, (Receiver.step s op).1)] = [] ∨
        ∃ m, accepted [(op, (Receiver.step s op).1)] = [m] := by
      cases op <;> cases (Receiver.step s _).1 <;> simp [accepted]
    rcases hcases with h0 | ⟨m, h1⟩
    · show WellFormed (accepted tr ++ accepted [(op, (Receiver.step s op).1)])
      rw [h0, List.append_nil]
      exact ih
    · show WellFormed (accepted tr ++ accepted [(op, (Receiver.step s op).1)])
      rw [h1]
      refine wellFormed_snoc ih ?_
      intro x
      have hx := hb x
      rw [show accepted [(op, (Receiver.machine.step s op).1)] = [m] from h1] at hx
      split at hx <;> omega

/-- **C43, rejection.**  While the receiver is running, announcing an announced suffix is
rejected with Duplicate and unannouncing any other is rejected with NotFound; after a rejection
nothing more is processed. -/
theorem c43_reject {tr : List (Receiver.Op × Receiver.Out)} {s : Receiver.State}
    (h : Receiver.machine.Reach tr s) (suffix : Path) :
    (¬ Failed tr → ¬ Over tr → Announced (accepted tr) suffix →
      (Receiver.step s (.msg (.active suffix))).1 = .err .duplicate) ∧
    (¬ Failed tr → ¬ Over tr → ¬ Announced (accepted tr) suffix →
      (Receiver.step s (.msg (.ended suffix))).1 = .err .notFound) ∧
    (Failed tr → ∀ m, (Receiver.step s (.msg m)).1 = .invalid) := by
  have hr := Receiver.result_reach h
  refine ⟨?_, ?_, ?_⟩
  · intro hf ho ha
    obtain ⟨bc, h1, _⟩ := (c43_mirror h hf suffix).2 ha
    simp only [Receiver.step]
    rw [hr.2 ⟨hf, ho⟩, h1]
  · intro hf ho ha
    have hm := Receiver.mirror_reach h hf
    have hg : Model.Origin.get s.producers suffix = none := by
      cases hg : Model.Origin.get s.producers suffix with
      | none => rfl
      | some bc => exact absurd ((c43_mirror h hf suffix).1 ⟨bc, (hm.producers _ _).1 hg⟩) ha
    simp only [Receiver.step]
    rw [hr.2 ⟨hf, ho⟩, hg]
  · intro hf m
    cases hres : s.result with
    | none => exact absurd hf (hr.1 hres).1
    | some r => cases m <;> simp only [Receiver.step] <;> rw [hres]

/-- **C43, result.**  The receiver returns Ok exactly when the stream has ended cleanly, and an
error exactly when it has rejected a message with that error. -/
theorem c43_result {tr : List (Receiver.Op × Receiver.Out)} {s : Receiver.State}
    (h : Receiver.machine.Reach tr s) :
    (s.result = some (.ok ()) ↔ (Receiver.Op.fin, Receiver.Out.ok) ∈ tr) ∧
    ∀ e, s.result = some (.error e) ↔ ∃ m, (Receiver.Op.msg m, Receiver.Out.err e) ∈ tr := by
  refine Machine.Reach.induct (M := Receiver.machine)
    (P := fun tr s =>
      (s.result = some (.ok ()) ↔ (Receiver.Op.fin, Receiver.Out.ok) ∈ tr) ∧
      ∀ e, s.result = some (.error e) ↔ ∃ m, (Receiver.Op.msg m, Receiver.Out.err e) ∈ tr) ?_ ?_ h
  · simp [Receiver.machine, Receiver.init]
  · intro tr s op _ ih
    show ((Receiver.step s op).2.result = _ ↔ _ ∈ tr ++ [(op, (Receiver.step s op).1)]) ∧
      ∀ e, (Receiver.step s op).2.result = _ ↔ ∃ m, _ ∈ tr ++ [(op, (Receiver.step s op).1)]
    cases op with
    | msg m =>
      cases m <;> simp only [Receiver.step] <;> split <;> (try split) <;>
        simp_all [List.mem_append] <;> exact fun e => eq_comm
    | fin => simp only [Receiver.step]; split <;> simp_all
    | task i =>
      simp only [Receiver.step]; split <;> (try split) <;> simp_all

/-- **C43, partial: acceptance.**  While the receiver is running, unannouncing an announced
suffix is accepted, and announcing a suffix that is not announced is accepted provided that the
clean-up of its earlier broadcasts has been processed.

Missing: the proviso is needed, see `c43_spurious`. -/
theorem c43_accept_partial {tr : List (Receiver.Op × Receiver.Out)} {s : Receiver.State}
    (h : Receiver.machine.Reach tr s) (hf : ¬ Failed tr) (ho : ¬ Over tr) (suffix : Path) :
    (Announced (accepted tr) suffix → (Receiver.step s (.msg (.ended suffix))).1 = .ok) ∧
    (¬ Announced (accepted tr) suffix → removals tr suffix = endeds (accepted tr) suffix →
      (Receiver.step s (.msg (.active suffix))).1 = .ok) := by
  have hr := (Receiver.result_reach h).2 ⟨hf, ho⟩
  have hm := Receiver.mirror_reach h hf
  refine ⟨?_, ?_⟩
  · intro ha
    obtain ⟨bc, h1⟩ := (c43_mirror h hf suffix).2 ha
    have hg := (hm.producers suffix bc).2 h1
    simp only [Receiver.step]
    rw [hr, hg]
  · intro ha he
    have hd := hm.gone suffix
    have hg : Model.Origin.get s.active suffix = none := by
      cases hg : Model.Origin.get s.active suffix with
      | none => rfl
      | some bc =>
        unfold Receiver.dead at hd
        rw [hg] at hd
        simp only [] at hd
        split at hd
        · omega
        · rename_i hc
          exact absurd ((c43_mirror h hf suffix).1 ⟨bc, hg, hc⟩) ha
    simp only [Receiver.step]
    rw [hr, hg]

/-- **C43, clean-up happens.**  Whenever a clean-up is outstanding, there is a task for it that is
ready to run, and running it processes the clean-up; so the proviso of `c43_accept_partial` can
always be reached without receiving any message. -/
theorem c43_cleanup {tr : List (Receiver.Op × Receiver.Out)} {s : Receiver.State}
    (h : Receiver.machine.Reach tr s) (hf : ¬ Failed tr) (suffix : Path)
    (hne : removals tr suffix ≠ endeds (accepted tr) suffix) :
    ∃ i, (Receiver.step s (.task i)).1 = .removed suffix ∧
      removals (tr ++ [(.task i, .removed suffix)]) suffix = endeds (accepted tr) suffix := by
  have hm := Receiver.mirror_reach h hf
  have hd := hm.gone suffix
  unfold Receiver.dead at hd
  cases hg : Model.Origin.get s.active suffix with
  | none => rw [hg] at hd; simp only [] at hd; omega
  | some bc =>
    rw [hg] at hd
    simp only [] at hd
    split at hd
    · rename_i hc
      obtain ⟨i, hi⟩ := List.getElem?_of_mem ((hm.tasks suffix bc).1 hg)
      refine ⟨i, ?_, ?_⟩
      · simp only [Receiver.step]
        rw [hi]
        simp only []
        rw [if_pos hc]
      · rw [Receiver.removals_snoc, if_pos rfl, hd]
    · omega

/-- A suffix is announced, unannounced and announced again. -/
def again : List Receiver.Op :=
  [.msg (.active ['a']), .msg (.ended ['a']), .msg (.active ['a'])]

/-- **C43 is violated**: a well-formed sequence of messages is rejected with Duplicate, because
the origin has not yet processed the closure of the first broadcast. -/
theorem c43_spurious :
    ∃ tr s, Receiver.machine.Reach tr s ∧
      tr.map (·.1) = [.msg (.active ['a']), .msg (.ended ['a']), .msg (.active ['a'])] ∧
      WellFormed [.active ['a'], .ended ['a'], .active ['a']] ∧
      (Receiver.Op.msg (.active ['a']), Receiver.Out.err .duplicate) ∈ tr := by
  refine ⟨_, _, Receiver.machine.reach_run again, by decide +kernel, ?_, by decide +kernel⟩
  refine wellFormed_snoc (l := [.active ['a'], .ended ['a']])
    (wellFormed_snoc (l := [.active ['a']]) (wellFormed_snoc (l := []) wellFormed_nil ?_) ?_) ?_ <;>
  · intro x
    by_cases hx : x = ['a']
    · subst hx; decide +kernel
    · have hx' : ¬ ['a'] = x := fun hh => hx hh.symm
      simp [actives, endeds, hx']

/-- Two suffixes, one of them announced, unannounced and announced again after the clean-up. -/
def mirrored : List Receiver.Op :=
  [.msg (.active ['a']), .msg (.active ['b']), .msg (.ended ['a']), .task 1, .task 0,
   .msg (.active ['a']), .msg (.ended ['b'])]

example : (Receiver.machine.run mirrored).1.map (·.2) =
    [.ok, .ok, .ok, .pending, .removed ['a'], .ok, .ok] ∧
    accepted (Receiver.machine.run mirrored).1 =
      [.active ['a'], .active ['b'], .ended ['a'], .active ['a'], .ended ['b']] ∧
    Model.Origin.get (Receiver.machine.run mirrored).2.active ['a'] = some 2 ∧
    2 ∉ (Receiver.machine.run mirrored).2.closed ∧
    Model.Origin.get (Receiver.machine.run mirrored).2.active ['b'] = some 1 ∧
    1 ∈ (Receiver.machine.run mirrored).2.closed := by
  decide +kernel

example : ¬ Failed (Receiver.machine.run mirrored).1 ∧ ¬ Over (Receiver.machine.run mirrored).1 := by
  have h : ∀ e ∈ (Receiver.machine.run mirrored).1, e.2 = .ok ∨ e.2 = .pending ∨ e.2 = .removed ['a'] := by
    decide +kernel
  refine ⟨?_, show ¬ ((_, _) ∈ _) by decide +kernel⟩
  rintro ⟨m, e, hm⟩
  have := h _ hm
  simp at this

/-! ## C44: consuming a prefix of a remote -/

section
open Verif.Model.Origin Verif.Model.Origin.Spec Verif.Session.Remote

/-- **C44, what is delivered.**  The local consumer receives nothing but what a second removal of
the prefix leaves of the announcements, in order.  (`under pre` is what a consumer with the prefix
`pre` is to see of a list of publications; the announcements sent by the remote, `delivered ta c`,
already are such a list by C34 and C35.) -/
theorem c44_prefix {c : Nat} {pre : Path} {ta tb : Trace} {a b : State}
    {flight : List (Path × Nat)} (h : Remote c pre ta a tb b flight) :
    delivered tb 0 <+: under pre (delivered ta c) := by
  obtain ⟨h1, _, _, h4⟩ := h.flow
  rw [← h1]
  exact (Origin.c34_prefix h.reach.2 h4).trans (List.prefix_append _ _)

/-- **C44, partial.**  With the empty prefix, the local consumer receives the announcements of
the remote, in order and unchanged; and when there is nothing more to do on either side, it has
received every broadcast the remote has, under the path it has there.

Missing: for other prefixes this is false, see `c44_filtered_again`. -/
theorem c44_all_partial {c : Nat} {ta tb : Trace} {a b : State}
    {flight : List (Path × Nat)} (h : Remote c [] ta a tb b flight) :
    delivered tb 0 <+: delivered ta c ∧
    (flight = [] → Clean ta c → ConsumerAlive ta c → ¬ Publishing ta → ¬ Publishing tb →
      ¬ ConsumerGone tb 0 →
      (step a (.check c)).1 = .empty → (step b (.check 0)).1 = .empty →
      delivered tb 0 = expected ta c) := by
  have hu : ∀ l : List (Path × Nat), under [] l = l := by
    intro l
    induction l with
    | nil => rfl
    | cons e l ih =>
      rw [show e :: l = [e] ++ l from rfl, under_append, ih]
      simp [under, without]
  refine ⟨?_, ?_⟩
  · have := c44_prefix h
    rwa [hu] at this
  · intro hfl hc ha hpa hpb hg hea heb
    obtain ⟨h1, _, h3, h4⟩ := h.flow
    rw [hfl, hu, hu, List.append_nil] at h1
    rw [← Origin.c34_complete h.reach.1 hc ha hpa hea, ← h1]
    exact Origin.c34_complete h.reach.2 h4 ⟨h3, hg⟩ hpb heb

/-- **C44, what is subscribed to.**  A broadcast the local consumer received with the empty
prefix is requested from the remote under the path at which it was published there. -/
theorem c44_subscribe_partial {c : Nat} {ta tb : Trace} {a b : State}
    {flight : List (Path × Nat)} (h : Remote c [] ta a tb b flight) {path : Path} {bc : Nat}
    (hd : (path, bc) ∈ delivered tb 0) (id : Nat) (track : String) (priority : UInt8) :
    ∃ q, (Op.publishStart q (subscribeMessage id path track priority).broadcast.toList bc, Out.ok) ∈ ta := by
  obtain ⟨q, hq⟩ := Origin.c35_prefix h.reach.1 ((c44_all_partial h).1.subset hd)
  rw [h.prefix] at hq
  exact ⟨q, by simpa [subscribeMessage] using hq⟩

/-- The remote origin has one broadcast, at `"x/y"`, and a consumer for `"x/"`. -/
def remote : List Op :=
  [.publishStart 0 ['x', '/', 'y'] 7, .publishStep, .consumePrefix 0 ['x', '/'] [(['x', '/', 'y'], 7)]]

/-- The local origin after the announcement was received. -/
def mirror : List Op :=
  [.consumePrefix 0 ['x', '/'] [], .publishStart 0 ['y'] 7, .publishStep, .publishStep]

/-- **C44 is violated.**  The remote has a broadcast under the prefix `"x/"`.  It is announced and
received, and nothing is left to do; but the local consumer for this prefix gets nothing, because
the announced suffix `"y"` is filtered by the prefix again. -/
theorem c44_filtered_again :
    ∃ ta a tb b, Remote 0 ['x', '/'] ta a tb b [] ∧
      expected ta 0 = [(['y'], 7)] ∧ delivered tb 0 = [] ∧
      (step a (.check 0)).1 = .empty ∧ (step b (.check 0)).1 = .empty := by
  have h0 : Remote 0 ['x', '/'] (machine.run remote).1 (machine.run remote).2 _ _ [] :=
    .start (machine.reach_run remote)
      ⟨by decide +kernel, show ¬ ((_, _) ∈ _) by decide +kernel⟩
      (by decide +kernel) (by decide +kernel)
  have h1 := Remote.send (suffix := ['y']) (bc := 7) (by decide +kernel) h0
  have h2 := Remote.receive (by decide +kernel) h1
  have h3 := Remote.target .publishStep (fun hh => hh) h2
  have h4 := Remote.target .publishStep (fun hh => hh) h3
  refine ⟨_, _, _, _, h4, ?_, ?_, ?_, ?_⟩ <;> decide +kernel

/-- **C44 is violated.**  A consumer of the whole local origin would see the broadcast at `"y"`; but a
track of it is requested under that path, which the remote does not have. -/
theorem c44_wrong_path :
    ∃ ta a tb b, Remote 0 ['x', '/'] ta a tb b [] ∧ available tb ['y'] = some 7 ∧
      available ta ['x', '/', 'y'] = some 7 ∧
      (∀ id track priority, (subscribeMessage id ['y'] track priority).broadcast.toList = ['y']) ∧
      (step a (.lookup 0 ['y'])).1 = .notFound := by
  have h0 : Remote 0 ['x', '/'] (machine.run remote).1 (machine.run remote).2 _ _ [] :=
    .start (machine.reach_run remote)
      ⟨by decide +kernel, show ¬ ((_, _) ∈ _) by decide +kernel⟩
      (by decide +kernel) (by decide +kernel)
  have h1 := Remote.send (suffix := ['y']) (bc := 7) (by decide +kernel) h0
  have h2 := Remote.receive (by decide +kernel) h1
  have h3 := Remote.target .publishStep (fun hh => hh) h2
  have h4 := Remote.target .publishStep (fun hh => hh) h3
  refine ⟨_, _, _, _, h4, by decide +kernel, by decide +kernel, ?_, by decide +kernel⟩
  intro id track priority
  simp [subscribeMessage]

/-- With the empty prefix the broadcast arrives. -/
example :
    ∃ ta a tb b, Remote 0 [] ta a tb b [] ∧
      expected ta 0 = [(['x', '/', 'y'], 7)] ∧ delivered tb 0 = [(['x', '/', 'y'], 7)] ∧
      (step a (.check 0)).1 = .empty ∧ (step b (.check 0)).1 = .empty := by
  have h0 : Remote 0 [] (machine.run [.publishStart 0 ['x', '/', 'y'] 7, .publishStep,
      .consumePrefix 0 [] [(['x', '/', 'y'], 7)]]).1 _ _ _ [] :=
    .start (machine.reach_run _)
      ⟨by decide +kernel, show ¬ ((_, _) ∈ _) by decide +kernel⟩
      (by decide +kernel) (by decide +kernel)
  have h1 := Remote.send (suffix := ['x', '/', 'y']) (bc := 7) (by decide +kernel) h0
  have h2 := Remote.receive (by decide +kernel) h1
  have h3 := Remote.target .publishStep (fun hh => hh) h2
  have h4 := Remote.target .publishStep (fun hh => hh) h3
  have h5 := Remote.target (.check 0) (fun hh => hh) h4
  refine ⟨_, _, _, _, h5, ?_, ?_, ?_, ?_⟩ <;> decide +kernel

end

end Verif.Props.Announce
