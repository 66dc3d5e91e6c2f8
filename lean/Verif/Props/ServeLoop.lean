import Verif.Props.Track
import Verif.Session.ServeLoopLemmas

/-!
# Property C50: a publisher serves at most two groups of a subscription at a time
-/

set_option autoImplicit false

namespace Verif.Props.ServeLoop

open Verif Verif.Session Verif.Session.ServeLoop Verif.Session.ServeLoop.Spec
open Verif.Model (Track.Op Track.Out Track.State Track.Grp)
open Verif.Model.Track.Spec (received ConsumerAlive closing)

variable {tr0 : Model.Track.Spec.Trace} {c : Nat} {t0 : Track.State} {tr : Trace} {s : State}

/-- At most two groups are in flight. -/
theorem c50_two (h0 : Model.Track.machine.Reach tr0 t0) (hc : ConsumerAlive tr0 c)
    (h : (machine t0 c).Reach tr s) : (inFlight tr).length ≤ 2 := by
  rw [(inv_reach h0 hc h).flight]
  cases s.old <;> cases s.new <;> simp

/-- The newest group that was started is in flight until it completes, as long as the loop runs. -/
theorem c50_newest (h0 : Model.Track.machine.Reach tr0 t0) (hc : ConsumerAlive tr0 c)
    (h : (machine t0 c).Reach tr s) (ho : ¬ Over tr) {g : Track.Grp}
    (hg : (started tr).getLast? = some g) (hn : g ∉ completed tr) : g ∈ inFlight tr := by
  have hI := inv_reach h0 hc h
  rcases hI.last (hI.running.2 ho) g hg with hx | hx
  · exact absurd hx hn
  · rw [hI.flight, hx]; simp

/-- The groups are started in the order of their sequence numbers, and they are the groups the
consumer of the loop is given by the track. -/
theorem c50_order (h0 : Model.Track.machine.Reach tr0 t0) (hc : ConsumerAlive tr0 c)
    (h : (machine t0 c).Reach tr s) :
    (started tr).Pairwise (fun a b => a.seq < b.seq) ∧
      received (tr0 ++ trackTrace c tr) c = received tr0 c ++ started tr := by
  have hI := inv_reach h0 hc h
  exact ⟨(List.pairwise_append.1 hI.increasing).2.1, hI.recv⟩

/-- A group in flight can complete, and only such a group can. -/
theorem c50_completes (h0 : Model.Track.machine.Reach tr0 t0) (hc : ConsumerAlive tr0 c)
    (h : (machine t0 c).Reach tr s) (g : Track.Grp) :
    g ∈ inFlight tr ↔ ∃ op ds, (step c s op).1 = .done g ds := by
  have hI := inv_reach h0 hc h
  rw [hI.flight]
  constructor
  · intro hg
    have hrun : s.running = true := by
      cases hr : s.running with
      | true => rfl
      | false =>
        obtain ⟨h1, h2⟩ := hI.stopped hr
        rw [h1, h2] at hg; simp at hg
    rcases List.mem_append.1 hg with hg | hg
    · have : s.old = some g := by simpa using hg
      exact ⟨.oldDone, [], by simp [step, hrun, this]⟩
    · have : s.new = some g := by simpa using hg
      exact ⟨.newDone, s.old.toList, by simp [step, hrun, this]⟩
  · rintro ⟨op, ds, hd⟩
    cases op <;> simp only [step] at hd <;> (repeat' split at hd) <;> try (simp at hd; done)
    · rename_i g' hg'
      simp at hd
      rw [hg', hd.1]; simp
    · rename_i g' hg'
      simp at hd
      rw [hg', hd.1]; simp

/-- When a group is started, another one is dropped only if there is a third one between the
two. -/
theorem c50_dropped_start (h0 : Model.Track.machine.Reach tr0 t0) (hc : ConsumerAlive tr0 c)
    (h : (machine t0 c).Reach tr s) {op : Op} {g x : Track.Grp} {ds : List Track.Grp}
    (hs : (step c s op).1 = .started g ds) (hx : x ∈ ds) :
    ∃ y ∈ inFlight tr, x.seq < y.seq ∧ y.seq < g.seq := by
  have hI := inv_reach h0 hc h
  have hI' := inv_reach h0 hc (Machine.Reach.step (M := machine t0 c) op h)
  have hop : ∃ n, s.new = some n ∧ ds = s.old.toList := by
    cases op <;> simp only [step] at hs <;> (repeat' split at hs) <;> simp at hs
    · rw [hs.2] at hx; cases hx
    · rename_i n hn
      exact ⟨n, hn, hs.2.symm⟩
  obtain ⟨n, hn, rfl⟩ := hop
  have hxo : s.old = some x := by simpa using hx
  have hinc := (List.pairwise_append.1 hI.increasing).2.1
  have hfl : (inFlight tr).Pairwise fun a b => a.seq < b.seq := hinc.sublist List.filter_sublist
  have hin : n ∈ inFlight tr := by rw [hI.flight, hn]; simp
  refine ⟨n, hin, ?_, ?_⟩
  · rw [hI.flight, hxo, hn] at hfl
    simpa using hfl
  · have := (List.pairwise_append.1 hI'.increasing).2.1
    rw [started_snoc] at this
    refine (List.pairwise_append.1 this).2.2 n (List.mem_filter.1 hin).1 g ?_
    have hs' : ((machine t0 c).step s op).1 = .started g s.old.toList := hs
    rw [hs']
    exact List.mem_singleton.2 rfl

/-- When a group completes, another one is dropped only if it is older. -/
theorem c50_dropped_done (h0 : Model.Track.machine.Reach tr0 t0) (hc : ConsumerAlive tr0 c)
    (h : (machine t0 c).Reach tr s) {op : Op} {g x : Track.Grp} {ds : List Track.Grp}
    (hs : (step c s op).1 = .done g ds) (hx : x ∈ ds) : x ∈ inFlight tr ∧ x.seq < g.seq := by
  have hI := inv_reach h0 hc h
  have hop : s.new = some g ∧ ds = s.old.toList := by
    cases op <;> simp only [step] at hs <;> (repeat' split at hs) <;> simp at hs
    · rw [hs.2] at hx; cases hx
    · rename_i g' hg'
      rw [hg']
      exact ⟨by rw [hs.1], hs.2.symm⟩
  obtain ⟨hn, rfl⟩ := hop
  have hxo : s.old = some x := by simpa using hx
  have hinc := (List.pairwise_append.1 hI.increasing).2.1
  have hfl : (inFlight tr).Pairwise fun a b => a.seq < b.seq := hinc.sublist List.filter_sublist
  rw [hI.flight, hxo, hn] at hfl ⊢
  exact ⟨by simp, by simpa using hfl⟩

/-- The loop ends without an error only if the track was finished and nothing is in flight, and in
that case the next poll ends it. -/
theorem c50_end (h0 : Model.Track.machine.Reach tr0 t0) (hc : ConsumerAlive tr0 c)
    (h : (machine t0 c).Reach tr s) (ho : ¬ Over tr) :
    (step c s .next).1 = .finished ↔
      closing (tr0 ++ trackTrace c tr) = some (.ok ()) ∧ inFlight tr = [] := by
  have hI := inv_reach h0 hc h
  have hrun := hI.running.2 ho
  have hT := Model.Track.inv_reach hI.reach
  obtain ⟨v, hv⟩ := (hT.alive_iff c).1 hI.alive
  rw [hT.agrees.closed, hI.flight]
  simp only [step]
  rw [if_pos hrun]
  simp only [Model.Track.step, hv]
  cases hcl : s.track.closed with
  | some r =>
    simp only [Option.isSome_some, Bool.or_true, if_true]
    cases r with
    | ok u =>
      cases hold : s.old <;> cases hnew : s.new <;> simp
    | error e => simp
  | none =>
    simp only [Option.isSome_none, Bool.or_false]
    by_cases hnw : Model.Track.newer (Option.map (fun x => x.seq) s.track.latest) v = true
    · rw [if_pos hnw]
      cases hl : s.track.latest with
      | none => rw [hl] at hnw; simp [Model.Track.newer] at hnw
      | some g => cases s.new <;> simp
    · rw [if_neg hnw]
      by_cases hz : s.track.senders = 0
      · rw [if_pos hz]; simp
      · rw [if_neg hz]; simp

/-- No other operation ends it without an error. -/
theorem c50_end_only {op : Op} (hs : (step c s op).1 = .finished) : op = .next := by
  cases op <;> simp only [step] at hs <;> (repeat' split at hs) <;> simp at hs
  rfl

/-- The loop ends with an error exactly when reading the track does, with the same error, and then
everything in flight is dropped. -/
theorem c50_fails (h0 : Model.Track.machine.Reach tr0 t0) (hc : ConsumerAlive tr0 c)
    (h : (machine t0 c).Reach tr s) (ho : ¬ Over tr) (e : Error) (ds : List Track.Grp) :
    (∃ op, (step c s op).1 = .failed e ds) ↔
      ds = inFlight tr ∧ Model.Track.Spec.nextAnswer (tr0 ++ trackTrace c tr)
        (received (tr0 ++ trackTrace c tr) c) = .err e := by
  have hI := inv_reach h0 hc h
  have hrun := hI.running.2 ho
  rw [← Props.Track.next_answer hI.reach hI.alive, hI.flight]
  constructor
  · rintro ⟨op, hs⟩
    cases op <;> simp only [step] at hs <;> (repeat' split at hs) <;> simp at hs
    all_goals
      rename_i heq
      obtain ⟨rfl, rfl⟩ := hs
      rw [heq]
      exact ⟨rfl, rfl⟩
  · rintro ⟨rfl, he⟩
    refine ⟨.next, ?_⟩
    simp only [step]
    rw [if_pos hrun]
    generalize Model.Track.step s.track (.next c) = q at he
    obtain ⟨o, t⟩ := q
    simp only at he
    subst he
    rfl

/-- A track with a consumer. -/
def start : List (Track.Op × Track.Out) × Track.State := Model.Track.machine.run [.consume 0]

/-- Three groups are started; the first is dropped when the third starts; then the third completes,
and the second is dropped; then the track is finished. -/
example : ((machine start.2 0).run [.track (.insert 0 ⟨4, 0⟩), .next, .next,
    .track (.insert 0 ⟨6, 1⟩), .next, .track (.insert 0 ⟨7, 2⟩), .next, .newDone,
    .track (.finish 0), .next]).1.map (·.2) =
    [.track (.inserted true), .started ⟨4, 0⟩ [], .pending, .track (.inserted true),
      .started ⟨6, 1⟩ [], .track (.inserted true), .started ⟨7, 2⟩ [⟨4, 0⟩], .done ⟨7, 2⟩ [⟨6, 1⟩],
      .track .ok, .finished] := by decide +kernel

/-- A finished track with groups in flight does not end the loop. -/
example : ((machine start.2 0).run [.track (.insert 0 ⟨4, 0⟩), .next, .track (.insert 0 ⟨6, 1⟩),
    .next, .track (.finish 0), .next, .oldDone, .next, .newDone, .next, .next]).1.map (·.2) =
    [.track (.inserted true), .started ⟨4, 0⟩ [], .track (.inserted true), .started ⟨6, 1⟩ [],
      .track .ok, .pending, .done ⟨4, 0⟩ [], .pending, .done ⟨6, 1⟩ [], .finished, .invalid] := by
  decide +kernel

/-- The hypotheses of the theorems can be met. -/
example : Model.Track.machine.Reach start.1 start.2 ∧ ConsumerAlive start.1 0 :=
  ⟨Model.Track.machine.reach_run _, .inl ⟨0, List.mem_singleton.2 rfl⟩, by
    show (Track.Op.dropConsumer 0, Track.Out.ok) ∉ [(Track.Op.consume 0, Track.Out.handle 0)]
    simp⟩

end Verif.Props.ServeLoop
