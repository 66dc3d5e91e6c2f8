import Verif.Js.ReconnectLemmas

/-! # Property C101: reconnecting -/

set_option autoImplicit false

namespace Verif.Props.JsReconnect

open Verif Verif.Js.Reconnect

variable {cfg : Cfg} {tr : Trace} {s : State}

/-- Attempts are numbered in order, and the newest one is for the URL that was set last. -/
theorem c101_attempts (h : (machine cfg).Reach tr s) :
    (started tr).map (·.1) = List.range (started tr).length ∧
    ∀ a, latest tr = some a → ∃ u, url tr = some u ∧ (started tr).getLast? = some (a, u) := by
  have i := (inv_reach h).a
  refine ⟨?_, fun a ha => ?_⟩
  · have := congrArg List.length i.started
    rw [List.length_map, List.length_range] at this
    rw [i.started, this]
  · have hl := i.latest
    rw [ha] at hl
    split at hl
    · next hr =>
      injection hl with hl
      rw [hl, i.url]
      exact i.last hr
    · cases hl

/-- **C101.**  With a URL there is an attempt; it has not failed, or it has and a timer is set that
makes the next one; or its connection ended without an exception. -/
theorem c101_alive_partial (h : (machine cfg).Reach tr s) (hc : ¬ Closed tr) (u : Nat)
    (hu : url tr = some u) (hr : cfg.reload = true) :
    ∃ a, latest tr = some a ∧ ((¬ Failed tr a ∧ ¬ Finished tr a) ∨ Finished tr a ∨
      ∃ k, Set tr k ∧ ¬ Fired tr k ∧ ∃ shut b, (step cfg s (.fire k)).1 = .ran shut (some (b, u))) := by
  have i := inv_reach h
  have hcl : s.closed = false := by
    cases hx : s.closed with
    | false => rfl
    | true => exact absurd (i.a.closed.mp hx) hc
  have hus : s.url = some u := by rw [← i.a.url, hu]
  have hrun : s.running = true := i.a.running.mpr ⟨hcl, by rw [hus]; rfl⟩
  have hl := i.a.latest
  rw [if_pos hrun] at hl
  refine ⟨_, hl, ?_⟩
  by_cases hfin : Finished tr (s.attempts.length - 1)
  · exact .inr (.inl hfin)
  · by_cases hfl : Failed tr (s.attempts.length - 1)
    · right; right
      obtain ⟨k, hk⟩ := i.d.alive hrun hr _ hl hfl
      have hv := i.d.val k _ _ hk
      refine ⟨k, (i.d.set k).mpr (List.getElem?_eq_some_iff.mp hk).1, fun hf => ?_, ?_⟩
      · cases hv.2.1.mpr hf
      · rw [step, hk]
        dsimp only
        rw [if_pos (Nat.lt_succ_self _), hcl, if_neg (by simp), run_eq]
        dsimp only
        rw [hus]
        exact ⟨_, _, rfl⟩
    · exact .inl ⟨hfl, hfin⟩

/-- When a timer fires, the effect runs, or it did since the timer was set; unless the connection is
closed. -/
theorem c101_retry {pre post : Trace} {op : Op} {k w : Nat}
    (h : (machine cfg).Reach (pre ++ (op, .retry k w) :: post) s)
    (hc : ¬ Closed (pre ++ (op, .retry k w) :: post)) :
    Fired post k ∨ (∃ shut st, (step cfg s (.fire k)).1 = .ran shut st) ∨
      ∃ op' shut st, (op', .ran shut st) ∈ post := by
  have i := inv_reach h
  have hcl : s.closed = false := by
    cases hx : s.closed with
    | false => rfl
    | true => exact absurd (i.a.closed.mp hx) hc
  have hk : k < s.timers.length := (i.d.set k).mp ⟨op, w, by simp⟩
  obtain ⟨⟨t, f⟩, hx⟩ : ∃ x, s.timers[k]? = some x := ⟨_, List.getElem?_eq_getElem hk⟩
  by_cases ht : t ≤ s.tick
  · exact .inr (.inr ((i.d.since k t f hx ht pre op w post rfl).resolve_right hc))
  · right; left
    have hf : f = false := by
      cases f with
      | false => rfl
      | true => exact absurd ((i.d.val k t true hx).2.2 rfl) ht
    subst hf
    rw [step, hx]
    dsimp only
    rw [if_pos (by omega), hcl, if_neg (by simp), run_eq]
    exact ⟨_, _, rfl⟩

/-- But one run is enough: timers that were set before a timer made the effect run do not do so again,
and a timer fires once. -/
theorem c101_once {pre post : Trace} {op : Op} {k w : Nat}
    (h : (machine cfg).Reach (pre ++ (op, .retry k w) :: post) s)
    (hr : ∃ j shut st, (Op.fire j, Out.ran shut st) ∈ post) (shut : Option Nat)
    (st : Option (Nat × Nat)) : (step cfg s (.fire k)).1 ≠ .ran shut st := by
  rw [step]
  split
  · next t hk =>
    have := oinv_reach h k t false hk pre op w post rfl hr
    dsimp only
    rw [if_neg (by omega)]
    simp
  · simp

/-- A failure is followed by a timer: it waits for `delay`, and twice as long after each further
failure, but not longer than `maxDelay`; a success begins anew. -/
theorem c101_backoff (h : (machine cfg).Reach tr s) (op : Op) :
    (∀ k w, (step cfg s op).1 = .retry k w → w = backoff cfg (failures tr)) ∧
    ((∃ a, op = .failed a ∨ op = .ended a false) → (step cfg s op).1 ≠ .invalid →
      (∃ k w, (step cfg s op).1 = .retry k w) ∨ cfg.reload = false) := by
  have i := (inv_reach h).c
  have hh : ∀ a, (∀ k w, (handle cfg (advance s a .over)).1 = .retry k w → w = backoff cfg (failures tr)) ∧
      ((∃ k w, (handle cfg (advance s a .over)).1 = .retry k w) ∨ cfg.reload = false) := by
    intro a
    rw [handle_eq]
    cases cfg.reload with
    | false => exact ⟨by simp, .inr rfl⟩
    | true =>
      refine ⟨fun k w e => ?_, .inl ⟨_, _, rfl⟩⟩
      rw [if_pos rfl] at e
      injection e with _ e
      rw [← e]
      exact i
  have k := step_kind cfg s op
  generalize (step cfg s op).1 = o at k ⊢
  generalize (step cfg s op).2 = s' at k
  cases k with
  | failed a h => exact ⟨(hh a).1, fun _ _ => (hh a).2⟩
  | ended a h => exact ⟨(hh a).1, fun _ _ => (hh a).2⟩
  | rerun u hu h => exact ⟨by rw [run_eq]; simp, by simp⟩
  | fire k t h ht hc => exact ⟨by rw [run_eq]; simp, by simp⟩
  | invalid op h hu => exact ⟨by simp, by simp⟩
  | _ => exact ⟨by simp, by simp⟩

/-- After `close` there are no further attempts. -/
theorem c101_closed (h : (machine cfg).Reach tr s) (hc : Closed tr) (op : Op) (shut : Option Nat)
    (st : Option (Nat × Nat)) : (step cfg s op).1 ≠ .ran shut st := by
  have hcl := (inv_reach h).a.closed.mpr hc
  have k := step_kind cfg s op
  generalize (step cfg s op).1 = o at k ⊢
  generalize (step cfg s op).2 = s' at k
  cases k with
  | rerun u hu h => rw [hcl] at h; cases h
  | fire k t h ht hc => rw [hcl] at hc; cases hc
  | failed a h => exact (handle_same cfg _).2.2.2.2 _ _
  | ended a h => exact (handle_same cfg _).2.2.2.2 _ _
  | close h => rw [hcl] at h; cases h
  | _ => simp

theorem all_quiet (ops : List Op) : ∀ {tr : Trace} {s : State}, (machine cfg).Reach tr s → Closed tr →
    ∀ e ∈ ((machine cfg).runFrom s ops).1, ∀ shut st, e.2 ≠ .ran shut st := by
  induction ops with
  | nil =>
    intro tr s _ _ e he
    cases he
  | cons op ops ih =>
    intro tr s h hc e he
    rw [Machine.runFrom] at he
    rcases List.mem_cons.mp he with he | he
    · rw [he]
      exact c101_closed h hc op
    · refine ih (Machine.Reach.step (M := machine cfg) op h) ?_ e he
      obtain ⟨o, ho⟩ := hc
      exact ⟨o, List.mem_append_left _ ho⟩

/-- If outcomes arrive only for the latest attempt: a connection that is open is the established one,
that of the latest attempt, with the URL that was set last. -/
theorem c101_single_partial (h : (machine cfg).Reach tr s) (hc : Calm tr) (a : Nat) :
    (Open tr a → s.established = some a) ∧
    (s.established = some a → Connected tr a ∧ ¬ Shut tr a ∧ ¬ Failed tr a ∧ latest tr = some a ∧
      ∃ u, url tr = some u ∧ (started tr).getLast? = some (a, u)) := by
  have i := inv_reach h
  have e := einv_reach h hc
  refine ⟨fun ⟨h1, h2, h3, h4⟩ => ?_, fun ha => ?_⟩
  · refine e.kept a ?_ h4
    have hb := i.b a
    unfold PhaseOk at hb
    split at hb
    · exact absurd h1 hb.1
    · next hp => exact hp
    · exact hb.1.elim (fun h => absurd h h2) fun h => absurd h h3
    · exact absurd h1 hb.1
  · obtain ⟨hr, hl⟩ := e.running a ha
    have hla : latest tr = some a := by rw [i.a.latest, if_pos hr, hl]
    exact ⟨i.s.1 a ha, (e.fine a ha).1, (e.fine a ha).2, hla, (c101_attempts h).2 a hla⟩

/-- And the status says whether there is one. -/
theorem c101_status_partial (h : (machine cfg).Reach tr s) (hc : Calm tr) :
    (s.status = .connected ↔ s.established.isSome) ∧
    (s.status = .connecting ↔ ∃ a, latest tr = some a ∧ ¬ Connected tr a ∧ ¬ Failed tr a) := by
  have i := inv_reach h
  obtain ⟨e1, e2⟩ := (einv_reach h hc).status
  refine ⟨e1, e2.trans ⟨fun ⟨hr, hp⟩ => ?_, fun ⟨a, hl, h1, h2⟩ => ?_⟩⟩
  · have hb := i.b (s.attempts.length - 1)
    rw [hp] at hb
    exact ⟨_, by rw [i.a.latest, if_pos hr], hb.1, hb.2.1⟩
  · have := i.a.latest
    rw [hl] at this
    split at this
    · next hr =>
      injection this with this
      subst this
      refine ⟨hr, ?_⟩
      have hb := i.b (s.attempts.length - 1)
      have hne : 0 < s.attempts.length := by
        obtain ⟨u, -, hg⟩ := i.a.last hr
        have := congrArg List.length i.a.started
        rw [List.length_map, List.length_range] at this
        rw [← this]
        exact List.length_pos_of_mem (List.mem_of_getLast? hg)
      unfold PhaseOk at hb
      split at hb
      · next hp => exact hp
      · exact absurd hb.1 h1
      · exact absurd (hb.2 (hb.1.resolve_left h2)).1 h1
      · next hp =>
        rw [List.getElem?_eq_none_iff] at hp
        omega
    · cases this

/-! ## What goes wrong -/

theorem calm_of {tr : Trace} (h : ∀ i < tr.length, ∀ e, tr[i]? = some e →
    (subject e).isNone ∨ latest (tr.take i) = subject e) : Calm tr := by
  intro before e after a he hs
  have h1 : tr[before.length]? = some e := by rw [he]; simp
  have h2 : tr.take before.length = before := by rw [he]; simp
  have := h before.length (by rw [he]; simp) e h1
  rw [h2, hs] at this
  exact this.resolve_left (by simp)

/-- **Violation.**  A connection that ends without an exception is not replaced: no timer is set, and
the dead connection stays established, with the status as it was. -/
theorem c101_clean (h : (machine cfg).Reach tr s) (a : Nat) (ha : s.established = some a)
    (hf : ¬ Failed tr a ∧ ¬ Finished tr a) :
    (step cfg s (.ended a true)).1 = .ok ∧
    (step cfg s (.ended a true)).2.established = some a ∧
    (step cfg s (.ended a true)).2.status = s.status ∧
    (step cfg s (.ended a true)).2.timers = s.timers := by
  have i := inv_reach h
  have hc := i.s.1 a ha
  have hb := i.b a
  have hp : s.attempts[a]? = some .opened := by
    unfold PhaseOk at hb
    split at hb
    · exact absurd hc hb.1
    · next hp => exact hp
    · exact hb.1.elim (fun h => absurd h hf.1) fun h => absurd h hf.2
    · exact absurd hc hb.1
  rw [step, if_pos hp, if_pos rfl]
  exact ⟨rfl, ha, rfl, rfl⟩

/-- Nothing else happens, if all timers have fired and no other attempt is under way, until the URL is
changed or the connection closed. -/
theorem c101_stuck (h : (machine cfg).Reach tr s) (a : Nat) (ha : s.established = some a)
    (hfin : Finished tr a) (hoth : ∀ b u, (b, u) ∈ started tr → b ≠ a → Failed tr b ∨ Finished tr b)
    (htim : ∀ k, Set tr k → Fired tr k) (ops : List Op)
    (hops : ∀ op ∈ ops, op ≠ .close ∧ ∀ u, op ≠ .setUrl u) :
    ((machine cfg).runFrom s ops).2.established = some a ∧
    started ((machine cfg).runFrom s ops).1 = [] := by
  have i := inv_reach h
  have hdead : ∀ b : Nat, s.attempts[b]? = none ∨ s.attempts[b]? = some .over := by
    intro b
    have hb := i.b b
    by_cases hlt : b < s.attempts.length
    · right
      have hover : Failed tr b ∨ Finished tr b := by
        by_cases hba : b = a
        · rw [hba]
          exact .inr hfin
        · have : b ∈ (started tr).map (·.1) := by
            rw [i.a.started]
            exact List.mem_range.mpr hlt
          obtain ⟨⟨b', u⟩, h1, h2⟩ := List.mem_map.mp this
          dsimp only at h2
          subst h2
          exact hoth b' u h1 hba
      unfold PhaseOk at hb
      split at hb
      · exact (hover.elim hb.2.1 hb.2.2).elim
      · exact (hover.elim hb.2.1 hb.2.2).elim
      · next hp => exact hp
      · next hp =>
        rw [List.getElem?_eq_none_iff] at hp
        omega
    · exact .inl (List.getElem?_eq_none (by omega))
  have htimers : ∀ (k t : Nat), s.timers[k]? ≠ some (t, false) := by
    intro k t hk
    have := (i.d.val k t false hk).2.1.mpr
      (htim k ((i.d.set k).mpr (List.getElem?_eq_some_iff.mp hk).1))
    cases this
  have key : ∀ op ∈ ops, step cfg s op = (.invalid, s) := by
    intro op hop
    obtain ⟨h1, h2⟩ := hops op hop
    cases op with
    | setUrl u => exact absurd rfl (h2 u)
    | close => exact absurd rfl h1
    | connected b =>
      rw [step, if_neg]
      rcases hdead b with h | h <;> rw [h] <;> simp
    | failed b =>
      rw [step, if_neg]
      rcases hdead b with h | h <;> rw [h] <;> simp
    | ended b c =>
      rw [step, if_neg]
      rcases hdead b with h | h <;> rw [h] <;> simp
    | fire k =>
      rw [step]
      split
      · next t hk => exact absurd hk (htimers k t)
      · rfl
  clear hops
  have : ∀ l : List Op, (∀ op ∈ l, step cfg s op = (.invalid, s)) →
      ((machine cfg).runFrom s l).2 = s ∧ started ((machine cfg).runFrom s l).1 = [] := by
    intro l
    induction l with
    | nil => exact fun _ => ⟨rfl, rfl⟩
    | cons op l ih =>
      intro hl
      have h1 := hl op (by simp)
      obtain ⟨h2, h3⟩ := ih fun x hx => hl x (List.mem_cons_of_mem _ hx)
      have hstep : (machine cfg).step s op = (.invalid, s) := h1
      constructor
      · rw [Machine.runFrom, hstep]
        exact h2
      · rw [Machine.runFrom, hstep]
        unfold started at h3 ⊢
        rw [List.filterMap_cons]
        exact h3
  obtain ⟨h1, h2⟩ := this ops key
  exact ⟨by rw [h1]; exact ha, h2⟩

/-- An attempt that is under way. -/
def UnderWay (tr : Trace) (a : Nat) : Prop :=
  (∃ u, (a, u) ∈ started tr) ∧ ¬ Connected tr a ∧ ¬ Failed tr a

theorem underWay_phase (h : (machine cfg).Reach tr s) {a : Nat} (ha : UnderWay tr a) :
    s.attempts[a]? = some .connecting := by
  have i := inv_reach h
  obtain ⟨⟨u, hu⟩, h1, h2⟩ := ha
  have hlt : a < s.attempts.length := by
    have : a ∈ (started tr).map (·.1) := List.mem_map.mpr ⟨_, hu, rfl⟩
    rw [i.a.started] at this
    exact List.mem_range.mp this
  have hb := i.b a
  unfold PhaseOk at hb
  split at hb
  · next hp => exact hp
  · exact absurd hb.1 h1
  · exact absurd (hb.2 (hb.1.resolve_left h2)).1 h1
  · next hp =>
    rw [List.getElem?_eq_none_iff] at hp
    omega

/-- **Violation.**  If another attempt is still under way, its outcome, whatever it is, makes the
object forget the established connection: nothing closes it any more. -/
theorem c101_leak (h : (machine cfg).Reach tr s) (a b : Nat) (hb : s.established = some b)
    (ha : UnderWay tr a) (op : Op) (hop : op = .connected a ∨ op = .failed a) (ops : List Op) :
    (step cfg s op).2.established ≠ some b ∧
    ¬ Shut ((machine cfg).runFrom s (op :: ops)).1 b := by
  have i := inv_reach h
  have hp := underWay_phase h ha
  have hcb := i.s.1 b hb
  have hba : b ≠ a := fun e => ha.2.1 (e ▸ hcb)
  have hbp : b < s.attempts.length ∧ s.attempts[b]? ≠ some .connecting := by
    have hx := i.b b
    unfold PhaseOk at hx
    split at hx
    · exact absurd hcb hx.1
    · next hp => exact ⟨(List.getElem?_eq_some_iff.mp hp).1, by rw [hp]; simp⟩
    · next hp => exact ⟨(List.getElem?_eq_some_iff.mp hp).1, by rw [hp]; simp⟩
    · exact absurd hcb hx.1
  have hf : (∀ st, (step cfg s op).1 ≠ .ran (some b) st) ∧ Forgotten (step cfg s op).2 b := by
    rcases hop with rfl | rfl
    · rw [step, if_pos hp]
      refine ⟨by simp, ?_, set_forgotten hbp.1 hbp.2 (by simp)⟩
      intro e
      injection e with e
      exact hba e.symm
    · rw [step, if_pos hp]
      refine ⟨fun st => (handle_same cfg _).2.2.2.2 _ _, ?_, ?_⟩
      · rw [handle_eq]
        simp
      · rw [(handle_same cfg _).2.2.2.1]
        exact set_forgotten hbp.1 hbp.2 (by simp)
  refine ⟨hf.2.1, ?_⟩
  rintro ⟨op', st, hm⟩
  rw [Machine.runFrom] at hm
  rcases List.mem_cons.mp hm with hm | hm
  · rw [Prod.mk.injEq] at hm
    exact hf.1 st hm.2.symm
  · exact forgotten_run ops hf.2 ⟨op', st, hm⟩

/-- **Violation.**  An attempt that is under way when the object is closed establishes its connection
afterwards, and nothing closes it. -/
theorem c101_revived (h : (machine cfg).Reach tr s) (hc : Closed tr) (a : Nat) (ha : UnderWay tr a)
    (ops : List Op) : (step cfg s (.connected a)).2.established = some a ∧
    (step cfg s (.connected a)).2.status = .connected ∧
    ¬ Shut ((machine cfg).runFrom s (.connected a :: ops)).1 a := by
  have hp := underWay_phase h ha
  refine ⟨by rw [step, if_pos hp], by rw [step, if_pos hp], ?_⟩
  rintro ⟨op, st, hm⟩
  exact all_quiet (cfg := cfg) (.connected a :: ops) h hc _ hm _ _ rfl

/-- **Violation.**  A timer that was set for an old URL ends the good connection of the new one, although
outcomes arrive only for the latest attempt. -/
theorem c101_torn : ∃ (ops : List Op) (k : Nat), let r := (machine ⟨true, 1000, 30000⟩).run ops
    Calm r.1 ∧ Open r.1 1 ∧ r.2.established = some 1 ∧ url r.1 = some 2 ∧
    (step ⟨true, 1000, 30000⟩ r.2 (.fire k)).1 = .ran (some 1) (some (2, 2)) := by
  refine ⟨[.setUrl (some 1), .failed 0, .setUrl (some 2), .connected 1], 0, ?_⟩
  rw [show (machine ⟨true, 1000, 30000⟩).run
    [.setUrl (some 1), .failed 0, .setUrl (some 2), .connected 1] =
      ([(.setUrl (some 1), .ran none (some (0, 1))), (.failed 0, .retry 0 1000),
        (.setUrl (some 2), .ran none (some (1, 2))), (.connected 1, .ok)],
       ⟨some 2, .connected, some 1, 0, 1000, true, false, [.over, .opened], [(1, false)]⟩) from by
    decide +kernel]
  refine ⟨calm_of (fun i hi => by
    revert i
    simp only [List.length_cons, List.length_nil]
    intro i hi e he
    match i, hi with
    | 0, _ | 1, _ | 2, _ | 3, _ => injection he with he; subst he; decide), ⟨by simp [Connected], ?_, by simp [Finished], ?_⟩, rfl,
    by decide +kernel, by decide +kernel⟩
  · simp [Failed]
  · simp [Shut]

/-! Cases. -/

/-- Two failures, the URL changed to nothing and back, a success and a failure: delays and attempts. -/
example : ((machine ⟨true, 1000, 3000⟩).run [.setUrl (some 5), .failed 0, .fire 0, .failed 1, .fire 1,
    .failed 2, .setUrl none, .fire 2, .setUrl (some 6), .connected 3, .ended 3 false, .fire 3,
    .connected 4, .close, .ended 4 true, .setUrl (some 7)]).1.map (·.2) =
    [.ran none (some (0, 5)), .retry 0 1000, .ran none (some (1, 5)), .retry 1 2000,
      .ran none (some (2, 5)), .retry 2 3000, .ran none none, .ran none none,
      .ran none (some (3, 6)), .ok, .retry 3 1000, .ran none (some (4, 6)),
      .ok, .ran (some 4) none, .ok, .ok] := by decide +kernel

/-- The hypotheses of `c101_leak`: the URL is changed during an attempt. -/
example : let r := (machine ⟨true, 1000, 3000⟩).run [.setUrl (some 5), .setUrl (some 6), .connected 1]
    r.2.established = some 1 ∧ started r.1 = [(0, 5), (1, 6)] ∧ (.connected 0, Out.ok) ∉ r.1 ∧
    (step ⟨true, 1000, 3000⟩ r.2 (.connected 0)).2.established = some 0 ∧
    (step ⟨true, 1000, 3000⟩ r.2 (.failed 0)).2.established = none := by decide +kernel

/-- The hypotheses of `c101_once`: two attempts fail, and one of the timers fires. -/
example : ((machine ⟨true, 1000, 3000⟩).run [.setUrl (some 5), .setUrl (some 6), .failed 0, .failed 1,
    .fire 1, .fire 0, .fire 0]).1.map (·.2) = [.ran none (some (0, 5)), .ran none (some (1, 6)),
      .retry 0 1000, .retry 1 2000, .ran none (some (2, 6)), .ok, .invalid] := by decide +kernel

/-- The hypotheses of `c101_stuck`. -/
example : let r := (machine ⟨true, 1000, 3000⟩).run [.setUrl (some 5), .failed 0, .fire 0, .connected 1,
      .ended 1 true]
    r.2.established = some 1 ∧ r.2.status = .connected ∧ started r.1 = [(0, 5), (1, 5)] ∧
    r.2.timers = [(1, true)] := by decide +kernel

/-- The hypotheses of `c101_revived`: closed during an attempt. -/
example : let r := (machine ⟨true, 1000, 3000⟩).run [.setUrl (some 5), .close]
    started r.1 = [(0, 5)] ∧ (step ⟨true, 1000, 3000⟩ r.2 (.connected 0)).2.status = .connected := by
  decide +kernel

end Verif.Props.JsReconnect
