import Verif.Js.Reconnect

/-! # Lemmas about reconnecting -/

set_option autoImplicit false

namespace Verif.Js.Reconnect

open Verif

theorem started_snoc (tr : Trace) (op : Op) (o : Out) :
    started (tr ++ [(op, o)]) = started tr ++ (match o with
      | .ran _ st => st
      | _ => none : Option (Nat × Nat)).toList := by
  unfold started
  rw [List.filterMap_append]
  cases o <;> simp
  rename_i st
  cases st <;> rfl

theorem url_snoc (tr : Trace) (op : Op) (o : Out) :
    url (tr ++ [(op, o)]) = match op with
      | .setUrl u => u
      | _ => url tr := by
  unfold url
  rw [List.foldl_append]
  rfl

theorem latest_snoc (tr : Trace) (op : Op) (o : Out) :
    latest (tr ++ [(op, o)]) = match o with
      | .ran _ st => st.map (·.1)
      | _ => latest tr := by
  unfold latest
  rw [List.foldl_append]
  rfl

theorem failures_snoc (tr : Trace) (e : Op × Out) :
    failures (tr ++ [e]) = match e with
      | (.connected _, .ok) => 0
      | (_, .retry _ _) => failures tr + 1
      | _ => failures tr := by
  unfold failures
  rw [List.foldl_append]
  rfl

theorem connected_snoc (tr : Trace) (e : Op × Out) (a : Nat) :
    Connected (tr ++ [e]) a ↔ Connected tr a ∨ e = (.connected a, .ok) := by
  unfold Connected
  rw [List.mem_append, List.mem_singleton]
  exact or_congr_right eq_comm

theorem finished_snoc (tr : Trace) (e : Op × Out) (a : Nat) :
    Finished (tr ++ [e]) a ↔ Finished tr a ∨ e = (.ended a true, .ok) := by
  unfold Finished
  rw [List.mem_append, List.mem_singleton]
  exact or_congr_right eq_comm

theorem failed_snoc (tr : Trace) (op : Op) (o : Out) (a : Nat) :
    Failed (tr ++ [(op, o)]) a ↔
      Failed tr a ∨ (o ≠ .invalid ∧ (op = .failed a ∨ op = .ended a false)) := by
  unfold Failed
  constructor
  · rintro ⟨o', h1, h2⟩
    simp only [List.mem_append, List.mem_singleton, Prod.mk.injEq] at h2
    rcases h2 with (h | h) | (h | h)
    · exact .inl ⟨o', h1, .inl h⟩
    · exact .inr ⟨h.2 ▸ h1, .inl h.1.symm⟩
    · exact .inl ⟨o', h1, .inr h⟩
    · exact .inr ⟨h.2 ▸ h1, .inr h.1.symm⟩
  · rintro (⟨o', h1, h2⟩ | ⟨h1, h2⟩)
    · exact ⟨o', h1, h2.imp (List.mem_append_left _) (List.mem_append_left _)⟩
    · refine ⟨o, h1, h2.imp ?_ ?_⟩ <;> (rintro rfl; simp)

theorem shut_snoc (tr : Trace) (op : Op) (o : Out) (a : Nat) :
    Shut (tr ++ [(op, o)]) a ↔ Shut tr a ∨ ∃ st, o = .ran (some a) st := by
  unfold Shut
  constructor
  · rintro ⟨op', st, h⟩
    simp only [List.mem_append, List.mem_singleton, Prod.mk.injEq] at h
    rcases h with h | h
    · exact .inl ⟨op', st, h⟩
    · exact .inr ⟨st, h.2.symm⟩
  · rintro (⟨op', st, h⟩ | ⟨st, rfl⟩)
    · exact ⟨op', st, List.mem_append_left _ h⟩
    · exact ⟨op, st, by simp⟩

theorem closed_snoc (tr : Trace) (op : Op) (o : Out) :
    Closed (tr ++ [(op, o)]) ↔ Closed tr ∨ op = .close := by
  unfold Closed
  constructor
  · rintro ⟨o', h⟩
    simp only [List.mem_append, List.mem_singleton, Prod.mk.injEq] at h
    rcases h with h | h
    · exact .inl ⟨o', h⟩
    · exact .inr h.1.symm
  · rintro (⟨o', h⟩ | rfl)
    · exact ⟨o', List.mem_append_left _ h⟩
    · exact ⟨o, by simp⟩

theorem set_snoc (tr : Trace) (op : Op) (o : Out) (k : Nat) :
    Set (tr ++ [(op, o)]) k ↔ Set tr k ∨ ∃ w, o = .retry k w := by
  unfold Set
  constructor
  · rintro ⟨op', w, h⟩
    simp only [List.mem_append, List.mem_singleton, Prod.mk.injEq] at h
    rcases h with h | h
    · exact .inl ⟨op', w, h⟩
    · exact .inr ⟨w, h.2.symm⟩
  · rintro (⟨op', w, h⟩ | ⟨w, rfl⟩)
    · exact ⟨op', w, List.mem_append_left _ h⟩
    · exact ⟨op, w, by simp⟩

theorem fired_snoc (tr : Trace) (op : Op) (o : Out) (k : Nat) :
    Fired (tr ++ [(op, o)]) k ↔ Fired tr k ∨ (o ≠ .invalid ∧ op = .fire k) := by
  unfold Fired
  constructor
  · rintro ⟨o', h1, h⟩
    simp only [List.mem_append, List.mem_singleton, Prod.mk.injEq] at h
    rcases h with h | h
    · exact .inl ⟨o', h1, h⟩
    · exact .inr ⟨h.2 ▸ h1, h.1.symm⟩
  · rintro (⟨o', h1, h⟩ | ⟨h1, rfl⟩)
    · exact ⟨o', h1, List.mem_append_left _ h⟩
    · exact ⟨o, h1, by simp⟩

/-! ## The parts of the steps -/

theorem cleanup_eq (s : State) : (cleanup s).1 = (if s.running then s.established else none) ∧
    (cleanup s).2 = { s with
      status := if s.running then .disconnected else s.status
      established := if s.running then none else s.established
      running := false } := by
  unfold cleanup
  split
  · next h => simp
  · next h =>
    obtain ⟨_, _, _, _, _, r, _, _, _⟩ := s
    simp only [Bool.not_eq_true] at h
    subst h
    simp

/-- What a run of the effect does. -/
theorem run_eq (s : State) : run s = (.ran (if s.running then s.established else none)
      (s.url.map fun u => (s.attempts.length, u)), { s with
      status := if s.url.isSome then .connecting else if s.running then .disconnected else s.status
      established := if s.running then none else s.established
      running := s.url.isSome
      attempts := if s.url.isSome then s.attempts ++ [.connecting] else s.attempts }) := by
  unfold run
  obtain ⟨h1, h2⟩ := cleanup_eq s
  rw [show cleanup s = ((cleanup s).1, (cleanup s).2) from rfl, h1, h2]
  obtain ⟨u, _, _, _, _, r, _, _, _⟩ := s
  cases u <;> rfl

/-- The kinds of steps. -/
inductive Kind (cfg : Cfg) (s : State) : Op → Out → State → Prop where
  /-- nothing that matters -/
  | url (u : Option Nat) (h : u = s.url ∨ s.closed = true) : Kind cfg s (.setUrl u) .ok { s with url := u }
  | rerun (u : Option Nat) (hu : u ≠ s.url) (h : s.closed = false) :
      Kind cfg s (.setUrl u) (run { s with url := u }).1 (run { s with url := u }).2
  | connected (a : Nat) (h : s.attempts[a]? = some .connecting) : Kind cfg s (.connected a) .ok
      { advance s a .opened with
        established := some a
        status := .connected
        delay := cfg.delay }
  | failed (a : Nat) (h : s.attempts[a]? = some .connecting) : Kind cfg s (.failed a)
      (handle cfg (advance s a .over)).1 (handle cfg (advance s a .over)).2
  | finished (a : Nat) (h : s.attempts[a]? = some .opened) :
      Kind cfg s (.ended a true) .ok (advance s a .over)
  | ended (a : Nat) (h : s.attempts[a]? = some .opened) : Kind cfg s (.ended a false)
      (handle cfg (advance s a .over)).1 (handle cfg (advance s a .over)).2
  | fire (k t : Nat) (h : s.timers[k]? = some (t, false)) (ht : s.tick < t) (hc : s.closed = false) :
      Kind cfg s (.fire k) (run { s with
          timers := s.timers.set k (t, true)
          tick := t }).1 (run { s with
          timers := s.timers.set k (t, true)
          tick := t }).2
  | fireLate (k t : Nat) (h : s.timers[k]? = some (t, false)) (ht : ¬ s.tick < t ∨ s.closed = true) :
      Kind cfg s (.fire k) .ok { s with
          timers := s.timers.set k (t, true)
          tick := max s.tick t }
  | close (h : s.closed = false) : Kind cfg s .close (.ran (cleanup s).1 none)
      { (cleanup s).2 with closed := true }
  | again (h : s.closed = true) : Kind cfg s .close .ok s
  | invalid (op : Op) (h : op ≠ .close) (hu : ∀ u, op ≠ .setUrl u) : Kind cfg s op .invalid s

theorem step_kind (cfg : Cfg) (s : State) (op : Op) : Kind cfg s op (step cfg s op).1 (step cfg s op).2 := by
  cases op with
  | setUrl u =>
    rw [step]
    split
    · next h =>
      subst h
      exact .url _ (.inl rfl)
    · next h =>
      split
      · next hc => exact .url u (.inr hc)
      · next hc => exact .rerun u h (by simpa using hc)
  | connected a =>
    rw [step]
    split
    · next h => exact .connected a h
    · exact .invalid _ (by simp) (by simp)
  | failed a =>
    rw [step]
    split
    · next h => exact .failed a h
    · exact .invalid _ (by simp) (by simp)
  | ended a c =>
    rw [step]
    split
    · next h =>
      cases c
      · exact .ended a h
      · exact .finished a h
    · exact .invalid _ (by simp) (by simp)
  | fire k =>
    rw [step]
    split
    · next t h =>
      dsimp only
      split
      · next ht =>
        split
        · next hc =>
          have := Kind.fireLate (cfg := cfg) k t h (.inr hc)
          rw [show max s.tick t = t by omega] at this
          exact this
        · next hc => exact .fire k t h ht (by simpa using hc)
      · next ht =>
        have := Kind.fireLate (cfg := cfg) k t h (.inl ht)
        rw [show max s.tick t = s.tick by omega] at this
        exact this
    · exact .invalid _ (by simp) (by simp)
  | close =>
    rw [step]
    split
    · next h => exact .again h
    · next h => exact .close (by simpa using h)

theorem handle_eq (cfg : Cfg) (s : State) : handle cfg s =
    (if cfg.reload then .retry s.timers.length s.delay else .gaveUp, { s with
      established := none
      status := .disconnected
      timers := if cfg.reload then s.timers ++ [(s.tick + 1, false)] else s.timers
      delay := if cfg.reload then min (s.delay * 2) cfg.maxDelay else s.delay }) := by
  unfold handle
  dsimp only
  split <;> rfl

/-! ## Runs -/

/-- Runs, attempts and URLs. -/
structure AInv (tr : Trace) (s : State) : Prop where
  url : url tr = s.url
  closed : s.closed = true ↔ Closed tr
  running : s.running = true ↔ s.closed = false ∧ s.url.isSome = true
  latest : latest tr = if s.running then some (s.attempts.length - 1) else none
  started : (started tr).map (·.1) = List.range s.attempts.length
  last : s.running = true → ∃ u, s.url = some u ∧
    (Reconnect.started tr).getLast? = some (s.attempts.length - 1, u)

/-- A step that does not run the effect. -/
theorem AInv.calm {tr : Trace} {s s' : State} {op : Op} {o : Out} (i : AInv tr s)
    (ho : ∀ a b, o ≠ .ran a b) (hop : ∀ u, op ≠ .setUrl u) (hcl : op = .close → s.closed = true)
    (h1 : s'.url = s.url) (h2 : s'.closed = s.closed) (h3 : s'.running = s.running)
    (h4 : s'.attempts.length = s.attempts.length) : AInv (tr ++ [(op, o)]) s' := by
  have hst : Reconnect.started (tr ++ [(op, o)]) = Reconnect.started tr := by
    rw [started_snoc]
    cases o <;> first | exact absurd rfl (ho _ _) | simp
  have hla : Reconnect.latest (tr ++ [(op, o)]) = Reconnect.latest tr := by
    rw [latest_snoc]
    cases o <;> first | exact absurd rfl (ho _ _) | rfl
  constructor
  · rw [url_snoc, h1]
    cases op <;> first | exact absurd rfl (hop _) | exact i.url
  · rw [closed_snoc, h2, ← i.closed]
    exact ⟨.inl, fun h => h.elim id hcl⟩
  · rw [h1, h2, h3]
    exact i.running
  · rw [hla, h3, h4]
    exact i.latest
  · rw [hst, h4]
    exact i.started
  · rw [hst, h1, h3, h4]
    exact i.last

/-- A run of the effect. -/
theorem AInv.run {tr : Trace} {s : State} {op : Op} (i : AInv tr s) (hc : s.closed = false)
    (hop : op ≠ .close) (t : State) (ht1 : t.attempts = s.attempts) (ht2 : t.closed = s.closed)
    (ht3 : t.url = Reconnect.url (tr ++ [(op, (run t).1)])) :
    AInv (tr ++ [(op, (run t).1)]) (run t).2 := by
  constructor
  · rw [← ht3, run_eq]
  · rw [closed_snoc, run_eq, ← i.closed]
    dsimp only
    rw [ht2]
    exact ⟨.inl, fun h => h.elim id fun h => absurd h hop⟩
  · rw [run_eq]
    dsimp only
    rw [ht2, hc]
    simp
  · rw [latest_snoc, run_eq]
    dsimp only
    cases t.url with
    | none => rfl
    | some u => simp
  · rw [started_snoc, run_eq]
    dsimp only
    cases t.url with
    | none => simp [i.started, ht1]
    | some u => simp [i.started, ht1, List.range_succ]
  · rw [started_snoc, run_eq]
    dsimp only
    cases t.url with
    | none => simp
    | some u => simp

theorem handle_same (cfg : Cfg) (s : State) : (handle cfg s).2.url = s.url ∧
    (handle cfg s).2.closed = s.closed ∧ (handle cfg s).2.running = s.running ∧
    (handle cfg s).2.attempts = s.attempts ∧ (∀ a b, (handle cfg s).1 ≠ .ran a b) := by
  rw [handle_eq]
  refine ⟨rfl, rfl, rfl, rfl, fun a b => ?_⟩
  dsimp only
  split <;> simp

theorem ainv_step {cfg : Cfg} {tr : Trace} {s s' : State} {op : Op} {o : Out} (i : AInv tr s)
    (k : Kind cfg s op o s') : AInv (tr ++ [(op, o)]) s' := by
  cases k with
  | url u h =>
    refine ⟨by rw [url_snoc], ?_, ?_, ?_, ?_, ?_⟩
    · rw [closed_snoc, ← i.closed]
      simp
    · rcases h with h | h
      · subst h
        exact i.running
      · have := i.running
        dsimp only
        rw [h] at this ⊢
        simpa using this
    · rw [latest_snoc]
      exact i.latest
    · rw [started_snoc]
      simpa using i.started
    · rw [started_snoc]
      intro hr
      rcases h with h | h
      · subst h
        simpa using i.last hr
      · have := i.running.mp hr
        rw [h] at this
        cases this.1
  | rerun u hu h => exact i.run h (by simp) { s with url := u } rfl rfl (by rw [url_snoc])
  | connected a h => exact i.calm (by simp) (by simp) (by simp) rfl rfl rfl (by simp [advance])
  | failed a h =>
    obtain ⟨h1, h2, h3, h4, h5⟩ := handle_same cfg (advance s a .over)
    exact i.calm h5 (by simp) (by simp) h1 h2 h3 (by rw [h4]; simp [advance])
  | finished a h => exact i.calm (by simp) (by simp) (by simp) rfl rfl rfl (by simp [advance])
  | ended a h =>
    obtain ⟨h1, h2, h3, h4, h5⟩ := handle_same cfg (advance s a .over)
    exact i.calm h5 (by simp) (by simp) h1 h2 h3 (by rw [h4]; simp [advance])
  | fire k t h ht hc =>
    refine i.run hc (by simp) { s with
          timers := s.timers.set k (t, true)
          tick := t } rfl rfl ?_
    rw [url_snoc]
    exact i.url.symm
  | fireLate k t h ht => exact i.calm (by simp) (by simp) (by simp) rfl rfl rfl rfl
  | close h =>
    obtain ⟨-, h2⟩ := cleanup_eq s
    rw [h2]
    constructor
    · rw [url_snoc]
      exact i.url
    · rw [closed_snoc]
      simp
    · simp
    · rw [latest_snoc]
      rfl
    · rw [started_snoc]
      simpa using i.started
    · simp
  | again h => exact i.calm (by simp) (by simp) (fun _ => h) rfl rfl rfl rfl
  | invalid op h hu => exact i.calm (by simp) hu (fun h' => absurd h' h) rfl rfl rfl rfl

/-! ## Phases -/

/-- What the phase of an attempt means. -/
def PhaseOk (tr : Trace) (a : Nat) : Option Phase → Prop
  | some .connecting => ¬ Connected tr a ∧ ¬ Failed tr a ∧ ¬ Finished tr a
  | some .opened => Connected tr a ∧ ¬ Failed tr a ∧ ¬ Finished tr a
  | some .over => (Failed tr a ∨ Finished tr a) ∧ (Finished tr a → Connected tr a ∧ ¬ Failed tr a)
  | none => ¬ Connected tr a ∧ ¬ Failed tr a ∧ ¬ Finished tr a

/-- An event that is not about the attempt. -/
theorem PhaseOk.other {tr : Trace} {a : Nat} {p : Option Phase} {op : Op} {o : Out}
    (h : PhaseOk tr a p) (ho : o = .invalid ∨ op ≠ .connected a ∧ op ≠ .failed a ∧ ∀ c, op ≠ .ended a c) :
    PhaseOk (tr ++ [(op, o)]) a p := by
  have h1 : Connected (tr ++ [(op, o)]) a ↔ Connected tr a := by
    rw [connected_snoc]
    refine ⟨fun h => h.elim id fun h => ?_, .inl⟩
    rw [Prod.mk.injEq] at h
    rcases ho with ho | ho
    · rw [ho] at h
      cases h.2
    · exact absurd h.1 ho.1
  have h2 : Failed (tr ++ [(op, o)]) a ↔ Failed tr a := by
    rw [failed_snoc]
    refine ⟨fun h => h.elim id fun h => ?_, .inl⟩
    rcases ho with ho | ho
    · exact absurd ho h.1
    · exact h.2.elim (fun h => absurd h ho.2.1) fun h => absurd h (ho.2.2 _)
  have h3 : Finished (tr ++ [(op, o)]) a ↔ Finished tr a := by
    rw [finished_snoc]
    refine ⟨fun h => h.elim id fun h => ?_, .inl⟩
    rw [Prod.mk.injEq] at h
    rcases ho with ho | ho
    · rw [ho] at h
      cases h.2
    · exact absurd h.1 (ho.2.2 _)
  unfold PhaseOk
  rw [h1, h2, h3]
  exact h

def BInv (tr : Trace) (s : State) : Prop := ∀ a : Nat, PhaseOk tr a s.attempts[a]?

theorem run_attempts (s : State) (a : Nat) : (run s).2.attempts[a]? = s.attempts[a]? ∨
    (s.attempts[a]? = none ∧ (run s).2.attempts[a]? = some .connecting) := by
  rw [run_eq]
  dsimp only
  split
  · rw [List.getElem?_append]
    split
    · exact .inl rfl
    · next h =>
      rw [List.getElem?_eq_none (show s.attempts.length ≤ a by omega)]
      by_cases he : a = s.attempts.length
      · right
        subst he
        simp
      · left
        rw [List.getElem?_eq_none (by simp; omega)]
  · exact .inl rfl

theorem binv_run {tr : Trace} {s t : State} {op : Op} (i : BInv tr s) (h : t.attempts = s.attempts)
    (hop : ∀ a, op ≠ .connected a ∧ op ≠ .failed a ∧ ∀ c, op ≠ .ended a c) :
    BInv (tr ++ [(op, (run t).1)]) (run t).2 := by
  intro a
  refine PhaseOk.other ?_ (.inr (hop a))
  rcases run_attempts t a with e | ⟨e1, e2⟩
  · rw [e, h]
    exact i a
  · rw [e2]
    have := i a
    rw [← h, e1] at this
    exact this

theorem binv_set {tr : Trace} {s s' : State} {op : Op} {o : Out} {a : Nat} {p : Phase} (i : BInv tr s)
    (h : s'.attempts = s.attempts.set a p) (ha : (s.attempts[a]?).isSome)
    (hop : ∀ b, b ≠ a → op ≠ .connected b ∧ op ≠ .failed b ∧ ∀ c, op ≠ .ended b c)
    (hp : PhaseOk (tr ++ [(op, o)]) a (some p)) : BInv (tr ++ [(op, o)]) s' := by
  intro b
  rw [h]
  by_cases hb : b = a
  · subst hb
    have hl : b < s.attempts.length := by
      rw [Option.isSome_iff_exists] at ha
      obtain ⟨x, hx⟩ := ha
      exact (List.getElem?_eq_some_iff.mp hx).1
    rw [List.getElem?_set_self hl]
    exact hp
  · rw [List.getElem?_set_ne (by omega)]
    exact (i b).other (.inr (hop b hb))

theorem handle_out (cfg : Cfg) (s : State) : (handle cfg s).1 ≠ .invalid ∧ (handle cfg s).1 ≠ .ok := by
  rw [handle_eq]
  dsimp only
  split <;> simp

theorem binv_step {cfg : Cfg} {tr : Trace} {s s' : State} {op : Op} {o : Out} (i : BInv tr s)
    (k : Kind cfg s op o s') : BInv (tr ++ [(op, o)]) s' := by
  cases k with
  | url u h => exact fun a => (i a).other (.inr ⟨by simp, by simp, by simp⟩)
  | rerun u hu h => exact binv_run i rfl fun _ => ⟨by simp, by simp, by simp⟩
  | connected a h =>
    refine binv_set i (a := a) (p := .opened) rfl (by rw [h]; rfl) (fun b hb => ⟨by simpa using hb.symm, by simp, by simp⟩) ?_
    have := i a
    rw [h] at this
    refine ⟨by rw [connected_snoc]; simp, ?_, ?_⟩
    · rw [failed_snoc]
      simpa using this.2.1
    · rw [finished_snoc]
      simpa using this.2.2
  | failed a h =>
    refine binv_set i (a := a) (p := .over) (handle_same cfg _).2.2.2.1 (by rw [h]; rfl)
      (fun b hb => ⟨by simp, by simpa using hb.symm, by simp⟩) ?_
    have := i a
    rw [h] at this
    refine ⟨.inl ?_, fun hf => absurd hf ?_⟩
    · rw [failed_snoc]
      exact .inr ⟨(handle_out cfg _).1, .inl rfl⟩
    · rw [finished_snoc]
      simpa using this.2.2
  | finished a h =>
    refine binv_set i (a := a) (p := .over) rfl (by rw [h]; rfl)
      (fun b hb => ⟨by simp, by simp, fun c => by simp [hb.symm]⟩) ?_
    have := i a
    rw [h] at this
    refine ⟨.inr ?_, fun _ => ⟨?_, ?_⟩⟩
    · rw [finished_snoc]
      exact .inr rfl
    · rw [connected_snoc]
      exact .inl this.1
    · rw [failed_snoc]
      simpa using this.2.1
  | ended a h =>
    refine binv_set i (a := a) (p := .over) (handle_same cfg _).2.2.2.1 (by rw [h]; rfl)
      (fun b hb => ⟨by simp, by simp, fun c => by simp [hb.symm]⟩) ?_
    have := i a
    rw [h] at this
    refine ⟨.inl ?_, fun hf => absurd hf ?_⟩
    · rw [failed_snoc]
      exact .inr ⟨(handle_out cfg _).1, .inr rfl⟩
    · rw [finished_snoc]
      simpa using this.2.2
  | fire k t h ht hc => exact binv_run i rfl fun _ => ⟨by simp, by simp, by simp⟩
  | fireLate k t h ht => exact fun a => (i a).other (.inr ⟨by simp, by simp, by simp⟩)
  | close h =>
    intro a
    have := (i a).other (op := .close) (o := .ran (cleanup s).1 none) (.inr ⟨by simp, by simp, by simp⟩)
    rw [(cleanup_eq s).2]
    exact this
  | again h => exact fun a => (i a).other (.inr ⟨by simp, by simp, by simp⟩)
  | invalid op h hu => exact fun a => (i a).other (.inl rfl)

/-! ## Which connections are established, and closed -/

def SInv (tr : Trace) (s : State) : Prop :=
  (∀ a, s.established = some a → Connected tr a) ∧ ∀ a, Shut tr a → Connected tr a

theorem sinv_mk {tr : Trace} {s s' : State} {op : Op} {o : Out} (i : SInv tr s)
    (h1 : ∀ a, s'.established = some a → s.established = some a ∨ (op, o) = (.connected a, .ok))
    (h2 : ∀ a st, o = .ran (some a) st → s.established = some a) : SInv (tr ++ [(op, o)]) s' := by
  refine ⟨fun a ha => ?_, fun a ha => ?_⟩
  · rw [connected_snoc]
    exact (h1 a ha).imp (i.1 a) id
  · rw [connected_snoc]
    rw [shut_snoc] at ha
    rcases ha with ha | ⟨st, ha⟩
    · exact .inl (i.2 a ha)
    · exact .inl (i.1 a (h2 a st ha))

theorem run_established (s : State) : (∀ a, (run s).2.established = some a → s.established = some a) ∧
    ∀ a st, (run s).1 = .ran (some a) st → s.established = some a := by
  rw [run_eq]
  dsimp only
  refine ⟨fun a h => ?_, fun a st h => ?_⟩
  · split at h
    · cases h
    · exact h
  · injection h with h
    split at h
    · exact h
    · cases h

theorem sinv_step {cfg : Cfg} {tr : Trace} {s s' : State} {op : Op} {o : Out} (i : SInv tr s)
    (k : Kind cfg s op o s') : SInv (tr ++ [(op, o)]) s' := by
  have hh : ∀ a op, SInv (tr ++ [(op, (handle cfg (advance s a .over)).1)])
      (handle cfg (advance s a .over)).2 := by
    intro a op
    refine sinv_mk i (fun b hb => ?_) fun b st hb => absurd hb ((handle_same cfg _).2.2.2.2 _ _)
    rw [handle_eq] at hb
    cases hb
  cases k with
  | url u h => exact sinv_mk i (fun a h => .inl h) (by simp)
  | rerun u hu h =>
    have := run_established { s with url := u }
    exact sinv_mk i (fun a h => .inl (this.1 a h)) this.2
  | connected a h =>
    refine sinv_mk i (fun b hb => .inr ?_) (by simp)
    injection hb with hb
    rw [hb]
  | failed a h => exact hh a _
  | finished a h => exact sinv_mk i (fun a h => .inl h) (by simp)
  | ended a h => exact hh a _
  | fire k t h ht hc =>
    have := run_established { s with
          timers := s.timers.set k (t, true)
          tick := t }
    exact sinv_mk i (fun a h => .inl (this.1 a h)) this.2
  | fireLate k t h ht => exact sinv_mk i (fun a h => .inl h) (by simp)
  | close h =>
    obtain ⟨c1, c2⟩ := cleanup_eq s
    rw [c1, c2]
    refine sinv_mk i (fun a h => .inl ?_) fun a st h => ?_
    · dsimp only at h
      split at h
      · cases h
      · exact h
    · injection h with h
      split at h
      · exact h
      · cases h
  | again h => exact sinv_mk i (fun a h => .inl h) (by simp)
  | invalid op h hu => exact sinv_mk i (fun a h => .inl h) (by simp)

/-! ## Delays -/

theorem backoff_succ (cfg : Cfg) (n : Nat) :
    min (backoff cfg n * 2) cfg.maxDelay = backoff cfg (n + 1) := by
  unfold backoff
  rw [if_neg (Nat.succ_ne_zero n)]
  split
  · next h =>
    subst h
    simp
  · rw [Nat.pow_succ, ← Nat.mul_assoc]
    generalize cfg.delay * 2 ^ n = x
    omega

def CInv (cfg : Cfg) (tr : Trace) (s : State) : Prop := s.delay = backoff cfg (failures tr)

theorem cinv_step {cfg : Cfg} {tr : Trace} {s s' : State} {op : Op} {o : Out} (i : CInv cfg tr s)
    (k : Kind cfg s op o s') : CInv cfg (tr ++ [(op, o)]) s' := by
  unfold CInv at i ⊢
  have hh : ∀ a, ∀ op, (handle cfg (advance s a .over)).2.delay =
      backoff cfg (failures (tr ++ [(op, (handle cfg (advance s a .over)).1)])) := by
    intro a op
    rw [failures_snoc, handle_eq]
    dsimp only
    cases cfg.reload with
    | false =>
      dsimp only [advance]
      rw [if_neg (by simp), i]
      cases op <;> rfl
    | true =>
      rw [if_pos rfl]
      show min (s.delay * 2) _ = _
      rw [i, backoff_succ]
      cases op <;> rfl
  cases k with
  | url u h => rw [failures_snoc]; exact i
  | rerun u hu h => rw [failures_snoc, run_eq]; exact i
  | connected a h =>
    rw [failures_snoc]
    simp [backoff]
  | failed a h => exact hh a _
  | finished a h => rw [failures_snoc]; exact i
  | ended a h => exact hh a _
  | fire k t h ht hc => rw [failures_snoc, run_eq]; exact i
  | fireLate k t h ht => rw [failures_snoc]; exact i
  | close h => rw [failures_snoc, (cleanup_eq s).2]; exact i
  | again h => rw [failures_snoc]; exact i
  | invalid op h hu =>
    rw [failures_snoc]
    cases op <;> exact i

/-! ## Timers -/

/-- The effect ran. -/
def Ran (tr : Trace) : Prop := ∃ op sh st, (op, .ran sh st) ∈ tr

theorem ran_snoc {tr : Trace} {e : Op × Out} (h : Ran tr) : Ran (tr ++ [e]) :=
  let ⟨op, sh, st, hm⟩ := h
  ⟨op, sh, st, List.mem_append_left _ hm⟩

structure DInv (cfg : Cfg) (tr : Trace) (s : State) : Prop where
  set : ∀ k, Set tr k ↔ k < s.timers.length
  val : ∀ (k t : Nat) f, s.timers[k]? = some (t, f) →
    t ≤ s.tick + 1 ∧ (f = true ↔ Fired tr k) ∧ (f = true → t ≤ s.tick)
  none : ∀ k, s.timers.length ≤ k → ¬ Fired tr k
  alive : s.running = true → cfg.reload = true → ∀ a, Reconnect.latest tr = some a → Failed tr a →
    ∃ k : Nat, s.timers[k]? = some (s.tick + 1, false)
  since : ∀ (k t : Nat) f, s.timers[k]? = some (t, f) → t ≤ s.tick → ∀ pre op w post,
    tr = pre ++ (op, .retry k w) :: post → Ran post ∨ Closed tr

theorem split_snoc {α : Type} {l pre post : List α} {a e : α} (h : l ++ [a] = pre ++ e :: post) :
    (post = [] ∧ l = pre ∧ a = e) ∨ ∃ post', post = post' ++ [a] ∧ l = pre ++ e :: post' := by
  rcases List.eq_nil_or_concat post with rfl | ⟨post', x, rfl⟩
  · left
    have h1 := congrArg List.getLast? h
    have h2 := congrArg List.dropLast h
    simp at h1 h2
    exact ⟨rfl, h2, h1⟩
  · right
    rw [List.concat_eq_append, ← List.cons_append, ← List.append_assoc] at h
    have h1 := congrArg List.getLast? h
    have h2 := congrArg List.dropLast h
    rw [List.getLast?_concat, List.getLast?_concat] at h1
    rw [List.dropLast_concat, List.dropLast_concat] at h2
    injection h1 with h1
    subst h1
    exact ⟨post', by simp, h2⟩

/-- A step that leaves the timers alone. -/
theorem DInv.same {cfg : Cfg} {tr : Trace} {s s' : State} {op : Op} {o : Out} (i : DInv cfg tr s)
    (h1 : s'.timers = s.timers) (h2 : s'.tick = s.tick) (ho : ∀ k w, o ≠ .retry k w)
    (hop : o = .invalid ∨ ∀ k, op ≠ .fire k)
    (hal : s'.running = true → cfg.reload = true → ∀ a, Reconnect.latest (tr ++ [(op, o)]) = some a →
      Failed (tr ++ [(op, o)]) a → s.running = true ∧ Reconnect.latest tr = some a ∧ Failed tr a) :
    DInv cfg (tr ++ [(op, o)]) s' := by
  have hf : ∀ k, Fired (tr ++ [(op, o)]) k ↔ Fired tr k := by
    intro k
    rw [fired_snoc]
    exact ⟨fun h => h.elim id fun h => hop.elim (fun h' => absurd h' h.1) fun h' => absurd h.2 (h' k), .inl⟩
  constructor
  · intro k
    rw [set_snoc, h1, ← i.set k]
    exact ⟨fun h => h.elim id fun ⟨w, h⟩ => absurd h (ho k w), .inl⟩
  · intro k t f h
    rw [h1] at h
    rw [h2, hf k]
    exact i.val k t f h
  · intro k h
    rw [hf k]
    exact i.none k (h1 ▸ h)
  · intro hr hc a ha hfa
    obtain ⟨a1, a2, a3⟩ := hal hr hc a ha hfa
    rw [h1, h2]
    exact i.alive a1 hc a a2 a3
  · intro k t f h ht pre op' w post he
    rw [h1] at h
    rw [h2] at ht
    rw [closed_snoc]
    rcases split_snoc he with ⟨-, -, e⟩ | ⟨post', rfl, he'⟩
    · rw [Prod.mk.injEq] at e
      exact absurd e.2 (ho k w)
    · exact (i.since k t f h ht pre op' w post' he').imp ran_snoc .inl

theorem DInv.handle {cfg : Cfg} {tr : Trace} {s : State} {op : Op} (i : DInv cfg tr s)
    (a : Nat) (hop : ∀ k, op ≠ .fire k) :
    DInv cfg (tr ++ [(op, (handle cfg (advance s a .over)).1)]) (handle cfg (advance s a .over)).2 := by
  rw [handle_eq]
  cases hr : cfg.reload with
  | false =>
    refine i.same rfl rfl (by simp) (.inr hop) fun _ h => ?_
    rw [hr] at h
    cases h
  | true =>
    have hf : ∀ o k, Fired (tr ++ [(op, o)]) k ↔ Fired tr k := by
      intro o k
      rw [fired_snoc]
      exact ⟨fun h => h.elim id fun h => absurd h.2 (hop k), .inl⟩
    dsimp only [advance]
    rw [if_pos rfl, if_pos rfl, if_pos rfl]
    constructor
    · intro k
      rw [set_snoc, i.set k]
      dsimp only
      rw [List.length_append, List.length_singleton]
      constructor
      · rintro (h | ⟨w, h⟩)
        · omega
        · injection h with h
          omega
      · intro h
        by_cases hk : k < s.timers.length
        · exact .inl hk
        · refine .inr ⟨s.delay, ?_⟩
          rw [show k = s.timers.length by omega]
    · intro k t f h
      rw [hf]
      dsimp only at h ⊢
      rw [List.getElem?_append] at h
      split at h
      · exact i.val k t f h
      · next hk =>
        have hk' : k = s.timers.length := by
          have := (List.getElem?_eq_some_iff.mp h).1
          simp at this
          omega
        subst hk'
        simp only [Nat.sub_self, List.getElem?_cons_zero, Option.some.injEq, Prod.mk.injEq] at h
        obtain ⟨rfl, rfl⟩ := h
        refine ⟨Nat.le_refl _, ⟨by simp, fun h => absurd h (i.none _ (Nat.le_refl _))⟩, by simp⟩
    · intro k h
      rw [hf]
      dsimp only at h
      rw [List.length_append] at h
      exact i.none k (by omega)
    · intro _ _ _ _ _
      exact ⟨s.timers.length, by simp⟩
    · intro k t f h ht pre op' w post he
      dsimp only at h ht
      rw [closed_snoc]
      rcases split_snoc he with ⟨-, -, e⟩ | ⟨post', rfl, he'⟩
      · exfalso
        rw [Prod.mk.injEq] at e
        injection e.2 with e
        subst e
        simp at h
        omega
      · rw [List.getElem?_append] at h
        split at h
        · exact (i.since k t f h ht pre op' w post' he').imp ran_snoc .inl
        · next hk =>
          exfalso
          have hk' : k = s.timers.length := by
            have := (List.getElem?_eq_some_iff.mp h).1
            simp at this
            omega
          subst hk'
          simp at h
          omega

/-- A timer fires. -/
theorem DInv.fire {cfg : Cfg} {tr : Trace} {s s' : State} {k t : Nat} {o : Out} (i : DInv cfg tr s)
    (h : s.timers[k]? = some (t, false)) (ho : o ≠ .invalid) (hnr : ∀ k w, o ≠ .retry k w)
    (h1 : s'.timers = s.timers.set k (t, true)) (h2 : s'.tick = max s.tick t)
    (hran : s.tick < t → (∃ a b, o = .ran a b) ∨ Closed tr)
    (hal : s'.running = true → cfg.reload = true → ∀ a, Reconnect.latest (tr ++ [(.fire k, o)]) = some a →
      Failed (tr ++ [(.fire k, o)]) a →
      s.running = true ∧ Reconnect.latest tr = some a ∧ Failed tr a ∧ ¬ s.tick < t) :
    DInv cfg (tr ++ [(.fire k, o)]) s' := by
  have hk : k < s.timers.length := (List.getElem?_eq_some_iff.mp h).1
  have hf : ∀ j, Fired (tr ++ [(.fire k, o)]) j ↔ Fired tr j ∨ j = k := by
    intro j
    rw [fired_snoc]
    refine or_congr_right ⟨fun h => ?_, fun h => ⟨ho, by rw [h]⟩⟩
    injection h.2 with h
    exact h.symm
  have hv := i.val k t false h
  constructor
  · intro j
    rw [set_snoc, h1, List.length_set, ← i.set j]
    exact ⟨fun h => h.elim id fun ⟨w, h⟩ => absurd h (hnr j w), .inl⟩
  · intro j t' f hj
    rw [h1] at hj
    rw [h2, hf j]
    by_cases hjk : j = k
    · subst hjk
      rw [List.getElem?_set_self hk] at hj
      simp only [Option.some.injEq, Prod.mk.injEq] at hj
      obtain ⟨rfl, rfl⟩ := hj
      exact ⟨by omega, by simp, by omega⟩
    · rw [List.getElem?_set_ne (by omega)] at hj
      have := i.val j t' f hj
      refine ⟨by omega, ?_, fun hh => ?_⟩
      · rw [this.2.1]
        exact ⟨.inl, fun h => h.resolve_right hjk⟩
      · have := this.2.2 hh
        omega
  · intro j hj
    rw [h1, List.length_set] at hj
    rw [hf j]
    rintro (h | h)
    · exact i.none j hj h
    · omega
  · intro hr hc a ha hfa
    obtain ⟨a1, a2, a3, a4⟩ := hal hr hc a ha hfa
    obtain ⟨j, hj⟩ := i.alive a1 hc a a2 a3
    have hjk : j ≠ k := by
      intro e
      subst e
      rw [h] at hj
      simp at hj
      omega
    refine ⟨j, ?_⟩
    rw [h1, h2, List.getElem?_set_ne (by omega), hj]
    rw [show max s.tick t = s.tick by omega]
  · intro j t' f hj ht pre op' w post he
    rw [closed_snoc]
    rcases split_snoc he with ⟨-, -, e⟩ | ⟨post', rfl, he'⟩
    · rw [Prod.mk.injEq] at e
      exact absurd e.2 (hnr j w)
    · by_cases hlt : s.tick < t
      · rcases hran hlt with ⟨a, b, rfl⟩ | h
        · exact .inl ⟨.fire k, a, b, by simp⟩
        · exact .inr (.inl h)
      · rw [h2] at ht
        have : ∃ f', s.timers[j]? = some (t', f') := by
          rw [h1] at hj
          by_cases hjk : j = k
          · subst hjk
            rw [List.getElem?_set_self hk] at hj
            simp only [Option.some.injEq, Prod.mk.injEq] at hj
            exact ⟨false, by rw [h, hj.1]⟩
          · rw [List.getElem?_set_ne (by omega)] at hj
            exact ⟨f, hj⟩
        obtain ⟨f', hf'⟩ := this
        exact (i.since j t' f' hf' (by omega) pre op' w post' he').imp ran_snoc .inl

/-- After a run, the newest attempt has not failed. -/
theorem run_fresh {tr : Trace} {s t : State} {op : Op} (ib : BInv tr s) (h : t.attempts = s.attempts)
    (hop : ∀ a, op ≠ .connected a ∧ op ≠ .failed a ∧ ∀ c, op ≠ .ended a c) (a : Nat)
    (ha : Reconnect.latest (tr ++ [(op, (run t).1)]) = some a) : ¬ Failed (tr ++ [(op, (run t).1)]) a := by
  have i2 := binv_run (t := t) (op := op) ib h hop a
  rw [latest_snoc] at ha
  rw [run_eq] at ha i2 ⊢
  dsimp only at ha i2 ⊢
  cases hu : t.url with
  | none => rw [hu] at ha; cases ha
  | some u =>
    rw [hu] at ha i2
    simp only [Option.map_some, Option.some.injEq, Option.isSome_some, if_true] at ha i2
    subst ha
    rw [List.getElem?_append_right (Nat.le_refl _), Nat.sub_self] at i2
    exact i2.2.1

theorem dinv_step {cfg : Cfg} {tr : Trace} {s s' : State} {op : Op} {o : Out} (ia : AInv tr s)
    (ib : BInv tr s) (i : DInv cfg tr s) (k : Kind cfg s op o s') : DInv cfg (tr ++ [(op, o)]) s' := by
  have hsame : ∀ {op : Op} {o : Out} a, (o = .invalid ∨ op ≠ .failed a ∧ op ≠ .ended a false) →
      Failed (tr ++ [(op, o)]) a → Failed tr a := by
    intro op o a h1 h2
    rw [failed_snoc] at h2
    refine h2.elim id fun h => ?_
    rcases h1 with h1 | h1
    · exact absurd h1 h.1
    · exact h.2.elim (fun h => absurd h h1.1) fun h => absurd h h1.2
  cases k with
  | url u h =>
    refine i.same rfl rfl (by simp) (.inr (by simp)) fun h1 _ a h2 h3 => ⟨h1, ?_, hsame a (.inr (by simp)) h3⟩
    rw [latest_snoc] at h2
    exact h2
  | rerun u hu h =>
    refine i.same ?_ ?_ ?_ (.inr (by simp)) ?_
    · rw [run_eq]
    · rw [run_eq]
    · rw [run_eq]; simp
    · intro _ _ a h2 h3
      exact absurd h3 (run_fresh (t := { s with url := u }) ib rfl (fun _ => ⟨by simp, by simp, by simp⟩) a h2)
  | connected a h =>
    refine i.same rfl rfl (by simp) (.inr (by simp)) fun h1 _ a h2 h3 => ⟨h1, ?_, hsame a (.inr (by simp)) h3⟩
    rw [latest_snoc] at h2
    exact h2
  | failed a h => exact i.handle a (by simp)
  | finished a h =>
    refine i.same rfl rfl (by simp) (.inr (by simp)) fun h1 _ a h2 h3 => ⟨h1, ?_, hsame a (.inr (by simp)) h3⟩
    rw [latest_snoc] at h2
    exact h2
  | ended a h => exact i.handle a (by simp)
  | fire k t h ht hc =>
    refine i.fire h ?_ ?_ ?_ ?_ ?_ ?_
    · rw [run_eq]; simp
    · rw [run_eq]; simp
    · rw [run_eq]
    · rw [run_eq]
      dsimp only
      omega
    · intro _
      rw [run_eq]
      exact .inl ⟨_, _, rfl⟩
    · intro _ _ a h2 h3
      exact absurd h3 (run_fresh (t := { s with
          timers := s.timers.set k (t, true)
          tick := t }) ib rfl (fun _ => ⟨by simp, by simp, by simp⟩) a h2)
  | fireLate k t h ht =>
    refine i.fire h (by simp) (by simp) rfl rfl (fun hlt => ?_) ?_
    · exact .inr (ia.closed.mp (ht.resolve_left (by omega)))
    · intro h1 _ a h2 h3
      rw [latest_snoc] at h2
      refine ⟨h1, h2, hsame a (.inr (by simp)) h3, ?_⟩
      refine ht.elim id fun hc => ?_
      have := (ia.running.mp h1).1
      rw [hc] at this
      cases this
  | close h =>
    refine i.same ?_ ?_ (by simp) (.inr (by simp)) fun h1 => ?_
    · rw [(cleanup_eq s).2]
    · rw [(cleanup_eq s).2]
    · rw [(cleanup_eq s).2] at h1
      cases h1
  | again h =>
    refine i.same rfl rfl (by simp) (.inr (by simp)) fun h1 _ a h2 h3 => ⟨h1, ?_, hsame a (.inr (by simp)) h3⟩
    rw [latest_snoc] at h2
    exact h2
  | invalid op h hu =>
    refine i.same rfl rfl (by simp) (.inl rfl) fun h1 _ a h2 h3 => ⟨h1, ?_, hsame a (.inl rfl) h3⟩
    rw [latest_snoc] at h2
    exact h2

structure Inv (cfg : Cfg) (tr : Trace) (s : State) : Prop where
  a : AInv tr s
  b : BInv tr s
  c : CInv cfg tr s
  d : DInv cfg tr s
  s : SInv tr s

theorem inv_reach {cfg : Cfg} {tr : Trace} {s : State} (h : (machine cfg).Reach tr s) : Inv cfg tr s := by
  refine Machine.Reach.induct (M := machine cfg) (P := fun tr s => Inv cfg tr s) ?_ ?_ h
  · refine ⟨⟨rfl, ⟨fun h => (by cases h), fun ⟨_, h⟩ => (by cases h)⟩, ?_, rfl, rfl,
      fun h => (by cases h)⟩, ?_, ?_, ?_, fun a h => (by cases h), fun a ⟨_, _, h⟩ => (by cases h)⟩
    · simp [init]
    · intro a
      refine ⟨fun h => ?_, fun ⟨_, _, h⟩ => ?_, fun h => ?_⟩
      · cases h
      · rcases h with h | h <;> cases h
      · cases h
    · show cfg.delay = _
      simp [backoff, failures]
    · exact ⟨fun k => ⟨fun ⟨_, _, h⟩ => (by cases h), fun h => (by cases h)⟩,
        fun k t f h => (by cases h), fun k _ ⟨_, _, h⟩ => (by cases h), fun h => (by cases h),
        fun k t f h => (by cases h)⟩
  · intro tr s op _ i
    have k := step_kind cfg s op
    exact ⟨ainv_step i.a k, binv_step i.b k, cinv_step i.c k, dinv_step i.a i.b i.d k, sinv_step i.s k⟩

/-! ## Old timers -/

/-- A run that a timer caused. -/
def FireRan (tr : Trace) : Prop := ∃ j shut st, (Op.fire j, Out.ran shut st) ∈ tr

/-- Timers that were set before a run that a timer caused are out of date. -/
def OInv (tr : Trace) (s : State) : Prop :=
  ∀ (k t : Nat) f, s.timers[k]? = some (t, f) → ∀ pre op w post,
    tr = pre ++ (op, .retry k w) :: post → FireRan post → t ≤ s.tick

theorem oinv_mk {cfg : Cfg} {tr : Trace} {s s' : State} {op : Op} {o : Out} (i : OInv tr s)
    (d : DInv cfg tr s) (h : ∀ j shut st, (op, o) ≠ (.fire j, .ran shut st))
    (ht : s.tick ≤ s'.tick)
    (hold : ∀ k t f, k < s.timers.length → s'.timers[k]? = some (t, f) → ∃ f', s.timers[k]? = some (t, f')) :
    OInv (tr ++ [(op, o)]) s' := by
  intro k t f hk pre op' w post he hf
  rcases split_snoc he with ⟨rfl, -, -⟩ | ⟨post', rfl, he'⟩
  · obtain ⟨_, _, _, h⟩ := hf
    cases h
  · have hlt := (d.set k).mp ⟨op', w, by rw [he']; simp⟩
    obtain ⟨f', hf'⟩ := hold k t f hlt hk
    obtain ⟨j, shut, st, hm⟩ := hf
    rcases List.mem_append.mp hm with hm | hm
    · exact Nat.le_trans (i k t f' hf' pre op' w post' he' ⟨j, shut, st, hm⟩) ht
    · rw [List.mem_singleton] at hm
      exact absurd hm.symm (h j shut st)

theorem oinv_step {cfg : Cfg} {tr : Trace} {s s' : State} {op : Op} {o : Out} (i : OInv tr s)
    (d : DInv cfg tr s) (k : Kind cfg s op o s') : OInv (tr ++ [(op, o)]) s' := by
  have hset : ∀ (j k t t' : Nat) f f', s.timers[j]? = some (t', f') →
      (s.timers.set j (t', true))[k]? = some (t, f) → ∃ f', s.timers[k]? = some (t, f') := by
    intro j k t t' f f' hj hk
    rw [List.getElem?_set] at hk
    split at hk
    · next e =>
      subst e
      split at hk
      · injection hk with hk
        injection hk with h1 h2
        exact ⟨f', by rw [hj, h1]⟩
      · cases hk
    · exact ⟨f, hk⟩
  have hhandle : ∀ (a : Nat) (op : Op), (∀ j, op ≠ .fire j) →
      OInv (tr ++ [(op, (handle cfg (advance s a .over)).1)]) (handle cfg (advance s a .over)).2 := by
    intro a op hop
    refine oinv_mk i d (fun j shut st e => hop j (by injection e)) (by rw [handle_eq]; exact Nat.le_refl _) ?_
    intro k t f hlt hk
    rw [handle_eq] at hk
    dsimp only [advance] at hk
    refine ⟨f, ?_⟩
    split at hk
    · rwa [List.getElem?_append_left hlt] at hk
    · exact hk
  cases k with
  | url u h => exact oinv_mk i d (by simp) (Nat.le_refl _) fun k t f _ h => ⟨f, h⟩
  | rerun u hu h =>
    rw [run_eq]
    exact oinv_mk i d (by simp) (Nat.le_refl _) fun k t f _ h => ⟨f, h⟩
  | connected a h => exact oinv_mk i d (by simp) (Nat.le_refl _) fun k t f _ h => ⟨f, h⟩
  | failed a h => exact hhandle a _ (by simp)
  | finished a h => exact oinv_mk i d (by simp) (Nat.le_refl _) fun k t f _ h => ⟨f, h⟩
  | ended a h => exact hhandle a _ (by simp)
  | fire j t h ht hc =>
    intro k t' f' hk pre op' w post he hf
    rw [run_eq] at hk ⊢
    dsimp only at hk ⊢
    obtain ⟨f, hf'⟩ := hset j k t' t f' _ h hk
    have := (d.val k t' f hf').1
    omega
  | fireLate j t h ht =>
    exact oinv_mk i d (by simp) (Nat.le_max_left _ _) fun k t' f _ hk => hset j k t' t f _ h hk
  | close h =>
    refine oinv_mk i d (by simp) ?_ fun k t f _ h => ⟨f, ?_⟩
    · rw [(cleanup_eq s).2]
      exact Nat.le_refl _
    · rw [(cleanup_eq s).2] at h
      exact h
  | again h => exact oinv_mk i d (by simp) (Nat.le_refl _) fun k t f _ h => ⟨f, h⟩
  | invalid op h hu => exact oinv_mk i d (by simp) (Nat.le_refl _) fun k t f _ h => ⟨f, h⟩

theorem oinv_reach {cfg : Cfg} {tr : Trace} {s : State} (h : (machine cfg).Reach tr s) : OInv tr s := by
  refine Machine.Reach.induct (M := machine cfg) (P := fun tr s => OInv tr s) ?_ ?_ h
  · intro k t f h
    cases h
  · intro tr s op h i
    exact oinv_step i (inv_reach h).d (step_kind cfg s op)

/-! ## Histories in which outcomes arrive only for the latest attempt -/

theorem calm_init {tr : Trace} {e : Op × Out} (h : Calm (tr ++ [e])) : Calm tr :=
  fun before x after a hs hx => h before x (after ++ [e]) a (by rw [hs]; simp) hx

theorem calm_last {tr : Trace} {e : Op × Out} (h : Calm (tr ++ [e])) (a : Nat) (hx : subject e = some a) :
    latest tr = some a := h tr e [] a rfl hx

structure EInv (tr : Trace) (s : State) : Prop where
  running : ∀ a, s.established = some a → s.running = true ∧ a = s.attempts.length - 1
  kept : ∀ a : Nat, s.attempts[a]? = some .opened → ¬ Shut tr a → s.established = some a
  fine : ∀ a, s.established = some a → ¬ Shut tr a ∧ ¬ Failed tr a
  status : (s.status = .connected ↔ s.established.isSome) ∧
    (s.status = .connecting ↔ s.running = true ∧ s.attempts[s.attempts.length - 1]? = some .connecting)

theorem fine_snoc {tr : Trace} {op : Op} {o : Out} {a : Nat} (h : ¬ Shut tr a ∧ ¬ Failed tr a)
    (ho : ∀ x y, o ≠ .ran x y) (hop : o = .invalid ∨ op ≠ .failed a ∧ op ≠ .ended a false) :
    ¬ Shut (tr ++ [(op, o)]) a ∧ ¬ Failed (tr ++ [(op, o)]) a := by
  rw [shut_snoc, failed_snoc]
  refine ⟨fun h' => h'.elim h.1 fun ⟨st, h'⟩ => ho _ _ h', fun h' => h'.elim h.2 fun h' => ?_⟩
  rcases hop with hop | hop
  · exact h'.1 hop
  · exact h'.2.elim hop.1 hop.2

theorem EInv.same {tr : Trace} {s s' : State} {op : Op} {o : Out} (i : EInv tr s)
    (ho : ∀ x y, o ≠ .ran x y) (hop : o = .invalid ∨ ∀ a, op ≠ .failed a ∧ op ≠ .ended a false)
    (h1 : s'.established = s.established) (h2 : s'.running = s.running) (h3 : s'.attempts = s.attempts)
    (h4 : s'.status = s.status) : EInv (tr ++ [(op, o)]) s' := by
  constructor
  · rw [h1, h2, h3]
    exact i.running
  · rw [h1, h3]
    intro a h hs
    rw [shut_snoc] at hs
    exact i.kept a h fun h => hs (.inl h)
  · rw [h1]
    intro a ha
    exact fine_snoc (i.fine a ha) ho (hop.imp_right fun h => h a)
  · rw [h1, h2, h3, h4]
    exact i.status

theorem EInv.handle {cfg : Cfg} {tr : Trace} {s : State} {op : Op} {o : Out} {a : Nat} (ia : AInv tr s)
    (i : EInv tr s) (hl : latest tr = some a) (h : (s.attempts[a]?).isSome) :
    EInv (tr ++ [(op, o)]) (handle cfg (advance s a .over)).2 := by
  have ha : a = s.attempts.length - 1 := by
    have := ia.latest
    rw [hl] at this
    split at this
    · injection this
    · cases this
  have hlt : a < s.attempts.length := by
    rw [Option.isSome_iff_exists] at h
    obtain ⟨x, hx⟩ := h
    exact (List.getElem?_eq_some_iff.mp hx).1
  rw [handle_eq]
  dsimp only [advance]
  constructor
  · simp
  · intro b hb hs
    exfalso
    dsimp only at hb
    by_cases hba : b = a
    · subst hba
      rw [List.getElem?_set_self hlt] at hb
      cases hb
    · rw [List.getElem?_set_ne (by omega)] at hb
      have := i.running b (i.kept b hb fun h => hs (by rw [shut_snoc]; exact .inl h))
      omega
  · simp
  · constructor
    · simp
    · dsimp only
      rw [List.length_set, ← ha, List.getElem?_set_self hlt]
      simp

theorem einv_run {tr : Trace} {s t : State} {op : Op} (i : EInv tr s)
    (h1 : t.established = s.established) (h2 : t.running = s.running) (h3 : t.attempts = s.attempts)
    (h4 : t.status = s.status) : EInv (tr ++ [(op, (run t).1)]) (run t).2 := by
  have hest : (run t).2.established = none := by
    rw [run_eq]
    dsimp only
    split
    · rfl
    · next hr =>
      cases he : t.established with
      | none => rfl
      | some a =>
        have := i.running a (h1 ▸ he)
        rw [h2] at hr
        exact absurd this.1 hr
  constructor
  · rw [hest]
    simp
  · intro b hb hs
    exfalso
    have hb' : s.attempts[b]? = some .opened := by
      rcases run_attempts t b with e | ⟨e1, e2⟩
      · rw [e, h3] at hb
        exact hb
      · rw [e2] at hb
        cases hb
    rw [shut_snoc] at hs
    have he := i.kept b hb' fun h => hs (.inl h)
    refine hs (.inr ?_)
    rw [run_eq, h1, h2, he, (i.running b he).1]
    exact ⟨_, rfl⟩
  · rw [hest]
    simp
  · rw [hest]
    rw [run_eq]
    dsimp only
    cases hu : t.url with
    | some u => simp
    | none =>
      simp only [Option.isSome_none, if_false, Bool.false_eq_true]
      split
      · simp
      · next hr =>
        rw [h2] at hr
        have hen : s.established = none := by
          cases he : s.established with
          | none => rfl
          | some a => exact absurd (i.running a he).1 hr
        obtain ⟨e1, e2⟩ := i.status
        rw [h4, e1, e2, hen]
        simp [hr]

theorem handle_subject (cfg : Cfg) (s : State) (a : Nat) :
    subject (.failed a, (handle cfg s).1) = some a ∧ subject (.ended a false, (handle cfg s).1) = some a := by
  rw [handle_eq]
  cases cfg.reload <;> exact ⟨rfl, rfl⟩

theorem einv_step {cfg : Cfg} {tr : Trace} {s s' : State} {op : Op} {o : Out} (ia : AInv tr s)
    (ib : BInv tr s) (is : SInv tr s) (i : EInv tr s) (k : Kind cfg s op o s') (hc : Calm (tr ++ [(op, o)])) :
    EInv (tr ++ [(op, o)]) s' := by
  cases k with
  | url u h => exact i.same (by simp) (.inr (by simp)) rfl rfl rfl rfl
  | rerun u hu h => exact einv_run (t := { s with url := u }) i rfl rfl rfl rfl
  | connected a h =>
    have hl := calm_last hc a rfl
    have hlt : a < s.attempts.length := (List.getElem?_eq_some_iff.mp h).1
    have ha : s.running = true ∧ a = s.attempts.length - 1 := by
      have := ia.latest
      rw [hl] at this
      split at this
      · next hr =>
        injection this with this
        exact ⟨hr, this⟩
      · cases this
    dsimp only [advance]
    constructor
    · intro b hb
      injection hb with hb
      subst hb
      dsimp only
      rw [List.length_set]
      exact ha
    · intro b hb hs
      dsimp only at hb ⊢
      by_cases hba : b = a
      · rw [hba]
      · exfalso
        rw [List.getElem?_set_ne (by omega)] at hb
        have := i.running b (i.kept b hb fun h => hs (by rw [shut_snoc]; exact .inl h))
        omega
    · intro b hb
      injection hb with hb
      subst hb
      have hp := ib a
      rw [h] at hp
      exact fine_snoc ⟨fun h => hp.1 (is.2 a h), hp.2.1⟩ (by simp) (.inr (by simp))
    · constructor
      · simp
      · dsimp only
        rw [List.length_set, ← ha.2, List.getElem?_set_self hlt]
        simp
  | failed a h => exact i.handle ia (calm_last hc a (handle_subject cfg _ a).1) (by rw [h]; rfl)
  | finished a h =>
    have hlt : a < s.attempts.length := (List.getElem?_eq_some_iff.mp h).1
    dsimp only [advance]
    constructor
    · dsimp only
      rw [List.length_set]
      exact i.running
    · intro b hb hs
      dsimp only at hb ⊢
      by_cases hba : b = a
      · subst hba
        rw [List.getElem?_set_self hlt] at hb
        cases hb
      · rw [List.getElem?_set_ne (by omega)] at hb
        exact i.kept b hb fun h => hs (by rw [shut_snoc]; exact .inl h)
    · intro b hb
      exact fine_snoc (i.fine b hb) (by simp) (.inr (by simp))
    · refine ⟨i.status.1, ?_⟩
      dsimp only
      rw [i.status.2, List.length_set]
      by_cases hla : a = s.attempts.length - 1
      · rw [← hla, List.getElem?_set_self hlt, h]
        simp
      · rw [List.getElem?_set_ne hla]
  | ended a h => exact i.handle ia (calm_last hc a (handle_subject cfg _ a).2) (by rw [h]; rfl)
  | fire k t h ht hc =>
    exact einv_run (t := { s with
          timers := s.timers.set k (t, true)
          tick := t }) i rfl rfl rfl rfl
  | fireLate k t h ht => exact i.same (by simp) (.inr (by simp)) rfl rfl rfl rfl
  | close h =>
    obtain ⟨c1, c2⟩ := cleanup_eq s
    have hest : (if s.running = true then none else s.established) = none := by
      split
      · rfl
      · next hr =>
        cases he : s.established with
        | none => rfl
        | some a => exact absurd (i.running a he).1 hr
    rw [c1, c2]
    constructor
    · dsimp only
      rw [hest]
      simp
    · intro b hb hs
      exfalso
      rw [shut_snoc] at hs
      have he := i.kept b hb fun h => hs (.inl h)
      refine hs (.inr ?_)
      rw [he, (i.running b he).1]
      exact ⟨_, rfl⟩
    · dsimp only
      rw [hest]
      simp
    · dsimp only
      rw [hest]
      split
      · simp
      · next hr =>
        have hen : s.established = none := by
          cases he : s.established with
          | none => rfl
          | some a => exact absurd (i.running a he).1 hr
        obtain ⟨e1, e2⟩ := i.status
        rw [e1, e2, hen]
        simp [hr]
  | again h => exact i.same (by simp) (.inr (by simp)) rfl rfl rfl rfl
  | invalid op h hu => exact i.same (by simp) (.inl rfl) rfl rfl rfl rfl

theorem einv_reach {cfg : Cfg} {tr : Trace} {s : State} (h : (machine cfg).Reach tr s) (hc : Calm tr) :
    EInv tr s := by
  refine Machine.Reach.induct (M := machine cfg) (P := fun tr s => Calm tr → EInv tr s) ?_ ?_ h hc
  · intro _
    refine ⟨fun a h => (by cases h), fun a h => (by cases h), fun a h => (by cases h), ?_⟩
    simp [init]
  · intro tr s op hr ih hc
    exact einv_step (inv_reach hr).a (inv_reach hr).b (inv_reach hr).s (ih (calm_init hc)) (step_kind cfg s op) hc

/-! ## Connections that are forgotten -/

/-- The connection is not established, and its attempt will not establish it. -/
def Forgotten (s : State) (b : Nat) : Prop :=
  s.established ≠ some b ∧ b < s.attempts.length ∧ s.attempts[b]? ≠ some .connecting

theorem set_forgotten {l : List Phase} {b a : Nat} {p : Phase} (h : b < l.length)
    (hb : l[b]? ≠ some .connecting) (hp : p ≠ .connecting) :
    b < (l.set a p).length ∧ (l.set a p)[b]? ≠ some .connecting := by
  refine ⟨by rw [List.length_set]; exact h, ?_⟩
  by_cases hab : a = b
  · subst hab
    rw [List.getElem?_set_self h]
    simpa using hp
  · rw [List.getElem?_set_ne hab]
    exact hb

theorem run_forgotten {s t : State} {b : Nat} (f : Forgotten s b) (h1 : t.established = s.established)
    (h3 : t.attempts = s.attempts) :
    (∀ st, (run t).1 ≠ .ran (some b) st) ∧ Forgotten (run t).2 b := by
  obtain ⟨f1, f2, f3⟩ := f
  refine ⟨fun st => ?_, ?_, ?_, ?_⟩
  · rw [run_eq]
    dsimp only
    rw [h1]
    split
    · intro h
      injection h with h
      exact f1 h
    · simp
  · rw [run_eq]
    dsimp only
    rw [h1]
    split
    · simp
    · exact f1
  · rw [run_eq]
    dsimp only
    rw [h3]
    split
    · rw [List.length_append]
      omega
    · exact f2
  · rcases run_attempts t b with e | ⟨e1, -⟩
    · rw [e, h3]
      exact f3
    · rw [h3, List.getElem?_eq_getElem f2] at e1
      cases e1

theorem forgotten_step {cfg : Cfg} {s s' : State} {op : Op} {o : Out} {b : Nat} (f : Forgotten s b)
    (k : Kind cfg s op o s') : (∀ st, o ≠ .ran (some b) st) ∧ Forgotten s' b := by
  obtain ⟨f1, f2, f3⟩ := f
  have hh : ∀ a, (∀ st, (handle cfg (advance s a .over)).1 ≠ .ran (some b) st) ∧
      Forgotten (handle cfg (advance s a .over)).2 b := by
    intro a
    refine ⟨fun st => (handle_same cfg _).2.2.2.2 _ _, ?_, ?_⟩
    · rw [handle_eq]
      simp
    · rw [(handle_same cfg _).2.2.2.1]
      exact set_forgotten f2 f3 (by simp)
  cases k with
  | url u h => exact ⟨by simp, f1, f2, f3⟩
  | rerun u hu h => exact run_forgotten ⟨f1, f2, f3⟩ rfl rfl
  | connected a h =>
    refine ⟨by simp, ?_, set_forgotten f2 f3 (by simp)⟩
    intro e
    injection e with e
    rw [e] at h
    exact f3 h
  | failed a h => exact hh a
  | finished a h => exact ⟨by simp, f1, set_forgotten f2 f3 (by simp)⟩
  | ended a h => exact hh a
  | fire k t h ht hc => exact run_forgotten ⟨f1, f2, f3⟩ rfl rfl
  | fireLate k t h ht => exact ⟨by simp, f1, f2, f3⟩
  | close h =>
    obtain ⟨c1, c2⟩ := cleanup_eq s
    rw [c1, c2]
    refine ⟨fun st => ?_, ?_, f2, f3⟩
    · split
      · intro h
        injection h with h
        exact f1 h
      · simp
    · dsimp only
      split
      · simp
      · exact f1
  | again h => exact ⟨by simp, f1, f2, f3⟩
  | invalid op h hu => exact ⟨by simp, f1, f2, f3⟩

theorem forgotten_run {cfg : Cfg} {b : Nat} (ops : List Op) : ∀ {s : State}, Forgotten s b →
    ¬ Shut ((machine cfg).runFrom s ops).1 b := by
  induction ops with
  | nil =>
    rintro s - ⟨_, _, h⟩
    cases h
  | cons op ops ih =>
    rintro s f ⟨op', st, h⟩
    obtain ⟨h1, h2⟩ := forgotten_step f (step_kind cfg s op)
    rw [Machine.runFrom] at h
    rcases List.mem_cons.mp h with h | h
    · rw [Prod.mk.injEq] at h
      exact h1 st h.2.symm
    · exact ih h2 ⟨op', st, h⟩

end Verif.Js.Reconnect
