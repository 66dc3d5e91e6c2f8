import Verif.Js.ChatCatalog

/-!
# C131: the catalog of a chat
-/

set_option autoImplicit false

namespace Verif.Props.JsChatCatalog

open Verif Verif.Js.ChatCatalog

/-! ## Specification -/

/-- What is known from the history. -/
structure Hist where
  created : Bool
  closed : Bool
  enabled : Bool
  ttl : Option Nat
  /-- the readers that have come and not left -/
  readers : List Nat

def see (h : Hist) : Op × Out → Hist
  | (.create e t, .ok) => { h with created := true, enabled := e, ttl := t }
  | (.setEnabled e, .ok) => { h with enabled := e }
  | (.setTtl t, .ok) => { h with ttl := t }
  | (.close, .ok) => { h with closed := true }
  | (_, .reader (some r)) => { h with readers := h.readers ++ [r] }
  | (.leave r, .ok) => { h with readers := h.readers.erase r }
  | _ => h

def hist (tr : Trace) : Hist := tr.foldl see ⟨false, false, false, none, []⟩

theorem hist_snoc (tr : Trace) (e : Op × Out) : hist (tr ++ [e]) = see (hist tr) e := by simp [hist]

/-- Whether there is a chat for others. -/
def offered (h : Hist) : Bool := h.enabled && !h.closed

/-! ## Invariant -/

variable {tr : Trace} {s : State}

structure Inv (h : Hist) (s : State) : Prop where
  created : h.created = s.created
  closed : h.closed = s.closed
  enabled : h.enabled = s.enabled
  ttl : h.ttl = s.ttl
  readers : h.readers = s.readers
  present : s.present = offered h
  consumers : s.consumers = (s.readers.length : Int) + if s.present then 1 else 0
  cur : s.cur = s.present
  catalog : s.closed = false → s.catalog = if s.enabled then some s.ttl else none
  fresh : s.created = false → s.enabled = false ∧ s.closed = false ∧ s.ttl = none ∧ s.catalog = none ∧ s.first = false
  lt : ∀ r ∈ s.readers, r < s.count
  nodup : s.readers.Nodup

/-- A reader comes. -/
theorem inv_come {h : Hist} {s : State} (v : Inv h s) :
    Inv { h with readers := h.readers ++ [s.count] }
      { s with readers := s.readers ++ [s.count], count := s.count + 1, consumers := s.consumers + 1 } := by
  refine ⟨v.created, v.closed, v.enabled, v.ttl, congrArg (· ++ [s.count]) v.readers, v.present, ?_, v.cur, v.catalog, v.fresh, ?_, ?_⟩
  · have := v.consumers
    simp only [List.length_append, List.length_singleton]
    omega
  · intro r hr
    rw [List.mem_append, List.mem_singleton] at hr
    rcases hr with hr | hr
    · exact Nat.lt_succ_of_lt (v.lt r hr)
    · exact hr ▸ Nat.lt_succ_self _
  · rw [List.nodup_append]
    refine ⟨v.nodup, by simp, ?_⟩
    intro a ha b hb
    rw [List.mem_singleton] at hb
    have := v.lt a ha
    omega

/-- A reader leaves. -/
theorem inv_leave {h : Hist} {s : State} (v : Inv h s) (r : Nat) (hr : r ∈ s.readers) :
    Inv { h with readers := h.readers.erase r } { s with readers := s.readers.erase r, consumers := s.consumers - 1 } := by
  refine ⟨v.created, v.closed, v.enabled, v.ttl, congrArg (·.erase r) v.readers, v.present, ?_, v.cur, v.catalog, v.fresh, ?_, v.nodup.erase r⟩
  · have := v.consumers
    have := List.length_erase_of_mem hr
    have := List.length_pos_of_mem hr
    simp only
    omega
  · exact fun x hx => v.lt x (List.mem_of_mem_erase hx)

theorem not_created {h : Hist} {s : State} (v : Inv h s) (op : Op) (ho : step s op = (.invalid, s)) :
    Inv (see h (op, (step s op).1)) (step s op).2 := by
  rw [ho]
  have : see h (op, .invalid) = h := by cases op <;> rfl
  rw [this]
  exact v

/-- The effect after a change of the signals. -/
theorem inv_effect {h h' : Hist} {s : State} (v : Inv h s) (hc : s.created = true) (hn : s.closed = false) (e : Bool) (t : Option Nat)
    (hh : h' = { h with enabled := e, ttl := t }) : Inv h' (effect { s with enabled := e, ttl := t }) := by
  subst hh
  have hp := v.present
  have hco := v.consumers
  have hcu := v.cur
  have hx : ∀ {p : Prop}, s.created = false → p := fun h => by rw [hc] at h; cases h
  have hcl : h.closed = false := v.closed.trans hn
  cases e <;> cases hpr : s.present <;> rw [hpr] at hp hco hcu
  · simp only [effect, hcu, function, Bool.not_false, if_true, Bool.false_eq_true, if_false]
    exact ⟨v.created, v.closed, rfl, rfl, v.readers, by simp [offered, hpr], by simpa [hpr] using hco, by simp [hpr], fun _ => rfl, hx, v.lt, v.nodup⟩
  · simp only [effect, hcu, function, Bool.not_false, if_true, removeTrack, hpr]
    exact ⟨v.created, v.closed, rfl, rfl, v.readers, by simp [offered], by simp at hco ⊢; omega, by simp, fun _ => rfl, hx, v.lt, v.nodup⟩
  · simp only [effect, hcu, function, Bool.not_true, Bool.false_eq_true, if_false, insertTrack, hpr]
    exact ⟨v.created, v.closed, rfl, rfl, v.readers, by simp [offered, hcl], by simp at hco ⊢; omega, by simp, fun _ => rfl, hx, v.lt, v.nodup⟩
  · simp only [effect, hcu, function, Bool.not_true, Bool.false_eq_true, if_false, if_true, insertTrack, removeTrack, hpr]
    exact ⟨v.created, v.closed, rfl, rfl, v.readers, by simp [offered, hcl], by simp at hco ⊢; omega, by simp, fun _ => rfl, hx, v.lt, v.nodup⟩

/-- Setting a signal that nothing depends on. -/
theorem inv_set {h h' : Hist} {s : State} (v : Inv h s) (hc : s.created = true) (e : Bool) (t : Option Nat)
    (hw : s.closed = true ∨ (e = s.enabled ∧ (s.enabled = true → t = s.ttl)))
    (hh : h' = { h with enabled := e, ttl := t }) : Inv h' { s with enabled := e, ttl := t } := by
  subst hh
  have hx : ∀ {p : Prop}, s.created = false → p := fun h => by rw [hc] at h; cases h
  refine ⟨v.created, v.closed, rfl, rfl, v.readers, ?_, v.consumers, v.cur, ?_, hx, v.lt, v.nodup⟩
  · rw [show ({ s with enabled := e, ttl := t } : State).present = s.present from rfl, v.present]
    rcases hw with hw | ⟨rfl, -⟩
    · simp [offered, v.closed, hw]
    · simp [offered, v.enabled]
  · intro hn
    have hn : s.closed = false := hn
    rcases hw with hw | ⟨rfl, ht⟩
    · rw [hn] at hw
      cases hw
    · rw [show ({ s with enabled := s.enabled, ttl := t } : State).catalog = s.catalog from rfl, v.catalog hn]
      cases he : s.enabled with
      | false => rfl
      | true => rw [ht he]

theorem inv_close {h : Hist} {s : State} (v : Inv h s) (hc : s.created = true) : Inv { h with closed := true } (step s .close).2 := by
  have hx : ∀ {p : Prop}, s.created = false → p := fun h => by rw [hc] at h; cases h
  have hco := v.consumers
  have hcu := v.cur
  cases hpr : s.present <;> rw [hpr] at hco hcu <;> cases hf : s.first <;>
    simp only [step, hc, Bool.not_true, Bool.false_eq_true, if_false, hcu, removeTrack, hpr, if_true, hf]
  all_goals
    refine ⟨v.created.trans hc, rfl, v.enabled, v.ttl, v.readers, by simp [offered], ?_, by simp, (nomatch ·), (nomatch ·), v.lt, v.nodup⟩
    simp at hco ⊢
    omega

theorem inv_step {h : Hist} {s : State} (v : Inv h s) (op : Op) : Inv (see h (op, (step s op).1)) (step s op).2 := by
  cases hc : s.created with
  | false =>
    obtain ⟨f1, f2, f3, f4, f5⟩ := v.fresh hc
    have hp : s.present = false := by rw [v.present, offered, v.enabled, f1]; rfl
    cases op with
    | create e t =>
      have hco := v.consumers
      have hcu := v.cur
      rw [hp] at hco hcu
      have hcl : h.closed = false := v.closed.trans f2
      cases e
      · simp only [step, hc, function, effect, hcu, Bool.not_false, if_true, Bool.false_eq_true, if_false, see]
        exact ⟨rfl, v.closed, rfl, rfl, v.readers, by simp [offered, hp], by simpa [hp] using hco, by simp [hp], fun _ => rfl, (nomatch ·), v.lt, v.nodup⟩
      · simp only [step, hc, function, effect, insertTrack, hcu, hp, Bool.not_true, if_true, Bool.false_eq_true, if_false, see]
        exact ⟨rfl, v.closed, rfl, rfl, v.readers, by simp [offered, hcl], by simp at hco ⊢; omega, by simp, fun _ => rfl, (nomatch ·), v.lt, v.nodup⟩
    | subscribe =>
      have : step s .subscribe = (.reader none, s) := by simp [step, hp]
      rw [this]
      exact v
    | leave r =>
      by_cases hr : r ∈ s.readers
      · simp only [step, hr, if_true, see]
        exact inv_leave v r hr
      · exact not_created v _ (by simp [step, hr])
    | setEnabled e => exact not_created v _ (by simp [step, hc])
    | setTtl t => exact not_created v _ (by simp [step, hc])
    | close => exact not_created v _ (by simp [step, hc])
    | catalog => exact not_created v _ (by simp [step, hc])
    | consume => exact not_created v _ (by simp [step, hc])
    | publish => exact not_created v _ (by simp [step, hc])
    | consumers => exact not_created v _ (by simp [step, hc])
  | true =>
    cases op with
    | create e t => exact not_created v _ (by simp [step, hc])
    | setEnabled e =>
      by_cases hw : (s.closed || s.enabled = e) = true
      · have : step s (.setEnabled e) = (.ok, { s with enabled := e }) := by
          simp only [step, hc, Bool.not_true, Bool.false_eq_true, if_false, hw, if_true]
        rw [this]
        simp only [Bool.or_eq_true, decide_eq_true_eq] at hw
        exact inv_set v hc e s.ttl (hw.imp id fun he => ⟨he.symm, fun _ => rfl⟩) (by simp only [see]; rw [← v.ttl])
      · have : step s (.setEnabled e) = (.ok, effect { s with enabled := e }) := by
          simp only [step, hc, Bool.not_true, Bool.false_eq_true, if_false, hw]
        rw [this]
        have hn : s.closed = false := by
          cases hx : s.closed with
          | false => rfl
          | true => exact absurd (by simp [hx]) hw
        exact inv_effect v hc hn e s.ttl (by simp only [see]; rw [← v.ttl])
    | setTtl t =>
      by_cases hw : (s.closed || s.ttl = t || !s.enabled) = true
      · have : step s (.setTtl t) = (.ok, { s with ttl := t }) := by
          simp only [step, hc, Bool.not_true, Bool.false_eq_true, if_false, hw, if_true]
        rw [this]
        simp only [Bool.or_eq_true, decide_eq_true_eq, Bool.not_eq_true'] at hw
        refine inv_set v hc s.enabled t ?_ (by simp only [see]; rw [← v.enabled])
        rcases hw with (hw | hw) | hw
        · exact .inl hw
        · exact .inr ⟨rfl, fun _ => hw.symm⟩
        · exact .inr ⟨rfl, fun hx => by rw [hw] at hx; cases hx⟩
      · have : step s (.setTtl t) = (.ok, effect { s with ttl := t }) := by
          simp only [step, hc, Bool.not_true, Bool.false_eq_true, if_false, hw]
        rw [this]
        have hn : s.closed = false := by
          cases hx : s.closed with
          | false => rfl
          | true => exact absurd (by simp [hx]) hw
        exact inv_effect v hc hn s.enabled t (by simp only [see]; rw [← v.enabled])
    | close =>
      have : (step s .close).1 = .ok := by simp [step, hc]
      rw [this]
      exact inv_close v hc
    | subscribe =>
      cases hp : s.present with
      | true =>
        have : step s .subscribe = (.reader (some s.count), { s with readers := s.readers ++ [s.count], count := s.count + 1, consumers := s.consumers + 1 }) := by
          simp [step, hp]
        rw [this]
        exact inv_come v
      | false =>
        have : step s .subscribe = (.reader none, s) := by simp [step, hp]
        rw [this]
        exact v
    | consume =>
      have : step s .consume = (.reader (some s.count), { s with readers := s.readers ++ [s.count], count := s.count + 1, consumers := s.consumers + 1 }) := by
        simp [step, hc]
      rw [this]
      exact inv_come v
    | leave r =>
      by_cases hr : r ∈ s.readers
      · simp only [step, hr, if_true, see]
        exact inv_leave v r hr
      · exact not_created v _ (by simp [step, hr])
    | catalog =>
      have : step s .catalog = (.catalog s.catalog, s) := by simp only [step, hc, Bool.not_true, Bool.false_eq_true, if_false]
      rw [this]
      exact v
    | publish =>
      have : step s .publish = (.sent s.readers, s) := by simp only [step, hc, Bool.not_true, Bool.false_eq_true, if_false]
      rw [this]
      exact v
    | consumers =>
      have : step s .consumers = (.consumers s.consumers, s) := by simp only [step, hc, Bool.not_true, Bool.false_eq_true, if_false]
      rw [this]
      exact v

theorem inv_reach (h : machine.Reach tr s) : Inv (hist tr) s := by
  refine Machine.Reach.induct (M := machine) (P := fun tr s => Inv (hist tr) s) ?_ (fun tr s op _ ih => ?_) h
  · exact ⟨rfl, rfl, rfl, rfl, rfl, rfl, rfl, rfl, fun _ => rfl, fun _ => ⟨rfl, rfl, rfl, rfl, rfl⟩, (nofun), List.nodup_nil⟩
  · rw [hist_snoc]
    exact inv_step ih op

/-! ## C131 -/

/-- The catalog has the section, with the time to live, exactly while the chat is enabled. -/
theorem c131_catalog_partial (h : machine.Reach tr s) (hc : (hist tr).created = true) (hn : (hist tr).closed = false) :
    (step s .catalog).1 = .catalog (if (hist tr).enabled then some (hist tr).ttl else none) := by
  have v := inv_reach h
  have hx : (step s .catalog).1 = .catalog s.catalog := by simp [step, ← v.created, hc]
  rw [hx, v.catalog (v.closed ▸ hn), v.enabled, v.ttl]

/-- After `close` the catalog says what it said before, though the track is not found any more. -/
theorem c131_stale (h : machine.Reach tr s) (hc : (hist tr).created = true) :
    (step (step s .close).2 .catalog).1 = (step s .catalog).1 ∧ (step (step s .close).2 .subscribe).1 = .reader none := by
  have v := inv_reach h
  have v' := inv_reach (Machine.Reach.step (M := machine) .close h)
  have hcr : s.created = true := v.created ▸ hc
  have hp := v'.present
  rw [hist_snoc] at hp
  have hs : (step s .close).1 = .ok := by simp [step, hcr]
  constructor
  · simp only [step, hcr, Bool.not_true, Bool.false_eq_true, if_false]
    unfold removeTrack
    split <;> split <;> simp_all
    all_goals (split <;> simp_all)
  · simp only [hs, see, offered, Bool.not_true, Bool.and_false] at hp
    rw [show step = machine.step from rfl] at hp ⊢
    generalize (machine.step s .close).2 = s' at hp
    simp [step, hp]

/-- After `close` nothing changes the catalog any more. -/
theorem c131_frozen (h : machine.Reach tr s) (hc : (hist tr).closed = true) (op : Op) :
    (step (step s op).2 .catalog).1 = (step s .catalog).1 := by
  have v := inv_reach h
  have hd : s.closed = true := v.closed ▸ hc
  have hcr : s.created = true := by
    cases hx : s.created with
    | true => rfl
    | false =>
      rw [(v.fresh hx).2.1] at hd
      cases hd
  have hp : s.present = false := by rw [v.present, offered, hc]; simp
  have key : ∀ s' : State, s'.created = s.created → s'.catalog = s.catalog → (step s' .catalog).1 = (step s .catalog).1 := by
    intro s' h1 h2
    simp only [step, h1, h2]
    split <;> rfl
  refine key _ ?_ ?_ <;> cases op with
  | create e t => simp [step, hcr]
  | setEnabled e => simp [step, hcr, hd]
  | setTtl t => simp [step, hcr, hd]
  | close => simp [step, hcr, removeTrack, hp]
  | catalog => simp [step, hcr]
  | subscribe => simp [step, hp]
  | consume => simp [step, hcr]
  | leave r =>
    simp only [step]
    split <;> rfl
  | publish => simp [step, hcr]
  | consumers => simp [step, hcr]

/-- A subscription finds the track exactly while the chat is enabled and not closed. -/
theorem c131_found (h : machine.Reach tr s) :
    ∃ r, (step s .subscribe).1 = .reader r ∧ (r.isSome = true ↔ (hist tr).enabled = true ∧ (hist tr).closed = false) := by
  have v := inv_reach h
  cases hp : s.present with
  | true =>
    refine ⟨some s.count, by simp [step, hp], ?_⟩
    have := v.present
    rw [hp] at this
    simp [offered] at this
    simpa using this
  | false =>
    refine ⟨none, by simp [step, hp], ?_⟩
    have := v.present
    rw [hp] at this
    simp [offered] at this
    simpa using this

/-- The consumers of the track are the readers, and that of the broadcast while the chat is enabled: without readers the track is unused
when the chat is not enabled, and only then. -/
theorem c131_consumers (h : machine.Reach tr s) (hc : (hist tr).created = true) :
    (step s .consumers).1 =
      .consumers ((hist tr).readers.length + if (hist tr).enabled = true ∧ (hist tr).closed = false then 1 else 0) := by
  have v := inv_reach h
  have hx : (step s .consumers).1 = .consumers s.consumers := by simp [step, ← v.created, hc]
  rw [hx, v.consumers, v.readers, v.present]
  simp [offered]

/-- Every reader is new, and a message reaches all readers that have come and not left. -/
theorem c131_sent (h : machine.Reach tr s) (hc : (hist tr).created = true) :
    (step s .publish).1 = .sent (hist tr).readers ∧ (hist tr).readers.Nodup := by
  have v := inv_reach h
  exact ⟨by simp [step, ← v.created, hc, v.readers], v.readers ▸ v.nodup⟩

/-- A chat that is disabled, or closed, still sends its messages to those who are there. -/
theorem c131_still (h : machine.Reach tr s) (hc : (hist tr).created = true) (op : Op) (ho : op = .setEnabled false ∨ op = .close) :
    (step (step s op).2 .publish).1 = .sent (hist tr).readers := by
  have hcr : s.created = true := (inv_reach h).created ▸ hc
  have h' := Machine.Reach.step (M := machine) op h
  have hs : (step s op).1 = .ok := by
    rcases ho with rfl | rfl
    · simp only [step, hcr, Bool.not_true, Bool.false_eq_true, if_false]
      split <;> rfl
    · simp [step, hcr]
  have hh : (hist (tr ++ [(op, (step s op).1)])).created = true ∧
      (hist (tr ++ [(op, (step s op).1)])).readers = (hist tr).readers := by
    rw [hist_snoc, hs]
    rcases ho with rfl | rfl <;> exact ⟨hc, rfl⟩
  have := (c131_sent h' hh.1).1
  rw [← hh.2]
  exact this

/-- When the calls are valid. -/
theorem c131_valid (h : machine.Reach tr s) (op : Op) :
    (step s op).1 = .invalid ↔
      match op with
      | .create _ _ => (hist tr).created = true
      | .subscribe => False
      | .leave r => r ∉ (hist tr).readers
      | _ => (hist tr).created = false := by
  have v := inv_reach h
  rw [v.created, v.readers]
  cases op with
  | create e t => cases hc : s.created <;> simp [step, hc]
  | setEnabled e =>
    cases hc : s.created <;> simp only [step, hc]
    · simp
    · simp only [Bool.not_true, Bool.false_eq_true, if_false]
      split <;> simp
  | setTtl t =>
    cases hc : s.created <;> simp only [step, hc]
    · simp
    · simp only [Bool.not_true, Bool.false_eq_true, if_false]
      split <;> simp
  | close => cases hc : s.created <;> simp [step, hc]
  | catalog => cases hc : s.created <;> simp [step, hc]
  | subscribe => cases hc : s.present <;> simp [step, hc]
  | consume => cases hc : s.created <;> simp [step, hc]
  | leave r => by_cases hr : r ∈ s.readers <;> simp [step, hr]
  | publish => cases hc : s.created <;> simp [step, hc]
  | consumers => cases hc : s.created <;> simp [step, hc]

/-! Concrete cases. -/

example : ∃ tr s, machine.Reach tr s ∧ (hist tr).created = true ∧ (hist tr).closed = false ∧ (hist tr).enabled = true ∧
    (hist tr).readers = [0, 2] ∧ (step s .consumers).1 = .consumers 3 ∧ (step s .catalog).1 = .catalog (some (some 7)) :=
  ⟨_, _, machine.reach_run [.create true none, .subscribe, .consume, .setTtl (some 7), .leave 1, .subscribe],
    by decide, by decide, by decide, by decide, by decide, by decide⟩

example : ∃ tr s, machine.Reach tr s ∧ (hist tr).created = true ∧ (hist tr).enabled = false ∧ (step s .publish).1 = .sent [0] ∧
    (step s .subscribe).1 = .reader none ∧ (step s .consumers).1 = .consumers 1 :=
  ⟨_, _, machine.reach_run [.create true none, .subscribe, .setEnabled false], by decide, by decide, by decide, by decide, by decide⟩

end Verif.Props.JsChatCatalog
