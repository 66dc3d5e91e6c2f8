import Verif.Js.PublisherLemmas
import Verif.Props.JsAnnounced

/-!
# Property C96: publishing in the browser

What the browser announces on every announce stream, and what it serves.
-/

set_option autoImplicit false

namespace Verif.Props.JsPublisher

open Verif Verif.Js.Publisher

open Verif.Js.Announced (due told)
open Verif.Props.JsAnnounced (due_take_prefix c95_told)

/-- The stream exists and asked for this prefix. -/
def Has (tr : Trace) (c : Nat) (pre : Str) : Prop := (streams tr)[c]? = some pre

/-- What `consume` and `runSubscribe` find. -/
def Serves (s : State) (path : Str) (b : Option Nat) : Prop := (step s (.lookup path)).1 = .found b

instance (s : State) (path : Str) (b : Option Nat) : Decidable (Serves s path b) :=
  inferInstanceAs (Decidable (_ = _))

theorem serves_iff (s : State) (p : Str) (b : Option Nat) : Serves s p b ↔ get s.broadcasts p = b := by
  simp [Serves, step]

/-! ## Streams -/

theorem has_iff {tr : Trace} {s : State} (h : machine.Reach tr s) {c : Nat} {pre : Str} :
    Has tr c pre ↔ JsAnnounced.Has (proj tr) c pre := by
  unfold Has JsAnnounced.Has
  rw [(inv_reach h).streams]

theorem not_closed (tr : Trace) (c : Nat) : ¬ Js.Announced.Closed (proj tr) c := by
  rintro ⟨x, hx⟩
  unfold proj at hx
  obtain ⟨⟨op, o⟩, -, he⟩ := List.mem_filterMap.mp hx
  cases op <;> cases o <;> simp [projE] at he

/-- Every stream carries the announcements below its prefix, without the prefix, in order, from the
first one on, each once and none left out. -/
theorem c96_stream {tr : Trace} {s : State} (h : machine.Reach tr s) (c : Nat) (pre : Str)
    (hc : Has tr c pre) : sent tr c <+: due pre (announcements tr) := by
  rw [sent_eq, announcements_eq]
  exact JsAnnounced.c95_prefix (inv_reach h).reach c pre ((has_iff h).mp hc)

/-- An announcement that is due on a stream is written when the stream's loop runs: at its next
round, or when the waiting round continues. -/
theorem c96_due {tr : Trace} {s : State} (h : machine.Reach tr s) (c : Nat) (pre : Str)
    (hc : Has tr c pre) (a : Announce)
    (ha : (due pre (announcements tr))[(sent tr c).length]? = some a) :
    (step s (.next c)).1 = .queue (.announce a) ∨ (step s (.resume c)).1 = .queue (.announce a) := by
  rw [sent_eq, announcements_eq] at ha
  have hr := (inv_reach h).reach
  by_cases hw : Js.Announced.Waits (proj tr) c
  · right
    rw [step, onQueue, JsAnnounced.c95_woken hr c pre ((has_iff h).mp hc) (not_closed tr c) hw a ha]
  · left
    rw [step, onQueue, JsAnnounced.c95_available hr c pre ((has_iff h).mp hc) (not_closed tr c) hw a ha]

/-- The loop never ends by itself. -/
theorem c96_endless {tr : Trace} {s : State} (h : machine.Reach tr s) (c : Nat) (pre : Str)
    (hc : Has tr c pre) (op : Op) (hop : op = .next c ∨ op = .resume c) :
    (step s op).1 ≠ .queue .undefined ∧ (step s op).1 ≠ .queue .rejected := by
  have hr := (inv_reach h).reach
  have i := Js.Announced.inv_reach hr
  have hlive : Js.Announced.ending (proj tr) = none := by
    rw [i.status, (inv_reach h).live]
    rfl
  have key : ∀ op' : Js.Announced.Op, JsAnnounced.Reads op' c →
      (Js.Announced.step s.announced op').1 ≠ .undefined ∧
      (Js.Announced.step s.announced op').1 ≠ .rejected := by
    intro op' hop'
    constructor
    · intro ho
      rcases JsAnnounced.c95_end hr c pre ((has_iff h).mp hc) op' hop' ho with hx | ⟨hx, -⟩
      · exact not_closed tr c hx
      · rw [hlive] at hx
        cases hx
    · intro ho
      have := (JsAnnounced.c95_rejected hr c pre ((has_iff h).mp hc) op' hop' ho).1
      rw [hlive] at this
      cases this
  rcases hop with rfl | rfl
  · obtain ⟨h1, h2⟩ := key (.next c) (.inl rfl)
    simp only [step, onQueue, ne_eq, Out.queue.injEq]
    exact ⟨h1, h2⟩
  · obtain ⟨h1, h2⟩ := key (.resume c) (.inr rfl)
    simp only [step, onQueue, ne_eq, Out.queue.injEq]
    exact ⟨h1, h2⟩

/-! ## Publications -/

theorem task_of {tr : Trace} {s : State} (h : machine.Reach tr s) (t : Nat) (p : Str) (b : Nat) :
    ((published tr)[t]? = some (p, b) ∧ ¬ TakenBack tr t) ↔ s.tasks[t]? = some ⟨p, b, false⟩ := by
  have i := inv_reach h
  rw [← i.tasks, ← i.done, List.getElem?_map]
  cases hk : s.tasks[t]? with
  | none => simp
  | some k =>
    obtain ⟨kp, kb, kd⟩ := k
    simp [and_assoc]

/-- The end of a publication is announced exactly when its broadcast is over, and once. -/
theorem c96_ended {tr : Trace} {s : State} (h : machine.Reach tr s) (t : Nat) (p : Str) :
    (step s (.run t)).1 = .ended p ↔
      ∃ b, (published tr)[t]? = some (p, b) ∧ Over tr b ∧ ¬ TakenBack tr t := by
  have hb : ∀ b, ((published tr)[t]? = some (p, b) ∧ Over tr b ∧ ¬ TakenBack tr t) ↔
      (s.tasks[t]? = some ⟨p, b, false⟩ ∧ b ∈ s.over) := by
    intro b
    rw [(inv_reach h).over, ← task_of h]
    constructor
    · rintro ⟨h1, h2, h3⟩
      exact ⟨⟨h1, h3⟩, h2⟩
    · rintro ⟨⟨h1, h3⟩, h2⟩
      exact ⟨h1, h2, h3⟩
  constructor
  · intro ho
    rw [step] at ho
    cases hk : s.tasks[t]? with
    | none => simp [hk] at ho
    | some k =>
      obtain ⟨kp, kb, kd⟩ := k
      rw [hk] at ho
      dsimp only at ho
      split at ho
      · rename_i hd
        refine ⟨kb, (hb kb).mpr ⟨?_, hd.2⟩⟩
        rw [hk]
        simp only [Out.ended.injEq] at ho
        rw [ho, hd.1]
      · cases ho
  · rintro ⟨b, hx⟩
    obtain ⟨hk, ho⟩ := (hb b).mp hx
    rw [step, hk]
    simp [ho]

/-- Every publication is announced once, and no path is taken back more often than it was
published. -/
theorem c96_counts {tr : Trace} {s : State} (h : machine.Reach tr s) (p : Str) :
    (flags (announcements tr) p).count true = ((published tr).filter fun e => e.1 = p).length ∧
    (flags (announcements tr) p).count false ≤ (flags (announcements tr) p).count true := by
  have i := inv_reach h
  constructor
  · rw [i.ups, ← i.tasks, List.filter_map, List.length_map, List.countP_eq_length_filter]
    rfl
  · rw [i.ups, i.downs]
    exact List.countP_mono_left fun k _ hk => by simp_all

/-- What is found is the latest publication of the path, and it was not taken back. -/
theorem c96_found {tr : Trace} {s : State} (h : machine.Reach tr s) (p : Str) (b : Nat)
    (hs : Serves s p (some b)) : ∃ t, (published tr)[t]? = some (p, b) ∧ ¬ TakenBack tr t ∧
      ∀ t' b', t < t' → (published tr)[t']? ≠ some (p, b') := by
  have i := inv_reach h
  obtain ⟨t, ht, hl⟩ := i.current p b ((serves_iff _ _ _).mp hs)
  obtain ⟨h1, h2⟩ := (task_of h t p b).mpr ht
  refine ⟨t, h1, h2, fun t' b' htt hp => ?_⟩
  rw [← i.tasks, List.getElem?_map] at hp
  cases hk : s.tasks[t']? with
  | none => simp [hk] at hp
  | some k =>
    rw [hk] at hp
    simp only [Option.map_some, Option.some.injEq, Prod.mk.injEq] at hp
    exact hl t' k htt hk hp.1

/-- A path is served exactly while its last announcement says so. -/
theorem c96_consistent {tr : Trace} {s : State} (h : machine.Reach tr s) (p : Str) :
    (∃ b, Serves s p (some b)) ↔ (flags (announcements tr) p).getLast? = some true := by
  rw [← (inv_reach h).last p]
  cases hg : get s.broadcasts p with
  | none => simp [serves_iff, hg]
  | some b => simp [serves_iff, hg]

/-! ## Every path published once at a time -/

/-- With every path published once at a time: a path is served from its publication until it is taken
back.  (Missing: without that assumption, see `c96_lost`.) -/
theorem c96_served_partial {tr : Trace} {s : State} (h : machine.Reach tr s) (hp : Polite tr)
    (p : Str) (b : Nat) :
    Serves s p (some b) ↔ ∃ t, (published tr)[t]? = some (p, b) ∧ ¬ TakenBack tr t := by
  constructor
  · intro hs
    obtain ⟨t, h1, h2, -⟩ := c96_found h p b hs
    exact ⟨t, h1, h2⟩
  · rintro ⟨t, ht⟩
    exact (serves_iff _ _ _).mpr ((pinv_reach h hp).undone t _ ((task_of h t p b).mp ht) rfl)

theorem flags_due (pre r : Str) (as : List Announce) : flags (due pre as) r = flags as (pre ++ r) := by
  unfold flags due
  rw [List.filterMap_filterMap]
  congr 1
  funext a
  cases ht : told pre a with
  | none =>
    have : ¬ a.path = pre ++ r := by
      intro e
      rw [(c95_told pre a ⟨r, a.active⟩).mpr ⟨e, rfl⟩] at ht
      cases ht
    simp [this]
  | some b =>
    obtain ⟨h1, h2⟩ := (c95_told pre a b).mp ht
    by_cases hb : b.path = r
    · simp [h1, hb, h2]
    · simp [h1, hb]

theorem alternates_prefix {b : Bool} {l l' : List Bool} (hl : l' <+: l) (h : Alternates b l) :
    Alternates b l' := by
  induction l' generalizing b l with
  | nil => trivial
  | cons x l' ih =>
    obtain ⟨t, rfl⟩ := hl
    exact ⟨h.1, ih (List.prefix_append l' t) h.2⟩

/-- With every path published once at a time: on every stream the messages about one path are active,
ended, active, ended, and so on.  (Missing: without that assumption, see `c96_twice`.) -/
theorem c96_alternates_partial {tr : Trace} {s : State} (h : machine.Reach tr s) (hp : Polite tr)
    (c : Nat) (pre : Str) (hc : Has tr c pre) (r : Str) : Alternates true (flags (sent tr c) r) := by
  refine alternates_prefix ?_ ((pinv_reach h hp).alternates (pre ++ r))
  rw [← flags_due]
  obtain ⟨t, ht⟩ := c96_stream h c pre hc
  rw [← ht, flags_append]
  exact List.prefix_append _ _

/-! ## A path published twice -/

/-- A path that is published again while it is served is announced as active twice in a row. -/
theorem c96_twice {tr : Trace} {s : State} (h : machine.Reach tr s) (p : Str) (b b' : Nat)
    (hs : Serves s p (some b)) :
    ∃ l, flags (announcements (tr ++ [(.publish p b', (step s (.publish p b')).1)])) p =
      l ++ [true, true] := by
  have hl := (c96_consistent h p).mp ⟨b, hs⟩
  have e : (step s (.publish p b')).1 = .ok := rfl
  rw [e, announcements_snoc]
  dsimp only
  rw [flags_append, flags_one, if_pos rfl]
  obtain ⟨l, hl'⟩ := List.getLast?_eq_some_iff.mp hl
  exact ⟨l, by rw [hl']; simp⟩

/-- And when the first of the two broadcasts is over, the second one is announced as ended and is not
served any more, though nobody took it back. -/
theorem c96_lost {tr : Trace} {s : State} (h : machine.Reach tr s) (p : Str) (t t' b b' : Nat)
    (htt : t ≠ t') (ht : (published tr)[t]? = some (p, b) ∧ ¬ TakenBack tr t) (ho : Over tr b)
    (ht' : (published tr)[t']? = some (p, b') ∧ ¬ TakenBack tr t') :
    let tr' := tr ++ [(.run t, (step s (.run t)).1)]
    let s' := (step s (.run t)).2
    Serves s' p none ∧ (flags (announcements tr') p).getLast? = some false ∧ ¬ TakenBack tr' t' := by
  have he := (c96_ended h t p).mpr ⟨b, ht.1, ho, ht.2⟩
  have hk := (task_of h t p b).mp ht
  have hov := ((inv_reach h).over b).mpr ho
  refine ⟨?_, ?_, ?_⟩
  · rw [serves_iff]
    have : (step s (.run t)).2.broadcasts = delete s.broadcasts p := by
      simp [step, hk, hov]
    rw [this, get_delete, if_pos rfl]
  · rw [he, announcements_snoc]
    dsimp only
    rw [flags_append, flags_one, if_pos rfl]
    simp
  · rw [takenBack_snoc]
    rintro (hx | ⟨q, hx, -⟩)
    · exact ht'.2 hx
    · simp only [Op.run.injEq] at hx
      exact htt hx

/-! ## Cases -/

/-- A path is published, ends, and is published again; a stream with a prefix sees it. -/
def polite : List Op :=
  [.publish [1, 2] 0, .interest [1], .next 0, .next 0, .publish [3] 1, .resume 0, .over 0, .run 0,
    .publish [1, 2] 2, .resume 0, .next 0, .lookup [1, 2], .lookup [1]]

example : (machine.run polite).1.map (·.2) =
    [.ok, .queue (.handle 0), .queue (.announce ⟨[2], true⟩), .queue .pending, .ok, .queue .pending,
      .ok, .ended [1, 2], .ok, .queue (.announce ⟨[2], false⟩), .queue (.announce ⟨[2], true⟩),
      .found (some 2), .found none] := by decide +kernel

/-- The two broadcasts of one path of `c96_twice` and `c96_lost`: the stream says active, active,
ended, while the second broadcast is not over. -/
def twice : List Op :=
  [.interest [], .publish [1] 0, .publish [1] 1, .over 0, .run 0, .next 0, .next 0, .next 0,
    .lookup [1]]

theorem c96_witness : let r := machine.run twice
    flags (sent r.1 0) [1] = [true, true, false] ∧ ¬ Alternates true (flags (sent r.1 0) [1]) ∧
    Serves r.2 [1] none ∧ ¬ Over r.1 1 ∧ (published r.1)[1]? = some ([1], 1) := by
  refine ⟨by decide +kernel, ?_, by decide +kernel, ?_, by decide +kernel⟩
  · have e : flags (sent (machine.run twice).1 0) [1] = [true, true, false] := by decide +kernel
    rw [e]
    exact fun h => absurd h.2.1 (by decide)
  · unfold Over
    decide +kernel

/-- The hypotheses of `c96_lost`. -/
example : let r := machine.run (twice.take 4)
    ((published r.1)[0]? = some ([1], 0) ∧ Over r.1 0 ∧ (published r.1)[1]? = some ([1], 1)) ∧
    Serves r.2 [1] (some 1) := by
  refine ⟨⟨by decide +kernel, ?_, by decide +kernel⟩, by decide +kernel⟩
  unfold Over
  decide +kernel

/-- A test for `Polite`. -/
def politeB (tr : Trace) : Bool :=
  (List.range tr.length).all fun i =>
    match tr[i]? with
    | some (.publish p _, _) =>
      (List.range (published (tr.take i)).length).all fun t =>
        ((published (tr.take i))[t]?.map (·.1) != some p) ||
          (tr.take i).any fun e => match e with | (.run t', .ended _) => t' == t | _ => false
    | _ => true

theorem polite_of {tr : Trace} (h : politeB tr = true) : Polite tr := by
  intro before after p b o htr t b' ht
  unfold politeB at h
  rw [List.all_eq_true] at h
  have h1 := h before.length (by rw [List.mem_range, htr]; simp)
  have e1 : tr[before.length]? = some (.publish p b, o) := by rw [htr]; simp
  have e2 : tr.take before.length = before := by rw [htr]; simp
  rw [e1, e2] at h1
  dsimp only at h1
  rw [List.all_eq_true] at h1
  have h2 := h1 t (List.mem_range.mpr (List.getElem?_eq_some_iff.mp ht).1)
  rw [ht] at h2
  simp only [Option.map_some, bne_self_eq_false, Bool.false_or, List.any_eq_true] at h2
  obtain ⟨⟨op, x⟩, hm, he⟩ := h2
  cases op <;> cases x <;> simp at he
  subst he
  exact ⟨_, hm⟩

/-- `polite` meets the hypothesis of the partial theorems, though a path is published twice. -/
example : Polite (machine.run polite).1 := polite_of (by decide +kernel)

end Verif.Props.JsPublisher
