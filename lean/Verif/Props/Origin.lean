import Verif.Model.OriginForward
import Verif.Model.OriginWake

/-!
# Properties of origins: C34 to C41

The vocabulary (`expected`, `delivered`, `available`, `Clean`, …) is defined from the history of
calls and answers in `Verif/Model/OriginSpec.lean`.
-/

set_option autoImplicit false

namespace Verif.Props.Origin

open Verif Verif.Model Verif.Model.Origin Verif.Model.Origin.Spec

/-! ## C34: complete, exactly once, in order -/

/-- **C34, start.**  A new consumer starts with exactly what can be looked up at that moment,
each path once. -/
theorem c34_start {tr : Trace} {s : State} (h : machine.Reach tr s) {p c : Nat} {pre : Path}
    {order : List (Path × Nat)} (ho : (step s (.consumePrefix p pre order)).1 = .handle c) :
    (order.map (·.1)).Nodup ∧ ∀ path bc, (path, bc) ∈ order ↔ available tr path = some bc := by
  have ha := active_reach h
  revert ho
  simp only [step]
  (repeat' split) <;> intro ho <;> try cases ho
  rename_i hperm
  rw [List.isPerm_iff] at hperm
  refine ⟨(hperm.map Prod.fst).nodup_iff.2 ha.keys, fun path bc => ?_⟩
  rw [hperm.mem_iff, keys_get ha.keys, ha.get]

/-- **C34, safety.**  What a consumer has received is at every moment a prefix of what it should
receive: nothing is skipped, repeated, reordered or made up.  This also holds for a consumer
that is gone.  (`expected` is what was available when it started, and then what was published,
in order of publication.) -/
theorem c34_prefix {tr : Trace} {s : State} (h : machine.Reach tr s) {c : Nat}
    (hc : Clean tr c) : delivered tr c <+: expected tr c :=
  prefix_reach h c hc

/-- **C34, progress.**  When no publication is in progress, what `next` does is determined: it
returns the first announcement that was not received yet, and if there is none it finds its
queue empty. -/
theorem c34_next {tr : Trace} {s : State} (h : machine.Reach tr s) {c : Nat}
    (hc : Clean tr c) (ha : ConsumerAlive tr c) (hp : ¬ Publishing tr)
    (hv : (step s (.check c)).1 ≠ .invalid) :
    (step s (.check c)).1 =
      match (expected tr c).drop (delivered tr c).length with
      | (suffix, bc) :: _ => .item suffix bc
      | [] => .empty := by
  obtain ⟨k, hk, hph⟩ := (alive_get h).1 ha
  have hf := (views_reach h).flow c k hk hc
  rw [owed_none (not_publishing h hp), List.append_nil] at hf
  have hd : (expected tr c).drop (delivered tr c).length = k.updates := by
    unfold expected delivered
    rw [hf, List.drop_left]
  rw [hd]
  revert hv
  by_cases hid : k.phase = .idle
  · cases hu : k.updates with
    | nil => simp [step, hk, hid, hu]
    | cons e rest => simp [step, hk, hid, hu]
  · simp [step, hk, hid]

/-- **C34, completeness.**  A consumer that finds its queue empty while no publication is in
progress has received everything. -/
theorem c34_complete {tr : Trace} {s : State} (h : machine.Reach tr s) {c : Nat}
    (hc : Clean tr c) (ha : ConsumerAlive tr c) (hp : ¬ Publishing tr)
    (he : (step s (.check c)).1 = .empty) : delivered tr c = expected tr c := by
  have h1 := c34_next h hc ha hp (by rw [he]; simp)
  rw [he] at h1
  have h2 := c34_prefix h hc
  obtain ⟨t, ht⟩ := h2
  rw [← ht, List.drop_left] at h1
  cases t with
  | nil => rw [← ht, List.append_nil]
  | cons x t => cases h1

/-! ## C35: prefixes -/

/-- **C35.**  Every path a consumer receives, with its prefix in front, is a path under which
this broadcast was published.  (With C34: it is this very publication, and all of them.) -/
theorem c35_prefix {tr : Trace} {s : State} (h : machine.Reach tr s) {c : Nat} {suffix : Path}
    {bc : Nat} (hm : (suffix, bc) ∈ delivered tr c) :
    ∃ p, (Op.publishStart p (prefixOf tr c ++ suffix) bc, Out.ok) ∈ tr :=
  (origins_reach h).delivered c suffix bc hm

/-- What `expected` means: a publication adds to what a consumer should receive if and only
if its path begins with the prefix, and then the rest of the path. -/
theorem expected_publish {tr : Trace} {p c : Nat} {path : Path} {bc : Nat}
    (ha : ConsumerAlive tr c) :
    (∀ suffix, path = prefixOf tr c ++ suffix →
      expected (tr ++ [(.publishStart p path bc, .ok)]) c = expected tr c ++ [(suffix, bc)]) ∧
    ((∀ suffix, path ≠ prefixOf tr c ++ suffix) →
      expected (tr ++ [(.publishStart p path bc, .ok)]) c = expected tr c) := by
  unfold expected prefixOf
  rw [book_snoc]
  simp only [note]
  rw [if_pos ha.1]
  simp only [under, List.filterMap_cons, List.filterMap_nil]
  constructor
  · intro suffix hs
    rw [without_eq_some.2 hs]
    rfl
  · intro hn
    cases hw : without ((book tr).view c).pre path with
    | none => simp
    | some suffix => exact absurd (without_eq_some.1 hw) (hn suffix)

/-! ## C36: lookup -/

/-- What `consume` answers, by the last publication or removal at the path. -/
theorem lookup_available {tr : Trace} {s : State} (h : machine.Reach tr s) {p : Nat} {path : Path}
    (ha : ProducerAlive tr p) (hp : ¬ Publishing tr) :
    (step s (.lookup p path)).1 =
      match available tr path with
      | some bc => .found bc
      | none => .notFound := by
  obtain ⟨a, hg⟩ := Option.isSome_iff_exists.1 ((producer_get h).1 ha)
  simp only [step, hg, not_publishing h hp]
  rw [(active_reach h).get path]
  cases available tr path <;> rfl

theorem available_append_quiet {t₁ t₂ : Trace} {path : Path}
    (h : ∀ e ∈ t₂, effect path e = none) : available (t₁ ++ t₂) path = available t₁ path := by
  induction t₂ generalizing t₁ with
  | nil => rw [List.append_nil]
  | cons e t₂ ih =>
    have h1 : t₁ ++ e :: t₂ = (t₁ ++ [e]) ++ t₂ := by simp
    rw [h1, ih (fun e he => h e (List.mem_cons_of_mem _ he)), available_snoc,
      h e List.mem_cons_self]

theorem closed_reach {tr : Trace} {s : State} (h : machine.Reach tr s) :
    (∀ bc, bc ∈ s.closed ↔ Closed tr bc) ∧
      ∀ k path bc, (Op.task k, Out.removed path bc) ∈ tr → Closed tr bc := by
  refine Machine.Reach.induct (M := machine) (P := fun tr s => (∀ bc, bc ∈ s.closed ↔ Closed tr bc) ∧
      ∀ k path bc, (Op.task k, Out.removed path bc) ∈ tr → Closed tr bc) ?_ ?_ h
  · constructor <;> simp [init, Closed]
  · intro tr s op _ ih
    obtain ⟨i1, i2⟩ := ih
    have mono : ∀ bc e, Closed tr bc → Closed (tr ++ [e]) bc := fun _ _ h => List.mem_append_left _ h
    constructor
    · intro bc
      have i1 := i1 bc
      unfold Closed at *
      cases op <;> simp only [machine, step] <;> (repeat' split) <;> simp_all
      exact or_comm
    · intro k path bc hm
      rw [List.mem_append, List.mem_singleton] at hm
      rcases hm with hm | hm
      · exact mono _ _ (i2 k path bc hm)
      · injection hm with h1 h2
        subst h1
        revert h2
        simp only [machine, step]
        (repeat' split) <;> intro h2 <;> try cases h2
        exact mono _ _ ((i1 bc).1 (by assumption))

/-- **C36 (partial).**  Looking up a path returns the broadcast `bc` that was published there
last, as long as it is not closed — provided that since its publication the origin has not
processed the closure of a different broadcast at this path.  Missing: that proviso; see
`c36_stale_close`. -/
theorem c36_latest_partial {t₁ t₂ : Trace} {s : State} {p : Nat} {path : Path} {bc : Nat}
    {unique : Bool}
    (h : machine.Reach (t₁ ++ (.publishStep, .published path bc unique) :: t₂) s)
    (hlast : ∀ bc' u, (Op.publishStep, Out.published path bc' u) ∉ t₂)
    (hother : ∀ k bc', (Op.task k, Out.removed path bc') ∈ t₂ → bc' = bc)
    (hopen : ¬ Closed (t₁ ++ (.publishStep, .published path bc unique) :: t₂) bc)
    (ha : ProducerAlive (t₁ ++ (.publishStep, .published path bc unique) :: t₂) p)
    (hp : ¬ Publishing (t₁ ++ (.publishStep, .published path bc unique) :: t₂)) :
    (step s (.lookup p path)).1 = .found bc := by
  rw [lookup_available h ha hp]
  have h1 : t₁ ++ (Op.publishStep, Out.published path bc unique) :: t₂ =
      (t₁ ++ [(Op.publishStep, Out.published path bc unique)]) ++ t₂ := by simp
  have h2 : available (t₁ ++ (Op.publishStep, Out.published path bc unique) :: t₂) path = some bc := by
    rw [h1, available_append_quiet, available_snoc]
    · simp [effect]
    · intro e he
      unfold effect
      split
      · split
        · rename_i hq
          subst hq
          exact absurd he (hlast _ _)
        · rfl
      · split
        · rename_i k q b hq
          subst hq
          have hb := hother _ _ he
          subst hb
          exact absurd ((closed_reach h).2 _ _ _
            (List.mem_append_right _ (List.mem_cons_of_mem _ he))) hopen
        · rfl
      · rfl
  rw [h2]

/-- **C36, closed.**  Once the closure of a broadcast was processed, nothing is found at its path
until the next publication there. -/
theorem c36_closed {t₁ t₂ : Trace} {s : State} {p k : Nat} {path : Path} {bc : Nat}
    (h : machine.Reach (t₁ ++ (.task k, .removed path bc) :: t₂) s)
    (hlast : ∀ bc' u, (Op.publishStep, Out.published path bc' u) ∉ t₂)
    (ha : ProducerAlive (t₁ ++ (.task k, .removed path bc) :: t₂) p)
    (hp : ¬ Publishing (t₁ ++ (.task k, .removed path bc) :: t₂)) :
    (step s (.lookup p path)).1 = .notFound := by
  rw [lookup_available h ha hp]
  have key : ∀ t₂ : Trace, (∀ bc' u, (Op.publishStep, Out.published path bc' u) ∉ t₂) →
      ∀ t : Trace, available t path = none → available (t ++ t₂) path = none := by
    intro t₂
    induction t₂ with
    | nil => intro _ t ht; rwa [List.append_nil]
    | cons e t₂ ih =>
      intro hn t ht
      have h1 : t ++ e :: t₂ = (t ++ [e]) ++ t₂ := by simp
      rw [h1]
      refine ih (fun b u hx => hn b u (List.mem_cons_of_mem _ hx)) _ ?_
      rw [available_snoc]
      split
      · rename_i v hv
        revert hv
        unfold effect
        split
        · split
          · rename_i q b u hq
            subst hq
            exact absurd List.mem_cons_self (hn b u)
          · intro hv; cases hv
        · split
          · intro hv; injection hv with hv; exact hv.symm
          · intro hv; cases hv
        · intro hv; cases hv
      · exact ht
  have h1 : t₁ ++ (Op.task k, Out.removed path bc) :: t₂ =
      (t₁ ++ [(Op.task k, Out.removed path bc)]) ++ t₂ := by simp
  have h2 : available (t₁ ++ (Op.task k, Out.removed path bc) :: t₂) path = none := by
    rw [h1]
    refine key t₂ hlast _ ?_
    rw [available_snoc]
    simp [effect]
  rw [h2]

/-- **C36, progress.**  As long as a publication has ended and the closure of its broadcast was not
processed for it, there is a task for it; it waits while the broadcast is open and removes the path
once it is closed, unless a publication is in progress at that moment. -/
theorem c36_progress {tr : Trace} {s : State} (h : machine.Reach tr s) {path : Path} {bc : Nat}
    (hlt : removals tr path bc < publications tr path bc) :
    ∃ k, ((step s (.task k)).1 = .pending ∧ ¬ Closed tr bc) ∨
      ((step s (.task k)).1 = .blocked ∧ Publishing tr) ∨
      ((step s (.task k)).1 = .removed path bc ∧ Closed tr bc) := by
  have ht := tasks_reach h path bc
  obtain ⟨k, hk⟩ := task_of_count (s := s.tasks) (t := (path, bc)) (by omega)
  refine ⟨k, ?_⟩
  rw [publishing_iff h, ← (closed_reach h).1 bc]
  by_cases hc : bc ∈ s.closed
  · cases hp : s.pub with
    | none => simp [step, hk, hc, hp]
    | some u => simp [step, hk, hc, hp]
  · simp [step, hk, hc]

/-- **C36**: the closure of a broadcast is processed at most once per publication. -/
theorem c36_no_more {tr : Trace} {s : State} (h : machine.Reach tr s) (path : Path) (bc : Nat) :
    removals tr path bc ≤ publications tr path bc := by
  have := tasks_reach h path bc
  omega

example : publications (machine.run [.publishStart 0 ['a'] 1, .publishStep, .close 1]).1 ['a'] 1 = 1 ∧
    removals (machine.run [.publishStart 0 ['a'] 1, .publishStep, .close 1]).1 ['a'] 1 = 0 ∧
    (step (machine.run [.publishStart 0 ['a'] 1, .publishStep, .close 1]).2 (.task 0)).1 =
      .removed ['a'] 1 := by decide +kernel

/-- Broadcast 1 is published at `a`, then broadcast 2; then broadcast 1 closes. -/
def staleClose : List Op :=
  [.publishStart 0 ['a'] 1, .publishStep, .publishStart 0 ['a'] 2, .publishStep, .close 1, .task 0]

/-- **The code violates C36.**  The closure of a broadcast removes the newer broadcast at the
same path: broadcast 2 was published last and is open, but is not found. -/
theorem c36_stale_close :
    (machine.run staleClose).1.getLast? = some (.task 0, .removed ['a'] 1) ∧
    (machine.run staleClose).1[3]? = some (.publishStep, .published ['a'] 2 false) ∧
    ¬ Closed (machine.run staleClose).1 2 ∧
    (step (machine.run staleClose).2 (.lookup 0 ['a'])).1 = .notFound := by
  refine ⟨by decide +kernel, by decide +kernel, ?_, by decide +kernel⟩
  unfold Closed
  decide +kernel

/-! ## C37: the result of `publish` -/

/-- **C37.**  `publish` reports a free path if and only if nothing was available there, as seen
by looking it up. -/
theorem c37_unique {tr : Trace} {s : State} (h : machine.Reach tr s) {path : Path} {bc : Nat}
    {unique : Bool} (ho : (step s .publishStep).1 = .published path bc unique) :
    unique = true ↔ available tr path = none := by
  have ha := (active_reach h).get
  revert ho
  simp only [step]
  (repeat' split) <;> intro ho <;> try cases ho
  rw [ha, Option.isNone_iff_eq_none]

/-- **C37, the lookup.**  The same with an actual lookup at the moment the publication begins:
nothing can come between. -/
theorem c37_lookup {tr : Trace} {s : State} (h : machine.Reach tr s) {p q : Nat} {path : Path}
    {bc : Nat} (ho : (step s (.publishStart p path bc)).1 = .ok) (ha : ProducerAlive tr q)
    {ops : List Op} {unique : Bool}
    (he : ((machine.runFrom (step s (.publishStart p path bc)).2 ops).1).getLast? =
      some (.publishStep, .published path bc unique))
    (hfirst : ∀ e ∈ (machine.runFrom (step s (.publishStart p path bc)).2 ops).1.dropLast,
      ∀ q b u, e.2 ≠ Out.published q b u) :
    unique = true ↔ (step s (.lookup q path)).1 = .notFound := by
  have hn : s.pub = none := by
    revert ho
    simp only [step]
    (repeat' split) <;> intro ho <;> try cases ho
    assumption
  have hnp : ¬ Publishing tr := by rw [publishing_iff h, hn]; simp
  rw [lookup_available h ha hnp]
  -- while the publication is in progress the map does not change
  have inv : ∀ (ops : List Op) (t : State), t.pub.isSome →
      (∀ e ∈ (machine.runFrom t ops).1, ∀ q b u, e.2 ≠ Out.published q b u) →
      (machine.runFrom t ops).2.active = t.active ∧ (machine.runFrom t ops).2.pub.isSome := by
    intro ops
    induction ops with
    | nil => intro t ht _; exact ⟨rfl, ht⟩
    | cons op ops ih =>
      intro t ht hno
      simp only [Machine.runFrom, List.mem_cons, forall_eq_or_imp] at hno ⊢
      have hs : (step t op).2.active = t.active ∧ (step t op).2.pub.isSome := by
        have h0 := hno.1
        obtain ⟨u, hu⟩ := Option.isSome_iff_exists.1 ht
        revert h0
        cases op <;> simp only [step, hu] <;> (repeat' split) <;> intro h0 <;>
          first
            | exact ⟨rfl, rfl⟩
            | exact absurd rfl (h0 _ _ _)
            | exact ⟨rfl, ht⟩
            | exact ⟨trivial, ht⟩
            | exact ⟨trivial, rfl⟩
      have := ih _ hs.2 hno.2
      exact ⟨this.1.trans hs.1, this.2⟩
  -- split off the last operation
  cases hops : ops.reverse with
  | nil =>
    have : ops = [] := by simpa using hops
    subst this
    cases he
  | cons op r =>
    have hops' : ops = r.reverse ++ [op] := by
      have := congrArg List.reverse hops
      simpa using this
    subst hops'
    have split : ∀ (l : List Op) (t : State), machine.runFrom t (l ++ [op]) =
        ((machine.runFrom t l).1 ++ [(op, (step (machine.runFrom t l).2 op).1)],
          (step (machine.runFrom t l).2 op).2) := by
      intro l
      induction l with
      | nil => intro t; rfl
      | cons o l ih => intro t; simp [Machine.runFrom, ih]
    rw [split] at he hfirst
    simp only [List.getLast?_concat, Option.some.injEq, Prod.mk.injEq, List.dropLast_concat] at he hfirst
    obtain ⟨rfl, he⟩ := he
    have hreach : machine.Reach (tr ++ [(.publishStart p path bc, .ok)])
        (step s (.publishStart p path bc)).2 :=
      ho ▸ Machine.Reach.step (M := machine) (.publishStart p path bc) h
    have hreach2 := machine.reach_runFrom hreach r.reverse
    have hpub : (step s (.publishStart p path bc)).2.pub.isSome := by
      revert ho
      simp only [step]
      (repeat' split) <;> intro ho <;> first | rfl | cases ho
    have hact : (step s (.publishStart p path bc)).2.active = s.active := by
      simp only [step]
      (repeat' split) <;> rfl
    have hi := inv r.reverse _ hpub hfirst
    rw [c37_unique hreach2 he, ← (active_reach hreach2).get, hi.1, hact, (active_reach h).get]
    cases available tr path <;> simp

/-! ## C38: wake-ups -/

/-- **C38, no lost wake-ups.**  A waiting consumer that has not yet received everything is
notified: unless a publication is still in progress, polling it yields a wake-up. -/
theorem c38_woken {tr : Trace} {s : State} (h : machine.Reach tr s) {c : Nat} (hc : Clean tr c)
    (hp : ¬ Publishing tr) (hne : delivered tr c ≠ expected tr c)
    (hv : (step s (.recv c)).1 ≠ .invalid) : (step s (.recv c)).1 = .woken := by
  revert hv
  simp only [step]
  split
  · intro hv; exact absurd rfl hv
  · rename_i k hk
    split
    · rename_i hph
      intro _
      have hf := (views_reach h).flow c k hk hc
      rw [owed_none (not_publishing h hp), List.append_nil] at hf
      have hup : k.updates ≠ [] := by
        intro hu
        rw [hu, List.append_nil] at hf
        exact hne hf.symm
      rcases told_reach h c k hk hph hup with ht | ⟨u, hu, _⟩
      · rw [if_pos ht]
      · rw [not_publishing h hp] at hu; cases hu
    · intro hv; exact absurd rfl hv

theorem recv_token {s : State} {c : Nat} {k : Cons} (hk : s.consumers.get c = some k)
    (hph : k.phase = .waiting) (ht : k.token = true) : (step s (.recv c)).1 = .woken := by
  simp only [step, hk]
  rw [if_pos hph, if_pos ht]

theorem check_empty {s : State} {c : Nat} {k : Cons} (hk : s.consumers.get c = some k)
    (hph : k.phase = .idle) (hu : k.updates = []) : (step s (.check c)).1 = .empty := by
  simp only [step, hk, hu]
  rw [if_pos hph]

theorem cancel_ok {s : State} {c : Nat} (h : (step s (.cancel c)).1 = .ok) :
    ∃ k, s.consumers.get c = some k ∧ k.phase = .waiting ∧ (step s (.cancel c)).2 =
      { s with consumers := s.consumers.put c (some { k with phase := .idle }) } := by
  revert h
  simp only [step]
  (repeat' split) <;> intro h
  · cases h
  · rename_i k hk hph
    exact ⟨k, hk, hph, rfl⟩
  · cases h

/-- **C38, while publishing.**  Even during a publication a waiting consumer whose queue holds an
announcement is either notified or will be by the very next step of the publication. -/
theorem c38_notified {tr : Trace} {s : State} (h : machine.Reach tr s) {c : Nat}
    {suffix : Path} {bc : Nat}
    (hq : (step (step s (.cancel c)).2 (.check c)).1 = .item suffix bc)
    (hw : (step s (.cancel c)).1 = .ok) :
    (step s (.recv c)).1 = .woken ∨ (step (step s .publishStep).2 (.recv c)).1 = .woken := by
  obtain ⟨k, hk, hph, hs⟩ := cancel_ok hw
  have hup : k.updates ≠ [] := by
    intro hu
    rw [hs, check_empty (k := { k with phase := .idle }) (Slots.get_put_self _ hk) rfl hu] at hq
    cases hq
  rcases told_reach h c k hk hph hup with ht | ⟨u, hu, hn⟩
  · exact .inl (recv_token hk hph ht)
  · have hw : (step s .publishStep).2.consumers = wake s.consumers c := by
      simp only [step, hu, hn]
    refine .inr (recv_token (k := { k with token := true }) ?_ hph rfl)
    rw [hw]
    unfold wake
    rw [hk]
    exact Slots.get_put_self _ hk

/-- **C38, the end.**  A waiting consumer is told the end only when no producer is left, and it
has received everything. -/
theorem c38_end {tr : Trace} {s : State} (h : machine.Reach tr s) {c : Nat}
    (he : (step s (.recv c)).1 = .ended) :
    (∀ p, ¬ ProducerAlive tr p) ∧ (Clean tr c → delivered tr c = expected tr c) := by
  revert he
  simp only [step]
  split
  · intro he; cases he
  · rename_i k hk
    split
    · rename_i hph
      split
      · intro he; cases he
      · rename_i htok
        split
        · intro he; cases he
        · rename_i hal
          intro _
          have hr := regs_reach h
          have hdead : ¬ s.alive = true := by
            intro ha
            apply hal
            rw [ha, decide_eq_true (hr.reg ha c k hk (by rw [hph]; simp))]
            rfl
          have hnp : ∀ p, ¬ (s.producers.get p).isSome := fun p hx =>
            hdead (alive_iff.2 (.inl ⟨p, hx⟩))
          have hpub : s.pub = none := by
            cases hu : s.pub with
            | none => rfl
            | some u => exact absurd (hr.pubProducer u hu) (hnp _)
          refine ⟨fun p hx => hnp p ((producer_get h).1 hx), fun hc => ?_⟩
          have hf := (views_reach h).flow c k hk hc
          rw [owed_none hpub, List.append_nil] at hf
          have hup : k.updates = [] := Classical.byContradiction fun hup => by
            rcases told_reach h c k hk hph hup with ht | ⟨u, hu, _⟩
            · exact htok ht
            · rw [hpub] at hu; cases hu
          rw [hup, List.append_nil] at hf
          exact hf.symm
    · intro he; cases he

/-- **C38, the end comes.**  When no producer is left and the closures of all published broadcasts
were processed, a waiting consumer does not wait any longer: it is told the end, or it is woken, of
which there are only finitely many by `c38_wakeups`. -/
theorem c38_end_comes {tr : Trace} {s : State} (h : machine.Reach tr s) {c : Nat}
    (ha : ConsumerAlive tr c) (hw : waiting tr c = true) (hp : ∀ p, ¬ ProducerAlive tr p)
    (ht : ∀ path bc, removals tr path bc = publications tr path bc) :
    (step s (.recv c)).1 = .ended ∨ (step s (.recv c)).1 = .woken := by
  obtain ⟨k, hk, _⟩ := (alive_get h).1 ha
  have hph := ((waits_reach h).phase c k hk).2 hw
  have hal : s.alive = false := by
    cases hx : s.alive with
    | false => rfl
    | true =>
      rcases alive_iff.1 hx with ⟨p, hq⟩ | ⟨j, hq⟩
      · exact absurd ((producer_get h).2 hq) (hp p)
      · exfalso
        obtain ⟨⟨path, bc⟩, hj⟩ := Option.isSome_iff_exists.1 hq
        have hlt := Slots.get_some_lt hj
        have hmem : some (path, bc) ∈ s.tasks := by
          unfold Slots.get at hj
          rw [List.getElem?_eq_getElem hlt] at hj
          have : s.tasks[j] = some (path, bc) := by simpa using hj
          exact this ▸ List.getElem_mem hlt
        have h1 := List.count_pos_iff.2 hmem
        have h2 := tasks_reach h path bc
        have h3 := ht path bc
        omega
  cases htok : k.token with
  | true => simp [step, hk, hph, htok]
  | false => simp [step, hk, hph, htok, hal]

/-- **C38, the end is not early**: as long as the closure of a published broadcast was not
processed, no consumer is told the end. -/
theorem c38_end_late {tr : Trace} {s : State} (h : machine.Reach tr s) {c : Nat}
    (ha : ConsumerAlive tr c) {path : Path} {bc : Nat}
    (hlt : removals tr path bc < publications tr path bc) : (step s (.recv c)).1 ≠ .ended := by
  obtain ⟨k, hk, hnc⟩ := (alive_get h).1 ha
  have ht := tasks_reach h path bc
  obtain ⟨j, hj⟩ := task_of_count (s := s.tasks) (t := (path, bc)) (by omega)
  have hal : s.alive = true := alive_iff.2 (.inr ⟨j, by rw [hj]; rfl⟩)
  have hreg := (regs_reach h).reg hal c k hk hnc
  by_cases hph : k.phase = .waiting
  · cases htok : k.token with
    | true => simp [step, hk, hph, htok]
    | false => simp [step, hk, hph, htok, hal, hreg]
  · simp [step, hk, hph]

/-- **C38, no spinning.**  A consumer is woken at most once per announcement for it. -/
theorem c38_wakeups {tr : Trace} {s : State} (h : machine.Reach tr s) {c : Nat} (hc : Clean tr c)
    (ha : ConsumerAlive tr c) : wakeups tr c ≤ (expected tr c).length := by
  obtain ⟨k, hk, _⟩ := (alive_get h).1 ha
  have hf := (views_reach h).flow c k hk hc
  have hw := (wakes_reach h).le c k hk
  have := congrArg List.length hf
  simp only [List.length_append] at this
  unfold delivered at hw
  unfold expected
  omega

/-- When the two halves of `next` can be used: `check` unless the consumer waits, `recv` while it
waits. -/
theorem c38_usable {tr : Trace} {s : State} (h : machine.Reach tr s) {c : Nat}
    (ha : ConsumerAlive tr c) :
    ((step s (.check c)).1 ≠ .invalid ↔ waiting tr c = false) ∧
      ((step s (.recv c)).1 ≠ .invalid ↔ waiting tr c = true) := by
  obtain ⟨k, hk, hnc⟩ := (alive_get h).1 ha
  have hph := (waits_reach h).phase c k hk
  have hid : k.phase = .idle ↔ waiting tr c = false := by
    cases hw : waiting tr c with
    | true => have := hph.2 hw; simp [this]
    | false =>
      have : k.phase ≠ .waiting := fun hx => by rw [hph.1 hx] at hw; cases hw
      cases hp : k.phase <;> simp_all
  constructor
  · rw [← hid]
    by_cases hx : k.phase = .idle
    · cases hu : k.updates <;> simp [step, hk, hx, hu]
    · simp [step, hk, hx]
  · rw [← hph]
    by_cases hx : k.phase = .waiting
    · by_cases ht : k.token = true
      · simp [step, hk, hx, ht]
      · by_cases hal : (s.alive && decide (c ∈ s.entries)) = true
        · simp only [step, hk, hx, ht, hal]; simp
        · simp only [step, hk, hx, ht, hal]; simp
    · simp [step, hk, hx]

/-- A consumer waits, is woken once, and after the broadcast and the producer are gone it is told
the end. -/
example : (machine.run [.consumePrefix 0 [] [], .check 0, .recv 0, .publishStart 0 ['a'] 1,
      .publishStep, .publishStep, .publishStep, .recv 0, .check 0, .check 0, .close 1, .task 0,
      .recv 0, .dropProducer 0, .recv 0]).1.map (·.2) =
    [.handle 0, .empty, .pending, .ok, .pending, .pending, .published ['a'] 1 true, .woken,
      .item ['a'] 1, .empty, .ok, .removed ['a'] 1, .pending, .ok, .ended] := by decide +kernel

/-! ## C39: clones -/

/-- **C39 (partial).**  If no publication overlapped with the cloning (and none with the cloning
of the original, if it is a clone itself), then the clone receives exactly what the original
receives: when both find their queues empty and no publication is in progress, the clone and the
original have the same announcements, counting for the clone those that the original had
received before.  Missing: the proviso; see `c39_missed`. -/
theorem c39_clone_partial {tr : Trace} {s : State} (h : machine.Reach tr s) {c d : Nat}
    (hm : (Op.cloneStart d, Out.handle c) ∈ tr) (hc : Clean tr c) (hd : Clean tr d)
    (hac : ConsumerAlive tr c) (had : ConsumerAlive tr d) (hp : ¬ Publishing tr)
    (hec : (step s (.check c)).1 = .empty) (hed : (step s (.check d)).1 = .empty) :
    delivered tr c = delivered tr d := by
  rw [c34_complete h hc hac hp hec, c34_complete h hd had hp hed]
  exact ((clone_reach h d c hm).2.2.2 hc).2

/-- A broadcast is published between the two halves of `clone`. -/
def missed : List Op :=
  [.consumePrefix 0 [] [], .cloneStart 0, .publishStart 0 ['a'] 7, .publishStep, .publishStep,
    .publishStep, .cloneFinish 1]

/-- **The code violates C39.**  When `clone` returns, the broadcast is in the queue of the
original, but the clone finds nothing and waits. -/
theorem c39_missed :
    (machine.run missed).1.getLast? = some (.cloneFinish 1, .ok) ∧
    (step (machine.run missed).2 (.check 0)).1 = .item ['a'] 7 ∧
    (step (machine.run missed).2 (.check 1)).1 = .empty ∧
    (step (step (machine.run missed).2 (.check 1)).2 (.recv 1)).1 = .pending := by
  decide +kernel

/-! ## C40: dropped consumers -/

/-- **C40, live consumers are kept.**  While any producer exists, a live consumer is never told
the end, whichever other consumers were dropped. -/
theorem c40_live_kept {tr : Trace} {s : State} (h : machine.Reach tr s) {c p : Nat}
    (hp : ProducerAlive tr p) : (step s (.recv c)).1 ≠ .ended :=
  fun he => (c38_end h he).1 p hp

/-- **C40, visited once.**  A publication without interruption terminates, whichever consumers
were dropped before; and then every live consumer whose prefix matches has exactly one
announcement more to receive, at the end, and every other live consumer what it had before.
(By `c34_next` this is what it does receive.) -/
theorem c40_publish {tr : Trace} {s : State} (h : machine.Reach tr s) {p : Nat} {path : Path}
    {bc : Nat} (ho : (step s (.publishStart p path bc)).1 = .ok) :
    ∃ n unique,
      let run := (machine.runFrom s (.publishStart p path bc :: List.replicate n .publishStep)).1
      run.getLast? = some (.publishStep, .published path bc unique) ∧ ¬ Publishing (tr ++ run) ∧
      ∀ c, ConsumerAlive tr c → delivered (tr ++ run) c = delivered tr c ∧
        expected (tr ++ run) c = expected tr c ++ under (prefixOf tr c) [(path, bc)] := by
  have hr : Regs (step s (.publishStart p path bc)).2 := regs_step (regs_reach h) _
  have hpub : (step s (.publishStart p path bc)).2.pub = some ⟨p, path, bc, 0, none⟩ := by
    revert ho
    simp only [step]
    (repeat' split) <;> intro ho <;> first | rfl | cases ho
  obtain ⟨n, unique, hn⟩ := publish_ends hr hpub
  have hlast : (machine.runFrom s (.publishStart p path bc :: List.replicate n .publishStep)).1.getLast? =
      some (.publishStep, .published path bc unique) := by
    simp only [Machine.runFrom, List.getLast?_cons]
    rw [hn]
    rfl
  refine ⟨n, unique, hlast, ?_, ?_⟩
  · obtain ⟨l, hl⟩ := List.getLast?_eq_some_iff.1 hlast
    rw [hl, ← List.append_assoc]
    unfold Publishing
    rw [book_snoc]
    simp [note]
  · intro c hc
    have quiet : ∀ (n : Nat) (t : State) (b : Book),
        ((machine.runFrom t (List.replicate n .publishStep)).1.foldl note b).view = b.view := by
      intro n
      induction n with
      | zero => intro t b; rfl
      | succ n ih =>
        intro t b
        rw [List.replicate_succ]
        simp only [Machine.runFrom, List.foldl_cons]
        rw [ih]
        simp only [step]
        (repeat' split) <;> rfl
    have hb : (book (tr ++ (machine.runFrom s
        (.publishStart p path bc :: List.replicate n .publishStep)).1)).view =
        (note (book tr) (.publishStart p path bc, .ok)).view := by
      unfold book
      rw [List.foldl_append]
      simp only [Machine.runFrom, List.foldl_cons]
      rw [quiet, ho]
    unfold delivered expected prefixOf
    rw [hb]
    simp only [note]
    rw [if_pos hc.1]
    exact ⟨rfl, rfl⟩

/-- **C40, unused.**  Waiting for the origin to become unused ends if and only if no live
consumer remains. -/
theorem c40_unused {tr : Trace} {s : State} (h : machine.Reach tr s) {p : Nat}
    (ha : ProducerAlive tr p) (hp : ¬ Publishing tr) :
    (step s (.unused p)).1 = .ok ↔ ∀ c, ¬ ConsumerAlive tr c := by
  have hr := regs_reach h
  have hg := (producer_get h).1 ha
  have hal : s.alive = true := alive_iff.2 (.inl ⟨p, hg⟩)
  obtain ⟨a, hg⟩ := Option.isSome_iff_exists.1 hg
  obtain ⟨dead, hd, hall⟩ := trim_dead (fun c => (s.consumers.get c).isNone) s.entries
  have hlast : ∀ x l, List.dropWhile (fun c => (s.consumers.get c).isNone) s.entries.reverse = x :: l →
      (s.consumers.get x).isNone = false := by
    intro x l hx
    have := List.head?_dropWhile_not (fun c => (s.consumers.get c).isNone) s.entries.reverse
    rw [hx] at this
    simpa using this
  simp only [step, hg, not_publishing h hp]
  constructor
  · intro ho c hc
    obtain ⟨k, hk, hph⟩ := (alive_get h).1 hc
    have hm := hr.reg hal c k hk hph
    have hrest : (List.dropWhile (fun c => (s.consumers.get c).isNone) s.entries.reverse).reverse = [] := by
      refine Classical.byContradiction fun hne => ?_
      rw [if_neg hne] at ho
      cases ho
    rw [hd, hrest, List.nil_append] at hm
    have := hall c hm
    simp only [hk] at this
    cases this
  · intro hno
    rw [if_pos]
    rw [List.reverse_eq_nil_iff]
    cases hw : List.dropWhile (fun c => (s.consumers.get c).isNone) s.entries.reverse with
    | nil => rfl
    | cons x l =>
      exfalso
      have hx := hlast x l hw
      obtain ⟨k, hk⟩ : ∃ k, s.consumers.get x = some k := by
        cases hk : s.consumers.get x with
        | none => rw [hk] at hx; cases hx
        | some k => exact ⟨k, rfl⟩
      have hmem : x ∈ s.entries := by
        rw [hd, hw]
        simp
      by_cases hph : k.phase = .cloning
      · exact hr.unreg x k hk hph hmem
      · exact hno x ((alive_get h).2 ⟨k, hk, hph⟩)

/-! ## C41: publishing the broadcasts of another origin -/

/-- **C41.**  The publications the task begins in the target, and the one it is about to begin,
are exactly the announcements it has received from the source, in order, with the new prefix in
front.  (By C34 and C35 these are exactly the matching broadcasts of the source, with its prefix
removed; by C40 every publication begun ends.) -/
theorem c41_forward {c p : Nat} {pre : Path} {ta tb : Trace} {a b : State}
    {held : Option (Path × Nat)} (h : Forward c p pre ta a tb b held) :
    begunBy p tb ++ held.toList = (delivered ta c).map fun e => (pre ++ e.1, e.2) :=
  h.flow

/-- **C41, the paths.**  Every publication of the task stems from a publication in the source
with the same broadcast, where the path has the prefix of the consumer in place of the new one;
so with equal prefixes the paths are the same. -/
theorem c41_paths {c p : Nat} {pre : Path} {ta tb : Trace} {a b : State}
    {held : Option (Path × Nat)} (h : Forward c p pre ta a tb b held) {path : Path} {bc : Nat}
    (hm : (path, bc) ∈ begunBy p tb) :
    ∃ suffix q, path = pre ++ suffix ∧
      (Op.publishStart q (prefixOf ta c ++ suffix) bc, Out.ok) ∈ ta := by
  have hm : (path, bc) ∈ (delivered ta c).map fun e => (pre ++ e.1, e.2) := by
    rw [← c41_forward h]; exact List.mem_append_left _ hm
  rw [List.mem_map] at hm
  obtain ⟨⟨suffix, b'⟩, hd, he⟩ := hm
  injection he with h1 h2
  subst h2
  obtain ⟨q, hq⟩ := c35_prefix h.reach.1 hd
  exact ⟨suffix, q, h1.symm, hq⟩

/-- **C41, completeness.**  When the task finds nothing more to do while no publication is in
progress in the source, the target has had a publication for every matching broadcast. -/
theorem c41_complete {c p : Nat} {pre : Path} {ta tb : Trace} {a b : State}
    (h : Forward c p pre ta a tb b none) (hc : Clean ta c) (ha : ConsumerAlive ta c)
    (hp : ¬ Publishing ta) (he : (step a (.check c)).1 = .empty) :
    begunBy p tb = (expected ta c).map fun e => (pre ++ e.1, e.2) := by
  rw [← c34_complete h.reach.1 hc ha hp he, ← c41_forward h]
  simp

/-! ## Examples: the hypotheses are met in non-trivial cases -/

/-- Two consumers, one of them with a prefix; the first is dropped; then two publications. -/
def sample : List Op :=
  [.publishStart 0 ['a', 'b'] 1, .publishStep,
   .consumePrefix 0 [] [(['a', 'b'], 1)], .consumePrefix 0 ['a'] [(['a', 'b'], 1)],
   .dropConsumer 0, .check 1,
   .publishStart 0 ['a', 'c'] 2, .publishStep, .publishStep, .publishStep, .publishStep,
   .publishStart 0 ['x'] 3, .publishStep, .publishStep]

example :
    (machine.run sample).1.map (·.2) =
      [.ok, .published ['a', 'b'] 1 true, .handle 0, .handle 1, .ok, .item ['b'] 1, .ok, .pending,
       .pending, .pending, .published ['a', 'c'] 2 true, .ok, .pending, .published ['x'] 3 true] ∧
    expected (machine.run sample).1 1 = [(['b'], 1), (['c'], 2)] ∧
    delivered (machine.run sample).1 1 = [(['b'], 1)] ∧
    (book (machine.run sample).1).publishing = false ∧
    ((book (machine.run sample).1).view 1).clean = true ∧
    ((book (machine.run sample).1).view 1).exists' = true ∧
    (step (machine.run sample).2 (.check 1)).1 = .item ['c'] 2 ∧
    (step (machine.run sample).2 (.unused 0)).1 = .pending ∧
    (step (machine.run sample).2 (.lookup 0 ['x'])).1 = .found 3 := by
  decide +kernel

/-- A consumer waits, and a publication arrives; later all producers are gone and the broadcast
closes. -/
def waiting : List Op :=
  [.consumePrefix 0 [] [], .check 0, .recv 0, .publishStart 0 ['a'] 5, .publishStep, .publishStep,
   .publishStep]

example :
    (machine.run waiting).1.map (·.2) =
      [.handle 0, .empty, .pending, .ok, .pending, .pending, .published ['a'] 5 true] ∧
    (step (machine.run waiting).2 (.recv 0)).1 = .woken ∧
    (machine.runFrom (machine.run waiting).2
      [.recv 0, .check 0, .check 0, .recv 0, .dropProducer 0, .recv 0, .close 5, .task 0,
        .recv 0]).1.map (·.2) =
      [.woken, .item ['a'] 5, .empty, .pending, .ok, .pending, .ok, .removed ['a'] 5, .ended] := by
  decide +kernel

/-- A clone made while nothing is published. -/
example :
    let r := machine.run [.consumePrefix 0 [] [], .publishStart 0 ['a'] 1, .publishStep,
      .publishStep, .publishStep, .cloneStart 0, .cloneFinish 1, .publishStart 0 ['b'] 2,
      .publishStep, .publishStep, .publishStep, .publishStep, .publishStep, .check 0, .check 0,
      .check 1, .check 1]
    ((book r.1).view 1).clean = true ∧ (book r.1).publishing = false ∧
    delivered r.1 0 = [(['a'], 1), (['b'], 2)] ∧ delivered r.1 1 = [(['a'], 1), (['b'], 2)] ∧
    (step r.2 (.check 0)).1 = .empty ∧ (step r.2 (.check 1)).1 = .empty := by
  decide +kernel

/-- A broadcast is forwarded from `room/x` to `lobby/x`. -/
example : ∃ ta a tb b, Forward 0 0 ['l', '/'] ta a tb b none ∧
    begunBy 0 tb = [(['l', '/', 'x'], 4)] := by
  have h0 : machine.Reach (machine.run [.consumePrefix 0 ['r', '/'] []]).1
      (machine.run [.consumePrefix 0 ['r', '/'] []]).2 := machine.reach_run _
  have f0 := Forward.spawn (c := 0) (p := 0) (pre := ['l', '/']) h0 (Machine.Reach.init (M := machine))
    ⟨by decide +kernel, by unfold ConsumerGone; decide +kernel⟩ (by decide +kernel) rfl
  have f1 := f0.source (.publishStart 0 ['r', '/', 'x'] 4) (by simp)
  have f2 := f1.source .publishStep (by simp)
  have f3 := f2.source .publishStep (by simp)
  have f4 := f3.source .publishStep (by simp)
  have f5 := f4.next (suffix := ['x']) (bc := 4) (by decide +kernel)
  have f6 := f5.publish (by decide +kernel)
  exact ⟨_, _, _, _, f6, rfl⟩

end Verif.Props.Origin
