import Verif.Wasm.Render

/-!
# C119: drawing decoded video, rs/hang-wasm

The specification: the frames pushed and those drawn, read off the history; what resumes; and the invariants.
-/

set_option autoImplicit false

namespace Verif.Props.WasmRender

open Verif Verif.Wasm.Render

/-! ## Specification -/

/-- The frames pushed. -/
def pushed (tr : Trace) : List Frame :=
  tr.filterMap fun e => match e with | (.push f, .ok) => some f | _ => none

/-- The frames seen. -/
def drawn (tr : Trace) : List Frame :=
  tr.filterMap fun e => match e.2 with | .drawn f _ => some f | _ => none

/-- What ends a pause: also setting the latency. -/
def Resumes : Op → Prop
  | .paused false => True
  | .latency _ => True
  | _ => False

/-- The player is to show something: not idle, not paused. -/
def Playing (s : State) : Prop := s.status = .live ∨ s.status = .buffering

/-! ## Lemmas -/

def Tim (s : State) : Prop :=
  (∀ h, s.handle = some h → h < s.fresh) ∧
    (s.timers = [] ∨ ∃ h d, s.handle = some h ∧ s.timers = [(h, d)] ∧ d ≤ s.clock + 1000000)

/-- The fields that drawing leaves alone. -/
def Same (s t : State) : Prop :=
  t.scheduled = s.scheduled ∧ t.latency = s.latency ∧ t.visible = s.visible ∧ t.canvas = s.canvas ∧ t.requests = s.requests ∧
    t.clock = s.clock ∧ t.dead = s.dead

theorem Same.rfl' (s : State) : Same s s := ⟨rfl, rfl, rfl, rfl, rfl, rfl, rfl⟩

theorem Same.trans {a b c : State} (h : Same a b) (g : Same b c) : Same a c :=
  ⟨g.1.trans h.1, g.2.1.trans h.2.1, g.2.2.1.trans h.2.2.1, g.2.2.2.1.trans h.2.2.2.1, g.2.2.2.2.1.trans h.2.2.2.2.1,
    g.2.2.2.2.2.1.trans h.2.2.2.2.2.1, g.2.2.2.2.2.2.trans h.2.2.2.2.2.2⟩

theorem setLive_same (s : State) : Same s (setLive s) := by
  unfold setLive Same
  cases s.handle <;> exact ⟨rfl, rfl, rfl, rfl, rfl, rfl, rfl⟩

theorem setLive_status (s : State) : (setLive s).status = .live := by
  unfold setLive
  cases s.handle <;> rfl

theorem setLive_queue (s : State) : (setLive s).queue = s.queue := by
  unfold setLive
  cases s.handle <;> rfl

theorem setLive_anchor (s : State) : (setLive s).anchor = s.anchor := by
  unfold setLive
  cases s.handle <;> rfl

theorem setLive_timers {s : State} (h : Tim s) : (setLive s).timers = [(s.fresh, s.clock + 1000000)] := by
  obtain ⟨_, h2⟩ := h
  unfold setLive
  rcases h2 with h2 | ⟨x, d, h3, h4, _⟩
  · cases hh : s.handle <;> simp [h2]
  · simp [h3, h4]

theorem setLive_tim {s : State} (h : Tim s) : Tim (setLive s) := by
  have ht := setLive_timers h
  have hc := (setLive_same s).2.2.2.2.2.1
  have hh : (setLive s).handle = some s.fresh := by
    unfold setLive
    cases s.handle <;> rfl
  have hf : (setLive s).fresh = s.fresh + 1 := by
    unfold setLive
    cases s.handle <;> rfl
  refine ⟨fun x hx => ?_, .inr ⟨_, _, hh, ht, ?_⟩⟩
  · rw [hh] at hx
    cases hx
    omega
  · omega

/-- What became of the queue and the status while choosing a frame. -/
structure Picked (s : State) (f : Frame) (q : List Frame) (r : Frame × State) (l : List Frame) : Prop where
  split : f :: q = l ++ r.1 :: r.2.queue
  same : Same s r.2
  tim : Tim r.2
  still : l = [] → r.2.status = s.status ∧ r.2.timers = s.timers
  moved : l ≠ [] → r.2.status = .live ∧ ∃ h, r.2.timers = [(h, s.clock + 1000000)]

theorem advance_spec (e p : Nat) (q : List Frame) : ∀ (s : State) (f : Frame), Tim s →
    ∃ l, Picked s f q (advance e p s f q) l ∧ (advance e p s f q).2.anchor = s.anchor ∧
      (∀ x ∈ (l ++ [(advance e p s f q).1]).tail, x.ts - p < e) ∧
      (∀ n, (advance e p s f q).2.queue.head? = some n → e ≤ n.ts - p) := by
  induction q with
  | nil =>
    intro s f ht
    exact ⟨[], ⟨rfl, Same.rfl' s, ht, fun _ => ⟨rfl, rfl⟩, fun h => absurd rfl h⟩, rfl, fun x hx => (nomatch hx),
      fun n hn => (nomatch hn)⟩
  | cons n q ih =>
    intro s f ht
    unfold advance
    split
    · rename_i hle
      refine ⟨[], ⟨rfl, Same.rfl' s, ht, fun _ => ⟨rfl, rfl⟩, fun h => absurd rfl h⟩, rfl, fun x hx => (nomatch hx), ?_⟩
      intro m hm
      cases hm
      exact hle
    · rename_i hle
      obtain ⟨l, hp, ha, hd, hn⟩ := ih (setLive s) n (setLive_tim ht)
      refine ⟨f :: l, ⟨?_, (setLive_same s).trans hp.same, hp.tim, fun h => (nomatch h), fun _ => ?_⟩,
        ha.trans (setLive_anchor s), ?_, hn⟩
      · rw [hp.split]
        rfl
      · by_cases hl : l = []
        · obtain ⟨h1, h2⟩ := hp.still hl
          exact ⟨h1.trans (setLive_status s), _, h2.trans (setLive_timers ht)⟩
        · obtain ⟨h1, x, h2⟩ := hp.moved hl
          rw [(setLive_same s).2.2.2.2.2.1] at h2
          exact ⟨h1, x, h2⟩
      · intro x hx
        have hx' : x ∈ l ++ [(advance e p (setLive s) n q).1] := hx
        cases hl : l with
        | nil =>
          have hs := hp.split
          rw [hl] at hs hx'
          have h1 : n = (advance e p (setLive s) n q).1 := (List.cons.inj hs).1
          rw [List.nil_append, ← h1] at hx'
          rw [List.mem_singleton.1 hx']
          omega
        | cons y l' =>
          have hs := hp.split
          rw [hl] at hs hx' hd
          have h1 : n = y := (List.cons.inj hs).1
          rcases List.mem_cons.1 hx' with h | h
          · rw [h, ← h1]
            omega
          · exact hd x h

theorem pick_spec (s : State) (f : Frame) (q : List Frame) (ht : Tim s) :
    ∃ l, Picked s f q (pick s f q) l ∧
      (∀ w p, s.anchor = some (w, p) → (pick s f q).2.anchor = some (w, p) ∧
        (∀ x ∈ (l ++ [(pick s f q).1]).tail, x.ts - p < s.clock - w) ∧
        (∀ n, (pick s f q).2.queue.head? = some n → s.clock - w ≤ n.ts - p)) ∧
      (s.anchor = none → l = [] ∧ (pick s f q).2.anchor = some (s.clock + s.latency, f.ts)) := by
  unfold pick
  cases ha : s.anchor with
  | none =>
    exact ⟨[], ⟨rfl, ⟨rfl, rfl, rfl, rfl, rfl, rfl, rfl⟩, ht, fun _ => ⟨rfl, rfl⟩, fun h => absurd rfl h⟩, fun w p h => (nomatch h),
      fun _ => ⟨rfl, rfl⟩⟩
  | some a =>
    obtain ⟨w, p⟩ := a
    dsimp only
    obtain ⟨l, hp, h1, h2, h3⟩ := advance_spec (s.clock - w) p q s f ht
    refine ⟨l, hp, ?_, fun h => (nomatch h)⟩
    intro w' p' h
    cases h
    exact ⟨h1.trans ha, h2, h3⟩

theorem resize_same (s : State) (f : Frame) : (resize s f).scheduled = s.scheduled ∧ (resize s f).latency = s.latency ∧
    (resize s f).visible = s.visible ∧ (resize s f).requests = s.requests ∧ (resize s f).clock = s.clock ∧
    (resize s f).dead = s.dead ∧ (resize s f).status = s.status ∧ (resize s f).anchor = s.anchor ∧
    (resize s f).timers = s.timers ∧ (resize s f).handle = s.handle ∧ (resize s f).fresh = s.fresh ∧
    (resize s f).queue = s.queue ∧ (resize s f).canvas = s.canvas.map fun _ => (f.width, f.height) := by
  unfold resize
  cases hc : s.canvas <;> simp [hc]

theorem schedule_same (s : State) : (schedule s).latency = s.latency ∧ (schedule s).visible = s.visible ∧
    (schedule s).canvas = s.canvas ∧ (schedule s).clock = s.clock ∧ (schedule s).dead = s.dead ∧
    (schedule s).status = s.status ∧ (schedule s).anchor = s.anchor ∧ (schedule s).timers = s.timers ∧
    (schedule s).handle = s.handle ∧ (schedule s).fresh = s.fresh ∧ (schedule s).queue = s.queue := by
  unfold schedule
  repeat' split
  all_goals exact ⟨rfl, rfl, rfl, rfl, rfl, rfl, rfl, rfl, rfl, rfl, rfl⟩

theorem schedule_one {s : State} (h : s.requests = if s.scheduled then 1 else 0) :
    (schedule s).requests = if (schedule s).scheduled then 1 else 0 := by
  unfold schedule
  by_cases hs : s.scheduled = true
  · rw [if_pos hs]
    exact h
  · rw [if_neg hs] at h ⊢
    repeat' split
    all_goals simp_all

theorem schedule_sched (s : State) (hp : Playing s) (hv : s.visible = true) (hq : s.queue ≠ []) :
    (schedule s).scheduled = true := by
  unfold schedule
  split
  · assumption
  · rw [if_neg (by rintro ⟨h1, h2⟩; rcases hp with h | h <;> contradiction), if_neg (by simp [hv]), if_neg (by simpa using hq)]

theorem schedule_only (s : State) (h : (schedule s).scheduled = true) : s.scheduled = true ∨ (Playing s ∧ s.visible = true ∧ s.queue ≠ []) := by
  unfold schedule at h
  split at h
  · exact .inl h
  · split at h
    · exact .inl h
    · rename_i hst
      split at h
      · exact .inl h
      · split at h
        · exact .inl h
        · refine .inr ⟨?_, by simp_all, by simp_all⟩
          unfold Playing
          cases hx : s.status <;> simp_all

theorem schedule_hidden (s : State) (h : s.visible = false) : schedule s = s := by
  unfold schedule
  split
  · rfl
  · split
    · rfl
    · rw [if_pos (by simp [h])]

theorem putBack_spec (s : State) (f : Frame) (ht : Tim s) : Same s (putBack s f) ∧ Tim (putBack s f) ∧
    (putBack s f).anchor = s.anchor ∧
    ((duration s.queue).getD 0 < s.latency ∧ (putBack s f).queue = f :: s.queue ∧ (putBack s f).status = s.status ∧
        (putBack s f).timers = s.timers ∨
      ¬ (duration s.queue).getD 0 < s.latency ∧ (putBack s f).queue = s.queue ∧ (putBack s f).status = .live ∧
        (putBack s f).timers = [(s.fresh, s.clock + 1000000)]) := by
  unfold putBack
  split
  · rename_i h
    exact ⟨⟨rfl, rfl, rfl, rfl, rfl, rfl, rfl⟩, ht, rfl, .inl ⟨h, rfl, rfl, rfl⟩⟩
  · rename_i h
    exact ⟨setLive_same s, setLive_tim ht, setLive_anchor s, .inr ⟨h, setLive_queue s, setLive_status s, setLive_timers ht⟩⟩

theorem duration_some (f : Frame) (q : List Frame) :
    duration (f :: q) = some (((f :: q).getLast (by simp)).ts - f.ts) := by
  unfold duration
  rw [List.getLast?_eq_some_getLast (by simp)]
  rfl

theorem trimLoop_spec (d : Nat) (f : Frame) : ∀ (q : List Frame) (b : Bool),
    ∃ l r, q ++ [f] = l ++ r ∧ trimLoop d b (q ++ [f]) = some (r, b || !l.isEmpty) ∧ r.getLast? = some f ∧
      (∀ g, r.head? = some g → f.ts - g.ts ≤ d) ∧ (∀ x ∈ l, d < f.ts - x.ts) := by
  intro q
  induction q with
  | nil =>
    intro b
    refine ⟨[], [f], rfl, ?_, rfl, ?_, fun x hx => (nomatch hx)⟩
    · show trimLoop d b [f] = _
      unfold trimLoop
      rw [duration_some]
      dsimp only
      rw [if_neg (by simp)]
      simp
    · intro g hg
      cases hg
      omega
  | cons x q ih =>
    intro b
    have hdur : duration (x :: (q ++ [f])) = some (f.ts - x.ts) := by
      rw [duration_some]
      have hl : (x :: (q ++ [f])).getLast (by simp) = f := by
        show ((x :: q) ++ [f]).getLast _ = f
        exact List.getLast_concat
      rw [hl]
    by_cases h : d < f.ts - x.ts
    · obtain ⟨l, r, h1, h2, h3, h4, h5⟩ := ih true
      refine ⟨x :: l, r, ?_, ?_, h3, h4, ?_⟩
      · rw [List.cons_append, h1]
        rfl
      · show trimLoop d b (x :: (q ++ [f])) = _
        unfold trimLoop
        rw [hdur]
        dsimp only
        rw [if_pos h, h2]
        simp
      · intro y hy
        rcases List.mem_cons.1 hy with rfl | hy
        · exact h
        · exact h5 y hy
    · refine ⟨[], x :: (q ++ [f]), rfl, ?_, ?_, ?_, fun x hx => (nomatch hx)⟩
      · show trimLoop d b (x :: (q ++ [f])) = _
        unfold trimLoop
        rw [hdur]
        dsimp only
        rw [if_neg h]
        simp
      · show ((x :: q) ++ [f]).getLast? = some f
        exact List.getLast?_concat
      · intro g hg
        cases hg
        omega

theorem push_spec (s : State) (f : Frame) : ∃ l r, s.queue ++ [f] = l ++ r ∧ r.getLast? = some f ∧
    (∀ g, r.head? = some g → f.ts - g.ts ≤ s.latency) ∧ (∀ x ∈ l, s.latency < f.ts - x.ts) ∧
    push s f = (.ok, schedule { s with queue := r, anchor := if l.isEmpty then s.anchor else none }) := by
  obtain ⟨l, r, h1, h2, h3, h4, h5⟩ := trimLoop_spec s.latency f s.queue false
  refine ⟨l, r, h1, h3, h4, h5, ?_⟩
  unfold push trim
  dsimp only
  rw [if_neg (by simp), h2]
  dsimp only
  cases l <;> simp

/-! ## The invariant -/

structure Inv (tr : Trace) (s : State) : Prop where
  one : s.requests = if s.scheduled then 1 else 0
  tim : Tim s
  live : s.status = .live → s.timers ≠ []
  anchor : ∀ w p, s.anchor = some (w, p) → s.latency ≤ w ∧ w ≤ s.clock + s.latency ∧ ∃ f ∈ pushed tr, f.ts = p
  dead : s.dead = true ↔ ∃ e ∈ tr, e.2 = .panic
  order : ∃ (d : Nat) (ks : List Nat), s.queue = (pushed tr).drop d ∧ d ≤ (pushed tr).length ∧ ks.Pairwise (· ≤ ·) ∧
    (∀ k ∈ ks, k ≤ d) ∧ (drawn tr).map some = ks.map fun k => (pushed tr)[k]?
  empty : s.dead = false → s.scheduled = true → s.queue = [] → ∃ a b, tr = a ++ (.paused true, .ok) :: b ∧
    (∀ e ∈ b, e.1 ≠ .draw ∧ ∀ f, e.1 ≠ .push f) ∧ (Playing s → ∃ e ∈ b, Resumes e.1)

theorem pushed_snoc (tr : Trace) (op : Op) (o : Out) :
    pushed (tr ++ [(op, o)]) = pushed tr ++ (match op, o with | .push f, .ok => [f] | _, _ => []) := by
  unfold pushed
  rw [List.filterMap_append]
  congr 1
  cases op <;> cases o <;> rfl

theorem drawn_snoc (tr : Trace) (op : Op) (o : Out) :
    drawn (tr ++ [(op, o)]) = drawn tr ++ (match o with | .drawn f _ => [f] | _ => []) := by
  unfold drawn
  rw [List.filterMap_append]
  congr 1
  cases o <;> rfl

/-- A step that draws nothing and pushes nothing. -/
theorem quiet {tr : Trace} {op : Op} {o : Out} (hp : ∀ f, op ≠ .push f) (ho : ∀ f c, o ≠ .drawn f c) :
    pushed (tr ++ [(op, o)]) = pushed tr ∧ drawn (tr ++ [(op, o)]) = drawn tr := by
  rw [pushed_snoc, drawn_snoc]
  constructor
  · cases op <;> first | simp | skip
    exact absurd rfl (hp _)
  · cases o <;> first | simp | skip
    exact absurd rfl (ho _ _)

theorem panic_snoc (tr : Trace) (op : Op) (o : Out) :
    (∃ e ∈ tr ++ [(op, o)], e.2 = .panic) ↔ (∃ e ∈ tr, e.2 = .panic) ∨ o = .panic := by
  constructor
  · rintro ⟨e, he, h⟩
    rcases List.mem_append.1 he with he | he
    · exact .inl ⟨e, he, h⟩
    · rw [List.mem_singleton.1 he] at h
      exact .inr h
  · rintro (⟨e, he, h⟩ | h)
    · exact ⟨e, List.mem_append_left _ he, h⟩
    · exact ⟨_, List.mem_append_right _ (List.mem_singleton.2 rfl), h⟩

theorem tim_clock {s : State} (h : Tim s) (d : Nat) : Tim { s with clock := s.clock + d } := by
  refine ⟨h.1, ?_⟩
  rcases h.2 with h | ⟨x, y, h1, h2, h3⟩
  · exact .inl h
  · exact .inr ⟨x, y, h1, h2, by show y ≤ s.clock + d + 1000000; omega⟩

theorem empty_snoc {tr : Trace} {s : State} (op : Op) (o : Out) (s' : State) (hd : op ≠ .draw) (hp : ∀ f, op ≠ .push f)
    (h : ∃ a b, tr = a ++ (.paused true, .ok) :: b ∧ (∀ e ∈ b, e.1 ≠ .draw ∧ ∀ f, e.1 ≠ .push f) ∧
      (Playing s → ∃ e ∈ b, Resumes e.1)) (hs : Playing s' → Playing s ∨ Resumes op) :
    ∃ a b, tr ++ [(op, o)] = a ++ (.paused true, .ok) :: b ∧ (∀ e ∈ b, e.1 ≠ .draw ∧ ∀ f, e.1 ≠ .push f) ∧
      (Playing s' → ∃ e ∈ b, Resumes e.1) := by
  obtain ⟨a, b, h1, h2, h3⟩ := h
  refine ⟨a, b ++ [(op, o)], by simp [h1], ?_, ?_⟩
  · intro e he
    rcases List.mem_append.1 he with he | he
    · exact h2 e he
    · rw [List.mem_singleton.1 he]
      exact ⟨hd, hp⟩
  · intro hpl
    rcases hs hpl with h | h
    · obtain ⟨e, he, hr⟩ := h3 h
      exact ⟨e, List.mem_append_left _ he, hr⟩
    · exact ⟨_, List.mem_append_right _ (List.mem_singleton.2 rfl), h⟩

/-- What an animation frame does. -/
inductive Drew (s : State) : Out × State → Prop
  | invalid : s.requests = 0 → Drew s (.invalid, s)
  | off (n : Nat) : s.requests = n + 1 → ¬ Playing s → Drew s (.ok, { s with requests := n, scheduled := false })
  | panic (n : Nat) : s.requests = n + 1 → Playing s → s.queue = [] →
      Drew s (.panic, { s with requests := n, scheduled := false, queue := [], dead := true })
  | frame (n : Nat) (f : Frame) (q : List Frame) (t : State) : s.requests = n + 1 → Playing s → s.queue = f :: q →
      t = (resize { s with requests := n, scheduled := false, queue := q } f) →
      Drew s (show' (pick t f q).2 (pick t f q).1, schedule (putBack (pick t f q).2 (pick t f q).1))

theorem draw_drew (s : State) : Drew s (draw s) := by
  unfold draw
  cases hr : s.requests with
  | zero => exact .invalid hr
  | succ n =>
    dsimp only
    split
    · rename_i h
      refine .off n hr ?_
      rintro (h1 | h1) <;> rcases h with h | h <;> simp_all
    · rename_i h
      have hp : Playing s := by
        unfold Playing
        cases hx : s.status <;> simp_all
      cases hq : s.queue with
      | nil =>
        exact .panic n hr hp hq
      | cons f q =>
        dsimp only
        exact .frame n f q _ hr hp hq rfl

theorem tim_of {s t : State} (h : Tim s) (h1 : t.handle = s.handle) (h2 : t.fresh = s.fresh) (h3 : t.timers = s.timers)
    (h4 : t.clock = s.clock) : Tim t := by
  unfold Tim
  rw [h1, h2, h3, h4]
  exact h

theorem order_keep {tr : Trace} {s : State} {op : Op} {o : Out} {q : List Frame}
    (h : ∃ (d : Nat) (ks : List Nat), s.queue = (pushed tr).drop d ∧ d ≤ (pushed tr).length ∧ ks.Pairwise (· ≤ ·) ∧
      (∀ k ∈ ks, k ≤ d) ∧ (drawn tr).map some = ks.map fun k => (pushed tr)[k]?)
    (h1 : pushed (tr ++ [(op, o)]) = pushed tr) (h2 : drawn (tr ++ [(op, o)]) = drawn tr) (hq : q = s.queue ∨ q = []) :
    ∃ (d : Nat) (ks : List Nat), q = (pushed (tr ++ [(op, o)])).drop d ∧ d ≤ (pushed (tr ++ [(op, o)])).length ∧
      ks.Pairwise (· ≤ ·) ∧ (∀ k ∈ ks, k ≤ d) ∧
      (drawn (tr ++ [(op, o)])).map some = ks.map fun k => (pushed (tr ++ [(op, o)]))[k]? := by
  rw [h1, h2]
  obtain ⟨d, ks, a, b, c, e, f⟩ := h
  rcases hq with rfl | rfl
  · exact ⟨d, ks, a, b, c, e, f⟩
  · exact ⟨(pushed tr).length, ks, by simp, Nat.le_refl _, c, fun k hk => Nat.le_trans (e k hk) b, f⟩

/-- An operation that leaves the queue or empties it, and draws nothing. -/
theorem inv_quiet {tr : Trace} {s t : State} {op : Op} {o : Out} (v : Inv tr s) (hp : ∀ f, op ≠ .push f)
    (ho : ∀ f c, o ≠ .drawn f c) (hpan : o = .panic → s.dead = true) (hq : t.queue = s.queue ∨ t.queue = [])
    (one : t.requests = if t.scheduled then 1 else 0) (tim : Tim t) (live : t.status = .live → t.timers ≠ [])
    (anchor : t.anchor = none ∨ t.anchor = s.anchor ∧ t.latency = s.latency ∧ s.clock ≤ t.clock) (dead : t.dead = s.dead)
    (empty : t.dead = false → t.scheduled = true → t.queue = [] → ∃ a b, tr ++ [(op, o)] = a ++ (.paused true, .ok) :: b ∧
      (∀ e ∈ b, e.1 ≠ .draw ∧ ∀ f, e.1 ≠ .push f) ∧ (Playing t → ∃ e ∈ b, Resumes e.1)) :
    Inv (tr ++ [(op, o)]) t := by
  obtain ⟨h1, h2⟩ := quiet (tr := tr) hp ho
  refine ⟨one, tim, live, ?_, ?_, order_keep v.order h1 h2 hq, empty⟩
  · intro w p hw
    rw [h1]
    rcases anchor with h | ⟨h, hl, hc⟩
    · rw [h] at hw
      cases hw
    · rw [h] at hw
      obtain ⟨a, b, c⟩ := v.anchor w p hw
      rw [hl]
      exact ⟨a, by omega, c⟩
  · rw [panic_snoc, dead, v.dead]
    constructor
    · exact .inl
    · rintro (h | h)
      · exact h
      · exact v.dead.1 (hpan h)

theorem inv_init : Inv [] init := by
  refine ⟨rfl, ⟨fun h hh => (nomatch hh), .inl rfl⟩, fun h => (nomatch h), fun w p h => (nomatch h), ?_, ?_, fun _ h => (nomatch h)⟩
  · constructor
    · intro h
      cases h
    · rintro ⟨e, he, _⟩
      cases he
  · exact ⟨0, [], rfl, Nat.le_refl _, List.Pairwise.nil, fun k hk => (nomatch hk), rfl⟩

theorem inv_wait {tr : Trace} {s : State} (v : Inv tr s) (d : Nat) :
    Inv (tr ++ [(.wait d, .ok)]) { s with clock := s.clock + d } :=
  inv_quiet v (fun _ h => (nomatch h)) (fun _ _ h => (nomatch h)) (fun h => (nomatch h)) (.inl rfl) v.one (tim_clock v.tim d)
    v.live (.inr ⟨rfl, rfl, Nat.le_add_right _ _⟩) rfl
    (fun h1 h2 h3 => empty_snoc (s := s) _ _ _ (fun h => (nomatch h)) (fun _ h => (nomatch h)) (v.empty h1 h2 h3) .inl)

theorem inv_dead {tr : Trace} {s : State} (v : Inv tr s) (hd : s.dead = true) (op : Op) : Inv (tr ++ [(op, .panic)]) s := by
  have h1 : pushed (tr ++ [(op, .panic)]) = pushed tr := by
    rw [pushed_snoc]
    cases op <;> simp
  have h2 : drawn (tr ++ [(op, .panic)]) = drawn tr := by
    rw [drawn_snoc]
    simp
  refine ⟨v.one, v.tim, v.live, ?_, ?_, order_keep v.order h1 h2 (.inl rfl), fun h => absurd hd (by simp [h])⟩
  · rw [h1]
    exact v.anchor
  · rw [panic_snoc]
    exact ⟨fun _ => .inr rfl, fun _ => hd⟩

theorem inv_schedule {tr : Trace} {s t : State} {op : Op} (v : Inv tr s) (hp : ∀ f, op ≠ .push f) (hd : op ≠ .draw)
    (hq : t.queue = s.queue) (hr : t.requests = s.requests) (hs : t.scheduled = s.scheduled) (htm : t.timers = s.timers)
    (hh : t.handle = s.handle) (hf : t.fresh = s.fresh) (hc : t.clock = s.clock) (live : t.status = .live → s.status = .live)
    (ha : t.anchor = s.anchor) (hl : t.latency = s.latency) (dead : t.dead = s.dead)
    (pl : Playing t → Playing s ∨ Resumes op) : Inv (tr ++ [(op, .ok)]) (schedule t) := by
  have ss := schedule_same t
  have hone : t.requests = if t.scheduled then 1 else 0 := by
    rw [hr, hs]
    exact v.one
  refine inv_quiet v hp (fun _ _ h => (nomatch h)) (fun h => (nomatch h)) (.inl (by rw [ss.2.2.2.2.2.2.2.2.2.2, hq]))
    (schedule_one hone) (tim_of v.tim ?_ ?_ ?_ ?_) ?_ (.inr ⟨?_, ?_, ?_⟩) ?_ ?_
  · rw [ss.2.2.2.2.2.2.2.2.1, hh]
  · rw [ss.2.2.2.2.2.2.2.2.2.1, hf]
  · rw [ss.2.2.2.2.2.2.2.1, htm]
  · rw [ss.2.2.2.1, hc]
  · rw [ss.2.2.2.2.2.1, ss.2.2.2.2.2.2.2.1, htm]
    exact fun h => v.live (live h)
  · rw [ss.2.2.2.2.2.2.1, ha]
  · rw [ss.1, hl]
  · rw [ss.2.2.2.1, hc]
    exact Nat.le_refl _
  · rw [ss.2.2.2.2.1, dead]
  · intro h1 h2 h3
    rw [ss.2.2.2.2.2.2.2.2.2.2, hq] at h3
    rw [ss.2.2.2.2.1, dead] at h1
    rcases schedule_only t h2 with h4 | ⟨_, _, h4⟩
    · rw [hs] at h4
      refine empty_snoc _ _ _ hd hp (v.empty h1 h4 h3) ?_
      unfold Playing
      rw [ss.2.2.2.2.2.1]
      exact pl
    · rw [hq] at h4
      exact absurd h3 h4

theorem drop_snoc_split {α : Type} {xs l r : List α} {f : α} {d : Nat} (hd : d ≤ xs.length) (h : xs.drop d ++ [f] = l ++ r) :
    r = (xs ++ [f]).drop (d + l.length) ∧ d + l.length ≤ (xs ++ [f]).length := by
  have h1 : (xs ++ [f]).drop d = l ++ r := by
    rw [List.drop_append_of_le_length hd]
    exact h
  constructor
  · rw [← List.drop_drop, h1, List.drop_left]
  · have := congrArg List.length h
    simp only [List.length_append, List.length_drop, List.length_cons, List.length_nil] at this ⊢
    omega

theorem get_keep {α : Type} {xs : List α} {f : α} {ds : List α} {ks : List Nat} (h : ds.map some = ks.map fun k => xs[k]?) :
    ds.map some = ks.map fun k => (xs ++ [f])[k]? := by
  rw [h]
  apply List.map_congr_left
  intro k hk
  have hm : xs[k]? ∈ ds.map some := by
    rw [h]
    exact List.mem_map.2 ⟨k, hk, rfl⟩
  obtain ⟨x, _, hx⟩ := List.mem_map.1 hm
  obtain ⟨hlt, _⟩ := List.getElem?_eq_some_iff.1 hx.symm
  rw [List.getElem?_append_left hlt]

theorem inv_push {tr : Trace} {s : State} (v : Inv tr s) (f : Frame) : Inv (tr ++ [(.push f, (push s f).1)]) (push s f).2 := by
  obtain ⟨l, r, h1, h2, h3, h4, h5⟩ := push_spec s f
  rw [h5]
  dsimp only
  generalize ht : { s with queue := r, anchor := if l.isEmpty then s.anchor else none } = t
  have hq : t.queue = r := by rw [← ht]
  have ss := schedule_same t
  have hp : pushed (tr ++ [(.push f, .ok)]) = pushed tr ++ [f] := pushed_snoc _ _ _
  have hdr : drawn (tr ++ [(.push f, .ok)]) = drawn tr := by
    rw [drawn_snoc]
    simp
  have hr : r ≠ [] := by
    rintro rfl
    cases h2
  have hone : t.requests = if t.scheduled then 1 else 0 := by
    rw [← ht]
    exact v.one
  refine ⟨schedule_one hone, tim_of v.tim ?_ ?_ ?_ ?_, ?_, ?_, ?_, ?_, ?_⟩
  · rw [ss.2.2.2.2.2.2.2.2.1, ← ht]
  · rw [ss.2.2.2.2.2.2.2.2.2.1, ← ht]
  · rw [ss.2.2.2.2.2.2.2.1, ← ht]
  · rw [ss.2.2.2.1, ← ht]
  · rw [ss.2.2.2.2.2.1, ss.2.2.2.2.2.2.2.1, ← ht]
    exact v.live
  · intro w p hw
    rw [ss.2.2.2.2.2.2.1, ← ht] at hw
    dsimp only at hw
    split at hw
    · obtain ⟨a, b, g, hg, c⟩ := v.anchor w p hw
      rw [ss.1, ss.2.2.2.1, ← ht, hp]
      exact ⟨a, b, g, List.mem_append_left _ hg, c⟩
    · cases hw
  · rw [panic_snoc, ss.2.2.2.2.1, ← ht]
    show s.dead = true ↔ _
    rw [v.dead]
    constructor
    · exact .inl
    · rintro (h | h)
      · exact h
      · cases h
  · rw [ss.2.2.2.2.2.2.2.2.2.2, hq, hp, hdr]
    obtain ⟨d, ks, a, b, c, e, g⟩ := v.order
    rw [a] at h1
    obtain ⟨h6, h7⟩ := drop_snoc_split b h1
    exact ⟨d + l.length, ks, h6, h7, c, fun k hk => Nat.le_trans (e k hk) (Nat.le_add_right _ _), get_keep g⟩
  · intro _ _ h
    rw [ss.2.2.2.2.2.2.2.2.2.2, hq] at h
    exact absurd h hr

theorem inv_fire {tr : Trace} {s : State} (v : Inv tr s) (h : Nat) : Inv (tr ++ [(.fire h, (fire s h).1)]) (fire s h).2 := by
  have keep : ∀ o : Out, (o ≠ .panic) → (∀ f c, o ≠ .drawn f c) → Inv (tr ++ [(.fire h, o)]) s := fun o ho hdr =>
    inv_quiet v (fun _ h => (nomatch h)) hdr (fun h => absurd h ho) (.inl rfl) v.one v.tim v.live
      (.inr ⟨rfl, rfl, Nat.le_refl _⟩) rfl
      (fun h1 h2 h3 => empty_snoc (s := s) _ _ _ (fun h => (nomatch h)) (fun _ h => (nomatch h)) (v.empty h1 h2 h3) .inl)
  unfold fire
  cases hf : s.timers.find? (fun t => t.1 = h) with
  | none => exact keep _ (fun h => (nomatch h)) (fun _ _ h => (nomatch h))
  | some t =>
    dsimp only
    split
    · exact keep _ (fun h => (nomatch h)) (fun _ _ h => (nomatch h))
    · have htm : s.timers.filter (fun t => t.1 ≠ h) = [] := by
        rcases v.tim.2 with h1 | ⟨x, d, _, h1, _⟩
        · rw [h1] at hf
          cases hf
        · rw [h1] at hf ⊢
          have := List.mem_of_find?_eq_some hf
          have h2 := List.find?_some hf
          rw [List.mem_singleton.1 this] at h2
          simp_all
      rw [htm]
      split
      · refine inv_quiet v (fun _ h => (nomatch h)) (fun _ _ h => (nomatch h)) (fun h => (nomatch h)) (.inl rfl) v.one
          ⟨v.tim.1, .inl rfl⟩ (fun h => (nomatch h)) (.inr ⟨rfl, rfl, Nat.le_refl _⟩) rfl ?_
        intro h1 h2 h3
        refine empty_snoc (s := s) _ _ _ (fun h => (nomatch h)) (fun _ h => (nomatch h)) (v.empty h1 h2 h3) ?_
        intro _
        exact .inl (.inl (by assumption))
      · refine inv_quiet v (fun _ h => (nomatch h)) (fun _ _ h => (nomatch h)) (fun h => (nomatch h)) (.inl rfl) v.one
          ⟨v.tim.1, .inl rfl⟩ (fun h => absurd h (by assumption)) (.inr ⟨rfl, rfl, Nat.le_refl _⟩) rfl ?_
        intro h1 h2 h3
        exact empty_snoc (s := s) _ _ _ (fun h => (nomatch h)) (fun _ h => (nomatch h)) (v.empty h1 h2 h3) .inl

/-- All about an animation frame in which a frame was chosen: `g` is chosen, `l` before it, `r` after it. -/
structure Frames (s : State) (o : Out) (s' : State) (l : List Frame) (g : Frame) (r : List Frame) : Prop where
  split : s.queue = l ++ g :: r
  out : o = match s.canvas, s.queue with | some _, f :: _ => .drawn g (f.width, f.height) | _, _ => .ok
  back : s'.queue = g :: r ∧ (duration r).getD 0 < s.latency ∧ (l = [] → s'.status = s.status ∧ s'.timers = s.timers) ∧
      (l ≠ [] → s'.status = .live ∧ ∃ h, s'.timers = [(h, s.clock + 1000000)]) ∨
    s'.queue = r ∧ ¬ (duration r).getD 0 < s.latency ∧ s'.status = .live ∧ ∃ h, s'.timers = [(h, s.clock + 1000000)]
  latency : s'.latency = s.latency
  visible : s'.visible = s.visible
  clock : s'.clock = s.clock
  dead : s'.dead = s.dead
  one : s'.requests = if s'.scheduled then 1 else 0
  sched : s'.scheduled = true ↔ s.visible = true ∧ s'.queue ≠ []
  tim : Tim s'
  due : ∀ w p, s.anchor = some (w, p) → s'.anchor = some (w, p) ∧ (∀ x ∈ (l ++ [g]).tail, x.ts - p < s.clock - w) ∧
    (∀ n, r.head? = some n → s.clock - w ≤ n.ts - p)
  first : s.anchor = none → l = [] ∧ s'.anchor = some (s.clock + s.latency, g.ts)
  play : Playing s'

theorem frame_spec {s : State} {f : Frame} {q : List Frame} {t : State} (ht : Tim s) (hp : Playing s)
    (hq : s.queue = f :: q) (he : t = resize { s with requests := 0, scheduled := false, queue := q } f) :
    ∃ l, Frames s (show' (pick t f q).2 (pick t f q).1) (schedule (putBack (pick t f q).2 (pick t f q).1)) l (pick t f q).1
      (pick t f q).2.queue := by
  obtain ⟨r1, r2, r3, r4, r5, r6, r7, r8, r9, r10, r11, r12, r13⟩ := resize_same { s with requests := 0, scheduled := false, queue := q } f
  rw [← he] at r1 r2 r3 r4 r5 r6 r7 r8 r9 r10 r11 r12 r13
  have tt : Tim t := tim_of ht r10 r11 r9 r5
  obtain ⟨l, hk, hdue, hfirst⟩ := pick_spec t f q tt
  have pb := putBack_spec (pick t f q).2 (pick t f q).1 hk.tim
  have ss := schedule_same (putBack (pick t f q).2 (pick t f q).1)
  generalize hr : pick t f q = r at hk hdue hfirst pb ss
  generalize hb : putBack r.2 r.1 = b at pb ss
  obtain ⟨s1, s2, s3, s4, s5, s6, s7⟩ := hk.same
  obtain ⟨⟨p1, p2, p3, p4, p5, p6, p7⟩, p8, p9, p10⟩ := pb
  have hlat : r.2.latency = s.latency := s2.trans r2
  have hst : t.status = s.status := r7
  have hclk : r.2.clock = s.clock := s6.trans r5
  have htc : t.clock = s.clock := r5
  have hplay : Playing b := by
    rcases p10 with ⟨_, _, h, _⟩ | ⟨_, _, h, _⟩
    · unfold Playing
      rw [h]
      by_cases hl : l = []
      · rw [(hk.still hl).1, r7]
        exact hp
      · rw [(hk.moved hl).1]
        exact .inl rfl
    · exact .inl h
  have hbs : b.scheduled = false := by rw [p1, s1, r1]
  have hbr : b.requests = 0 := by rw [p5, s5, r4]
  have hvis : b.visible = s.visible := by rw [p3, s3, r3]
  refine ⟨l, ?_, ?_, ?_, ?_, ?_, ?_, ?_, ?_, ?_, ?_, ?_, ?_, ?_⟩
  · rw [hq]
    exact hk.split
  · unfold show'
    rw [s4, r13, hq]
    cases s.canvas <;> rfl
  · rw [ss.2.2.2.2.2.2.2.2.2.2, ss.2.2.2.2.2.1, ss.2.2.2.2.2.2.2.1]
    rcases p10 with ⟨h1, h2, h3, h4⟩ | ⟨h1, h2, h3, h4⟩
    · refine .inl ⟨h2, hlat ▸ h1, fun hl => ?_, fun hl => ?_⟩
      · obtain ⟨x, y⟩ := hk.still hl
        rw [h3, h4, x, y, r7, r9]
        exact ⟨rfl, rfl⟩
      · obtain ⟨x, h, y⟩ := hk.moved hl
        rw [h3, h4]
        rw [htc] at y
        exact ⟨x, h, y⟩
    · rw [hclk] at h4
      exact .inr ⟨h2, hlat ▸ h1, h3, _, h4⟩
  · rw [ss.1, p2, hlat]
  · rw [ss.2.1, hvis]
  · rw [ss.2.2.2.1, p6, hclk]
  · rw [ss.2.2.2.2.1, p7, s7, r6]
  · exact schedule_one (by rw [hbr, hbs]; rfl)
  · rw [ss.2.2.2.2.2.2.2.2.2.2]
    constructor
    · intro h
      rcases schedule_only b h with h | ⟨_, h1, h2⟩
      · rw [hbs] at h
        cases h
      · exact ⟨hvis ▸ h1, h2⟩
    · rintro ⟨h1, h2⟩
      exact schedule_sched b hplay (hvis.trans h1) h2
  · exact tim_of p8 ss.2.2.2.2.2.2.2.2.1 ss.2.2.2.2.2.2.2.2.2.1 ss.2.2.2.2.2.2.2.1 ss.2.2.2.1
  · intro w p hw
    obtain ⟨h1, h2, h3⟩ := hdue w p (r8.trans hw)
    rw [htc] at h2 h3
    rw [ss.2.2.2.2.2.2.1, p9]
    exact ⟨h1, h2, h3⟩
  · intro hw
    obtain ⟨h1, h2⟩ := hfirst (r8.trans hw)
    rw [ss.2.2.2.2.2.2.1, p9, h2]
    have hs := hk.split
    rw [h1] at hs
    rw [htc, r2, (List.cons.inj hs).1]
    exact ⟨h1, rfl⟩
  · unfold Playing
    rw [ss.2.2.2.2.2.1]
    exact hplay

/-- The ways an animation frame goes. -/
theorem draw_spec {s : State} (one : s.requests = if s.scheduled then 1 else 0) (ht : Tim s) :
    (s.scheduled = false ∧ draw s = (.invalid, s)) ∨
    (s.scheduled = true ∧ ¬ Playing s ∧ draw s = (.ok, { s with requests := 0, scheduled := false })) ∨
    (s.scheduled = true ∧ Playing s ∧ s.queue = [] ∧
      draw s = (.panic, { s with requests := 0, scheduled := false, queue := [], dead := true })) ∨
    (s.scheduled = true ∧ Playing s ∧ ∃ l g r, Frames s (draw s).1 (draw s).2 l g r) := by
  have hd := draw_drew s
  generalize draw s = x at hd ⊢
  have hn : ∀ n, s.requests = n + 1 → s.scheduled = true ∧ n = 0 := by
    intro n h
    rw [one] at h
    split at h
    · exact ⟨by assumption, by omega⟩
    · omega
  cases hd with
  | invalid h =>
    refine .inl ⟨?_, rfl⟩
    rw [one] at h
    cases hs : s.scheduled
    · rfl
    · rw [hs] at h
      cases h
  | off n h hp =>
    obtain ⟨h1, rfl⟩ := hn n h
    exact .inr (.inl ⟨h1, hp, rfl⟩)
  | panic n h hp hq =>
    obtain ⟨h1, rfl⟩ := hn n h
    exact .inr (.inr (.inl ⟨h1, hp, hq, rfl⟩))
  | frame n f q t h hp hq he =>
    obtain ⟨h1, rfl⟩ := hn n h
    obtain ⟨l, hl⟩ := frame_spec ht hp hq he
    exact .inr (.inr (.inr ⟨h1, hp, l, _, _, hl⟩))

theorem inv_draw {tr : Trace} {s : State} (v : Inv tr s) (_ : s.dead = false) :
    Inv (tr ++ [(.draw, (draw s).1)]) (draw s).2 := by
  rcases draw_spec v.one v.tim with ⟨h1, h⟩ | ⟨_, hp, h⟩ | ⟨_, hp, hq, h⟩ | ⟨_, hp, l, g, r, h⟩
  · rw [h]
    exact inv_quiet v (fun _ h => (nomatch h)) (fun _ _ h => (nomatch h)) (fun h => (nomatch h)) (.inl rfl) v.one v.tim v.live
      (.inr ⟨rfl, rfl, Nat.le_refl _⟩) rfl (fun _ h2 => absurd h2 (by rw [h1]; exact Bool.false_ne_true))
  · rw [h]
    exact inv_quiet v (fun _ h => (nomatch h)) (fun _ _ h => (nomatch h)) (fun h => (nomatch h)) (.inl rfl) rfl v.tim v.live
      (.inr ⟨rfl, rfl, Nat.le_refl _⟩) rfl (fun _ h2 => nomatch h2)
  · rw [h]
    obtain ⟨h1, h2⟩ := quiet (tr := tr) (op := .draw) (o := .panic) (fun _ h => (nomatch h)) (fun _ _ h => (nomatch h))
    refine ⟨rfl, v.tim, v.live, ?_, ?_, order_keep v.order h1 h2 (.inr rfl), fun h => (nomatch h)⟩
    · rw [h1]
      exact v.anchor
    · rw [panic_snoc]
      exact ⟨fun _ => .inr rfl, fun _ => rfl⟩
  · generalize ho : (draw s).1 = o at h ⊢
    generalize hs : (draw s).2 = s' at h ⊢
    have hp' : pushed (tr ++ [(.draw, o)]) = pushed tr := by
      rw [pushed_snoc]
      simp
    have hg : g ∈ pushed tr := by
      obtain ⟨d, ks, a, _⟩ := v.order
      have : g ∈ s.queue := by
        rw [h.split]
        exact List.mem_append_right _ List.mem_cons_self
      rw [a] at this
      exact List.mem_of_mem_drop this
    refine ⟨h.one, h.tim, ?_, ?_, ?_, ?_, ?_⟩
    · intro hl
      rcases h.back with ⟨_, _, h1, h2⟩ | ⟨_, _, _, x, h1⟩
      · by_cases hn : l = []
        · obtain ⟨a, b⟩ := h1 hn
          rw [b]
          exact v.live (a ▸ hl)
        · obtain ⟨_, x, b⟩ := h2 hn
          rw [b]
          exact List.cons_ne_nil _ _
      · rw [h1]
        exact List.cons_ne_nil _ _
    · intro w p hw
      rw [hp', h.latency, h.clock]
      cases ha : s.anchor with
      | some x =>
        obtain ⟨w', p'⟩ := x
        rw [(h.due w' p' ha).1] at hw
        cases hw
        exact v.anchor _ _ ha
      | none =>
        rw [(h.first ha).2] at hw
        cases hw
        exact ⟨Nat.le_add_left _ _, Nat.le_refl _, g, hg, rfl⟩
    · rw [panic_snoc, h.dead, v.dead]
      constructor
      · exact .inl
      · rintro (h1 | h1)
        · exact h1
        · rw [h.out] at h1
          split at h1 <;> cases h1
    · rw [hp']
      obtain ⟨d, ks, a, b, c, e, k⟩ := v.order
      have hdrop : (pushed tr).drop (d + l.length) = g :: r := by
        rw [← List.drop_drop, ← a, h.split, List.drop_left]
      have hlt : d + l.length < (pushed tr).length := by
        have := congrArg List.length hdrop
        simp only [List.length_drop, List.length_cons] at this
        omega
      have hget : (pushed tr)[d + l.length]? = some g := by
        have : ((pushed tr).drop (d + l.length))[0]? = some g := by rw [hdrop]; rfl
        rwa [List.getElem?_drop] at this
      have hdraw : ∃ ks' : List Nat, ks'.Pairwise (· ≤ ·) ∧ (∀ k ∈ ks', k ≤ d + l.length) ∧
          (drawn (tr ++ [(.draw, o)])).map some = ks'.map fun k => (pushed tr)[k]? := by
        rw [drawn_snoc, h.out, h.split]
        cases hc : s.canvas with
        | none =>
          refine ⟨ks, c, fun k hk => Nat.le_trans (e k hk) (Nat.le_add_right _ _), ?_⟩
          simpa using k
        | some z =>
          refine ⟨ks ++ [d + l.length], ?_, ?_, ?_⟩
          · rw [List.pairwise_append]
            refine ⟨c, List.pairwise_singleton _ _, fun x hx y hy => ?_⟩
            rw [List.mem_singleton.1 hy]
            exact Nat.le_trans (e x hx) (Nat.le_add_right _ _)
          · intro x hx
            rcases List.mem_append.1 hx with hx | hx
            · exact Nat.le_trans (e x hx) (Nat.le_add_right _ _)
            · rw [List.mem_singleton.1 hx]
              exact Nat.le_refl _
          · rw [List.map_append, List.map_append, k, List.map_cons, List.map_nil, hget]
            cases l <;> rfl
      obtain ⟨ks', i1, i2, i3⟩ := hdraw
      rcases h.back with ⟨hq, _⟩ | ⟨hq, _⟩
      · exact ⟨d + l.length, ks', hq.trans hdrop.symm, Nat.le_of_lt hlt, i1, i2, i3⟩
      · refine ⟨d + l.length + 1, ks', ?_, hlt, i1, fun k hk => Nat.le_succ_of_le (i2 k hk), i3⟩
        rw [hq, ← List.drop_drop, hdrop]
        rfl
    · intro _ h2 h3
      exact absurd h3 (h.sched.1 h2).2

theorem inv_step {tr : Trace} {s : State} (v : Inv tr s) (op : Op) : Inv (tr ++ [(op, (step s op).1)]) (step s op).2 := by
  unfold step
  by_cases hd : s.dead = true
  · rw [if_pos hd]
    cases op with
    | wait d => exact inv_wait v d
    | _ => exact inv_dead v hd _
  · rw [if_neg hd]
    have hd' : s.dead = false := by simpa using hd
    cases op with
    | push f => exact inv_push v f
    | draw => exact inv_draw v hd'
    | canvas c =>
      exact inv_quiet v (fun _ h => (nomatch h)) (fun _ _ h => (nomatch h)) (fun h => (nomatch h)) (.inl rfl) v.one v.tim v.live
        (.inr ⟨rfl, rfl, Nat.le_refl _⟩) rfl
        (fun h1 h2 h3 => empty_snoc (s := s) _ _ _ (fun h => (nomatch h)) (fun _ h => (nomatch h)) (v.empty h1 h2 h3) .inl)
    | paused b =>
      cases b with
      | true =>
        refine inv_quiet v (fun _ h => (nomatch h)) (fun _ _ h => (nomatch h)) (fun h => (nomatch h)) (.inr rfl) v.one v.tim
          (fun h => (nomatch h)) (.inl rfl) rfl (fun h1 h2 h3 => ⟨tr, [], rfl, fun e he => (nomatch he), ?_⟩)
        rintro (h | h) <;> cases h
      | false =>
        exact inv_schedule v (fun _ h => (nomatch h)) (fun h => (nomatch h)) rfl rfl rfl rfl rfl rfl rfl (fun h => (nomatch h)) rfl rfl rfl
          (fun _ => .inr trivial)
    | latency d =>
      exact inv_quiet v (fun _ h => (nomatch h)) (fun _ _ h => (nomatch h)) (fun h => (nomatch h)) (.inl rfl) v.one v.tim
        (fun h => (nomatch h)) (.inl rfl) rfl
        (fun h1 h2 h3 => empty_snoc (s := s) _ _ _ (fun h => (nomatch h)) (fun _ h => (nomatch h)) (v.empty h1 h2 h3)
          (fun _ => .inr trivial))
    | visible b =>
      exact inv_schedule v (fun _ h => (nomatch h)) (fun h => (nomatch h)) rfl rfl rfl rfl rfl rfl rfl id rfl rfl rfl .inl
    | fire h => exact inv_fire v h
    | wait d => exact inv_wait v d

theorem inv_reach {tr : Trace} {s : State} (h : machine.Reach tr s) : Inv tr s :=
  Machine.Reach.induct (M := machine) (P := Inv) inv_init (fun _ _ op _ v => inv_step v op) h

/-! ## Theorems -/

/-- No call panicked. -/
def Sound (tr : Trace) : Prop := ∀ e ∈ tr, e.2 ≠ .panic

theorem sound_dead {tr : Trace} {s : State} (v : Inv tr s) (h : Sound tr) : s.dead = false := by
  cases hd : s.dead with
  | false => rfl
  | true =>
    obtain ⟨e, he, hp⟩ := v.dead.1 hd
    exact absurd hp (h e he)

theorem step_alive {s : State} (hd : s.dead = false) (op : Op) : step s op = match op with
    | .push f => push s f
    | .draw => draw s
    | .canvas c => (.ok, setCanvas s c)
    | .paused b => (.ok, setPaused s b)
    | .latency d => (.ok, setLatency s d)
    | .visible b => (.ok, setVisible s b)
    | .fire h => fire s h
    | .wait d => (.ok, { s with clock := s.clock + d }) := by
  unfold step
  rw [if_neg (by simp [hd])]
  cases op <;> rfl

/-- **Frames are seen in the order in which they were pushed**: a frame may be seen again, and some are never seen, but none is
seen after a later one. -/
theorem c119_order {tr : Trace} {s : State} (h : machine.Reach tr s) :
    ∃ ks : List Nat, ks.Pairwise (· ≤ ·) ∧ (drawn tr).map some = ks.map fun k => (pushed tr)[k]? := by
  obtain ⟨_, ks, _, _, h1, _, h2⟩ := (inv_reach h).order
  exact ⟨ks, h1, h2⟩

/-- Two frames, the first one seen twice. -/
def exOrder : List Op :=
  [.canvas (some (1, 1)), .latency 100, .push ⟨0, 4, 3⟩, .push ⟨40, 4, 3⟩, .draw, .wait 120, .draw, .wait 30, .draw]

example : drawn (machine.run exOrder).1 = [⟨0, 4, 3⟩, ⟨0, 4, 3⟩, ⟨40, 4, 3⟩] := by decide

/-- **The queue holds the frames pushed last**, without gaps. -/
theorem c119_suffix {tr : Trace} {s : State} (h : machine.Reach tr s) : s.queue <:+ pushed tr := by
  obtain ⟨d, _, h1, _⟩ := (inv_reach h).order
  rw [h1]
  exact List.drop_suffix _ _

/-- **Pushing a frame drops what is more than the latency older than it**: exactly the frames up to the last one that has to go, so that
what is left spans at most the latency and ends in the frame pushed. -/
theorem c119_buffer {tr : Trace} {s : State} (h : machine.Reach tr s) (ok : Sound tr) (f : Frame) :
    (step s (.push f)).1 = .ok ∧ ∃ l, s.queue ++ [f] = l ++ (step s (.push f)).2.queue ∧
      (step s (.push f)).2.queue.getLast? = some f ∧
      (∀ g, (step s (.push f)).2.queue.head? = some g → f.ts - g.ts ≤ s.latency) ∧ (∀ x ∈ l, s.latency < f.ts - x.ts) := by
  rw [step_alive (sound_dead (inv_reach h) ok)]
  obtain ⟨l, r, h1, h2, h3, h4, h5⟩ := push_spec s f
  dsimp only
  rw [h5]
  dsimp only
  rw [(schedule_same _).2.2.2.2.2.2.2.2.2.2]
  exact ⟨rfl, l, h1, h2, h3, h4⟩

example : (machine.run [.latency 100, .push ⟨0, 4, 3⟩, .push ⟨40, 4, 3⟩, .push ⟨120, 4, 3⟩]).2.queue =
    [⟨40, 4, 3⟩, ⟨120, 4, 3⟩] := by decide

/-- **Which frame is drawn.**  With a reference, every frame that was passed over for the one drawn had a successor that was due, and
the one after the frame drawn is not due yet; without one, it is the front of the queue, which becomes the reference.  The frame
drawn stays in the queue if what is behind it spans less than the latency. -/
theorem c119_due {tr : Trace} {s : State} (h : machine.Reach tr s) (ok : Sound tr) {g : Frame} {c : Nat × Nat}
    (hg : (step s .draw).1 = .drawn g c) :
    ∃ l r, s.queue = l ++ g :: r ∧
      (∀ w p, s.anchor = some (w, p) → (step s .draw).2.anchor = some (w, p) ∧ (∀ x ∈ (l ++ [g]).tail, x.ts - p < s.clock - w) ∧
        (∀ n, r.head? = some n → s.clock - w ≤ n.ts - p)) ∧
      (s.anchor = none → l = [] ∧ (step s .draw).2.anchor = some (s.clock + s.latency, g.ts)) ∧
      ((step s .draw).2.queue = g :: r ∧ 0 < s.latency ∧
          (∀ a b, r.head? = some a → r.getLast? = some b → b.ts - a.ts < s.latency) ∨
        (step s .draw).2.queue = r ∧
          (r = [] ∧ s.latency = 0 ∨ ∃ a b, r.head? = some a ∧ r.getLast? = some b ∧ s.latency ≤ b.ts - a.ts)) := by
  have v := inv_reach h
  have hd := sound_dead v ok
  rw [step_alive hd] at hg ⊢
  dsimp only at hg ⊢
  rcases draw_spec v.one v.tim with ⟨_, h⟩ | ⟨_, _, h⟩ | ⟨_, _, _, h⟩ | ⟨_, _, l, g', r, h⟩
  · rw [h] at hg
    cases hg
  · rw [h] at hg
    cases hg
  · rw [h] at hg
    cases hg
  · have hgg : g' = g := by
      have := h.out
      rw [hg] at this
      split at this
      · cases this
        rfl
      · cases this
    subst hgg
    refine ⟨l, r, h.split, h.due, h.first, ?_⟩
    rcases h.back with ⟨h1, h2, _⟩ | ⟨h1, h2, _⟩
    · refine .inl ⟨h1, by omega, ?_⟩
      intro a b ha hb
      unfold duration at h2
      rw [ha, hb] at h2
      exact h2
    · refine .inr ⟨h1, ?_⟩
      cases r with
      | nil =>
        left
        unfold duration at h2
        simp at h2
        exact ⟨rfl, h2⟩
      | cons a r =>
        right
        rw [duration_some] at h2
        refine ⟨a, _, rfl, List.getLast?_eq_some_getLast (by simp), ?_⟩
        simpa using h2

/-- The reference is the time of a frame and when the latency after it was over, at the latest the latency from now. -/
theorem c119_anchor {tr : Trace} {s : State} (h : machine.Reach tr s) (w p : Nat) (ha : s.anchor = some (w, p)) :
    s.latency ≤ w ∧ w ≤ s.clock + s.latency ∧ ∃ f ∈ pushed tr, f.ts = p :=
  (inv_reach h).anchor w p ha

example : (machine.run exOrder).2.anchor = some (100, 0) := by decide

/-- **The reference stays** until the player is paused, the latency is set, or a frame is dropped for one that is pushed. -/
theorem c119_kept {tr : Trace} {s : State} (h : machine.Reach tr s) (ok : Sound tr) (op : Op) (a : Nat × Nat)
    (ha : s.anchor = some a) : (step s op).2.anchor = some a ∨ op = .paused true ∨ (∃ d, op = .latency d) ∨
      ∃ f, op = .push f ∧ (step s op).2.queue.length ≤ s.queue.length := by
  have v := inv_reach h
  rw [step_alive (sound_dead v ok)]
  cases op with
  | push f =>
    obtain ⟨l, r, h1, h2, h3, h4, h5⟩ := push_spec s f
    dsimp only
    rw [h5]
    dsimp only
    rw [(schedule_same _).2.2.2.2.2.2.2.2.2.2, (schedule_same _).2.2.2.2.2.2.1]
    dsimp only
    cases l with
    | nil => exact .inl ha
    | cons x l =>
      refine .inr (.inr (.inr ⟨f, rfl, ?_⟩))
      have := congrArg List.length h1
      simp only [List.length_append, List.length_cons, List.length_nil] at this
      omega
  | draw =>
    left
    dsimp only
    rcases draw_spec v.one v.tim with ⟨_, h⟩ | ⟨_, _, h⟩ | ⟨_, _, _, h⟩ | ⟨_, _, l, g', r, h⟩
    · rw [h]
      exact ha
    · rw [h]
      exact ha
    · rw [h]
      exact ha
    · obtain ⟨w, p⟩ := a
      exact (h.due w p ha).1
  | canvas c => exact .inl ha
  | paused b =>
    cases b with
    | true => exact .inr (.inl rfl)
    | false =>
      left
      show (schedule _).anchor = _
      rw [(schedule_same _).2.2.2.2.2.2.1]
      exact ha
  | latency d => exact .inr (.inr (.inl ⟨d, rfl⟩))
  | visible b =>
    left
    show (schedule _).anchor = _
    rw [(schedule_same _).2.2.2.2.2.2.1]
    exact ha
  | fire x =>
    left
    show (fire s x).2.anchor = _
    unfold fire
    split
    · exact ha
    · split
      · exact ha
      · dsimp only
        split <;> exact ha
  | wait d => exact .inl ha

/-- Pausing, setting the latency and dropping a frame reset the reference. -/
theorem c119_reset {tr : Trace} {s : State} (h : machine.Reach tr s) (ok : Sound tr) :
    (step s (.paused true)).2.anchor = none ∧ (∀ d, (step s (.latency d)).2.anchor = none) ∧
      ∀ f, (step s (.push f)).2.queue.length ≤ s.queue.length → (step s (.push f)).2.anchor = none := by
  have hd := sound_dead (inv_reach h) ok
  refine ⟨by rw [step_alive hd]; rfl, fun d => by rw [step_alive hd]; rfl, fun f => ?_⟩
  rw [step_alive hd]
  obtain ⟨l, r, h1, h2, h3, h4, h5⟩ := push_spec s f
  dsimp only
  rw [h5]
  dsimp only
  rw [(schedule_same _).2.2.2.2.2.2.2.2.2.2, (schedule_same _).2.2.2.2.2.2.1]
  dsimp only
  cases l with
  | nil =>
    intro hl
    have := congrArg List.length h1
    simp only [List.length_append, List.length_cons, List.length_nil] at this
    omega
  | cons x l => exact fun _ => rfl

example : (machine.run (exOrder ++ [.push ⟨80, 4, 3⟩])).2.anchor = some (100, 0) ∧
    (machine.run (exOrder ++ [.push ⟨180, 4, 3⟩])).2.anchor = none := by decide

/-! ### The canvas -/

/-- Whether a canvas was set last. -/
def hasCanvas (tr : Trace) : Bool :=
  tr.foldl (fun b e => match e with | (.canvas c, .ok) => c.isSome | _ => b) false

theorem canvas_reach {tr : Trace} {s : State} (h : machine.Reach tr s) : s.canvas.isSome = hasCanvas tr := by
  refine Machine.Reach.induct (M := machine) (P := fun tr s => s.canvas.isSome = hasCanvas tr) rfl ?_ h
  intro tr s op hr ih
  have v := inv_reach hr
  have snoc : ∀ o, hasCanvas (tr ++ [(op, o)]) = match op, o with | .canvas c, .ok => c.isSome | _, _ => hasCanvas tr := by
    intro o
    unfold hasCanvas
    rw [List.foldl_append]
    cases op <;> cases o <;> rfl
  show (step s op).2.canvas.isSome = hasCanvas (tr ++ [(op, (step s op).1)])
  rw [snoc]
  by_cases hd : s.dead = true
  · unfold step
    rw [if_pos hd]
    cases op <;> exact ih
  · rw [step_alive (by simpa using hd)]
    cases op with
    | push f =>
      obtain ⟨l, r, h1, h2, h3, h4, h5⟩ := push_spec s f
      dsimp only
      rw [h5]
      dsimp only
      rw [(schedule_same _).2.2.1]
      exact ih
    | draw =>
      dsimp only
      have hdr := draw_drew s
      generalize draw s = x at hdr ⊢
      cases hdr with
      | invalid h => exact ih
      | off n h _ => exact ih
      | panic n h _ _ => exact ih
      | frame n f q t h _ _ he =>
        have r := resize_same { s with requests := n, scheduled := false, queue := q } f
        rw [← he] at r
        have tt : Tim t := tim_of v.tim r.2.2.2.2.2.2.2.2.2.1 r.2.2.2.2.2.2.2.2.2.2.1 r.2.2.2.2.2.2.2.2.1 r.2.2.2.2.1
        obtain ⟨l, hk, _⟩ := pick_spec t f q tt
        have pb := (putBack_spec (pick t f q).2 (pick t f q).1 hk.tim).1
        dsimp only
        rw [(schedule_same _).2.2.1, pb.2.2.2.1, hk.same.2.2.2.1, r.2.2.2.2.2.2.2.2.2.2.2.2]
        rw [Option.isSome_map]
        exact ih
    | canvas c => rfl
    | paused b =>
      cases b with
      | true => exact ih
      | false =>
        show (schedule _).canvas.isSome = _
        rw [(schedule_same _).2.2.1]
        exact ih
    | latency d => exact ih
    | visible b =>
      show (schedule _).canvas.isSome = _
      rw [(schedule_same _).2.2.1]
      exact ih
    | fire x =>
      dsimp only
      unfold fire
      split
      · exact ih
      · split
        · exact ih
        · dsimp only
          split <;> exact ih
    | wait d => exact ih

/-- **An animation frame that was requested draws exactly if there is a canvas**, while playing and with a frame. -/
theorem c119_seen {tr : Trace} {s : State} (h : machine.Reach tr s) (ok : Sound tr) :
    (∃ g c, (step s .draw).1 = .drawn g c) ↔ hasCanvas tr = true ∧ s.requests = 1 ∧ Playing s ∧ s.queue ≠ [] := by
  have v := inv_reach h
  rw [step_alive (sound_dead v ok), ← canvas_reach h]
  dsimp only
  rcases draw_spec v.one v.tim with ⟨h1, h⟩ | ⟨_, h1, h⟩ | ⟨_, _, h1, h⟩ | ⟨h1, h2, l, g', r, h⟩
  · rw [h, v.one, h1]
    simp
  · rw [h]
    constructor
    · rintro ⟨g, c, h⟩
      cases h
    · exact fun h => absurd h.2.2.1 h1
  · rw [h]
    constructor
    · rintro ⟨g, c, h⟩
      cases h
    · exact fun h => absurd h1 h.2.2.2
  · rw [h.out, v.one, h1, h.split]
    cases s.canvas with
    | none => simp
    | some z =>
      cases l <;> simp [h2]

example : hasCanvas (machine.run exOrder).1 = true ∧ hasCanvas (machine.run (exOrder ++ [.canvas none])).1 = false := by decide

/-! ### Pausing -/

theorem status_off {s : State} (hd : s.status = .paused ∨ s.status = .idle) (op : Op) (ho : ¬ Resumes op) :
    ((step s op).2.status = .paused ∨ (step s op).2.status = .idle) ∧ ∀ f c, (step s op).1 ≠ .drawn f c := by
  unfold step
  split
  · cases op <;> exact ⟨hd, fun _ _ h => (nomatch h)⟩
  · cases op with
    | push f =>
      obtain ⟨l, r, _, _, _, _, h5⟩ := push_spec s f
      dsimp only
      rw [h5]
      dsimp only
      rw [(schedule_same _).2.2.2.2.2.1]
      exact ⟨hd, fun _ _ h => (nomatch h)⟩
    | draw =>
      dsimp only
      unfold draw
      cases hr : s.requests with
      | zero => exact ⟨hd, fun _ _ h => (nomatch h)⟩
      | succ n =>
        dsimp only
        rw [if_pos hd]
        exact ⟨hd, fun _ _ h => (nomatch h)⟩
    | canvas c => exact ⟨hd, fun _ _ h => (nomatch h)⟩
    | paused b =>
      cases b with
      | true => exact ⟨.inl rfl, fun _ _ h => (nomatch h)⟩
      | false => exact absurd trivial ho
    | latency d => exact absurd trivial ho
    | visible b =>
      show ((schedule _).status = _ ∨ (schedule _).status = _) ∧ _
      rw [(schedule_same _).2.2.2.2.2.1]
      exact ⟨hd, fun _ _ h => (nomatch h)⟩
    | fire x =>
      dsimp only
      unfold fire
      split
      · exact ⟨hd, fun _ _ h => (nomatch h)⟩
      · split
        · exact ⟨hd, fun _ _ h => (nomatch h)⟩
        · dsimp only
          split
          · rename_i h
            rcases hd with hd | hd <;> rw [hd] at h <;> cases h
          · exact ⟨hd, fun _ _ h => (nomatch h)⟩
    | wait d => exact ⟨hd, fun _ _ h => (nomatch h)⟩

theorem drawn_cons (op : Op) (o : Out) (tr : Trace) :
    drawn ((op, o) :: tr) = (match o with | .drawn f _ => [f] | _ => []) ++ drawn tr := by
  unfold drawn
  rw [List.filterMap_cons]
  cases o <;> rfl

theorem off_run (ops : List Op) : ∀ (s : State), (s.status = .paused ∨ s.status = .idle) → (∀ op ∈ ops, ¬ Resumes op) →
    drawn (machine.runFrom s ops).1 = [] := by
  induction ops with
  | nil => intros; rfl
  | cons op ops ih =>
    intro s hs ho
    obtain ⟨h1, h2⟩ := status_off hs op (ho op List.mem_cons_self)
    show drawn ((op, (step s op).1) :: (machine.runFrom (step s op).2 ops).1) = []
    rw [drawn_cons, ih _ h1 fun op h => ho op (List.mem_cons_of_mem _ h), List.append_nil]
    cases ho : (step s op).1 with
    | drawn f c => exact absurd ho (h2 f c)
    | _ => rfl

/-- **While paused nothing is drawn**, until resumed or until the latency is set. -/
theorem c119_paused {tr : Trace} {s : State} (_h : machine.Reach tr s) (ok : Sound tr) (ops : List Op) (ho : ∀ op ∈ ops, ¬ Resumes op) :
    drawn (machine.runFrom (step s (.paused true)).2 ops).1 = [] := by
  rw [step_alive (sound_dead (inv_reach _h) ok)]
  exact off_run ops _ (.inl rfl) ho

example : drawn (machine.runFrom (machine.run (exOrder ++ [.paused true])).2 [.push ⟨80, 4, 3⟩, .draw, .wait 9, .draw]).1 = [] := by
  decide

/-- A new renderer draws nothing before it is resumed or the latency is set. -/
theorem c119_idle (ops : List Op) (ho : ∀ op ∈ ops, ¬ Resumes op) : drawn (machine.run ops).1 = [] :=
  off_run ops _ (.inr rfl) ho

/-- So, with the settings that are documented as the default, rs/hang-wasm/src/watch/message.rs:23-33, nothing is ever seen: neither `Paused(false)` nor
`Latency(0)` is sent unless they are set. -/
theorem c119_default : drawn (machine.run [.canvas (some (1, 1)), .visible true, .push ⟨0, 4, 3⟩, .draw]).1 = [] ∧
    drawn (machine.run [.canvas (some (1, 1)), .paused false, .visible true, .push ⟨0, 4, 3⟩, .draw]).1 = [⟨0, 4, 3⟩] := by
  decide

/-- Setting the latency while paused resumes. -/
theorem c119_unpaused : ∃ ops, (∀ op ∈ ops, op ≠ .paused false) ∧
    drawn (machine.runFrom (step init (.paused true)).2 ops).1 = [⟨0, 4, 3⟩] :=
  ⟨[.canvas (some (1, 1)), .latency 0, .push ⟨0, 4, 3⟩, .draw], by decide, by decide⟩

/-! ### Hiding -/

theorem hidden_step {s : State} (hv : s.visible = false) (op : Op) (ho : op ≠ .visible true) :
    (step s op).2.visible = false ∧ (match (step s op).1 with | .drawn _ _ => 1 | _ => 0) + (step s op).2.requests ≤ s.requests := by
  unfold step
  split
  · cases op <;> exact ⟨hv, by simp⟩
  · cases op with
    | push f =>
      obtain ⟨l, r, _, _, _, _, h5⟩ := push_spec s f
      dsimp only
      rw [h5]
      dsimp only
      rw [schedule_hidden]
      · exact ⟨hv, by simp⟩
      · exact hv
    | draw =>
      dsimp only
      have hd := draw_drew s
      generalize draw s = x at hd ⊢
      cases hd with
      | invalid h => exact ⟨hv, by simp⟩
      | off n h _ => exact ⟨hv, by simp only; omega⟩
      | panic n h _ _ => exact ⟨hv, by simp only; omega⟩
      | frame n f q t h _ _ he =>
        have ha : ∀ (q : List Frame) (e p : Nat) (s : State) (f : Frame), Same s (advance e p s f q).2 := by
          intro q
          induction q with
          | nil => intro e p s f; exact Same.rfl' s
          | cons n q ih =>
            intro e p s f
            unfold advance
            split
            · exact Same.rfl' s
            · exact (setLive_same s).trans (ih _ _ _ _)
        have hp : Same t (pick t f q).2 := by
          unfold pick
          split
          · exact ha _ _ _ _ _
          · exact ⟨rfl, rfl, rfl, rfl, rfl, rfl, rfl⟩
        have hb : Same (pick t f q).2 (putBack (pick t f q).2 (pick t f q).1) := by
          unfold putBack
          split
          · exact ⟨rfl, rfl, rfl, rfl, rfl, rfl, rfl⟩
          · exact setLive_same _
        have r := resize_same { s with requests := n, scheduled := false, queue := q } f
        rw [← he] at r
        have hvis : (putBack (pick t f q).2 (pick t f q).1).visible = false := by
          rw [hb.2.2.1, hp.2.2.1, r.2.2.1]
          exact hv
        have hreq : (putBack (pick t f q).2 (pick t f q).1).requests = n := by
          rw [hb.2.2.2.2.1, hp.2.2.2.2.1, r.2.2.2.1]
        dsimp only
        rw [schedule_hidden _ hvis, hreq]
        refine ⟨hvis, ?_⟩
        split <;> omega
    | canvas c => exact ⟨hv, by simp [setCanvas]⟩
    | paused b =>
      cases b with
      | true => exact ⟨hv, by simp [setPaused]⟩
      | false =>
        show (schedule _).visible = false ∧ _ + (schedule _).requests ≤ _
        rw [schedule_hidden]
        · exact ⟨hv, by simp⟩
        · exact hv
    | latency d => exact ⟨hv, by simp [setLatency]⟩
    | visible b =>
      cases b with
      | true => exact absurd rfl ho
      | false =>
        show (schedule _).visible = false ∧ _ + (schedule _).requests ≤ _
        rw [schedule_hidden _ rfl]
        exact ⟨rfl, by simp⟩
    | fire x =>
      dsimp only
      unfold fire
      split
      · exact ⟨hv, by simp⟩
      · split
        · exact ⟨hv, by simp⟩
        · dsimp only
          split <;> exact ⟨hv, by simp⟩
    | wait d => exact ⟨hv, by simp⟩

theorem hidden_run (ops : List Op) : ∀ (s : State), s.visible = false → (∀ op ∈ ops, op ≠ .visible true) →
    (drawn (machine.runFrom s ops).1).length ≤ s.requests := by
  induction ops with
  | nil => intros; exact Nat.zero_le _
  | cons op ops ih =>
    intro s hs ho
    obtain ⟨h1, h2⟩ := hidden_step hs op (ho op List.mem_cons_self)
    have h3 := ih _ h1 fun op h => ho op (List.mem_cons_of_mem _ h)
    show (drawn ((op, (step s op).1) :: (machine.runFrom (step s op).2 ops).1)).length ≤ _
    rw [drawn_cons, List.length_append]
    cases hx : (step s op).1 <;> rw [hx] at h2 <;> simp only [List.length_cons, List.length_nil] at * <;> omega

/-- **While hidden at most one frame is drawn**, the one that had been requested. -/
theorem c119_hidden {tr : Trace} {s : State} (h : machine.Reach tr s) (ok : Sound tr) (ops : List Op)
    (ho : ∀ op ∈ ops, op ≠ .visible true) : (drawn (machine.runFrom (step s (.visible false)).2 ops).1).length ≤ 1 := by
  have v := inv_reach h
  rw [step_alive (sound_dead v ok)]
  show (drawn (machine.runFrom (schedule { s with visible := false }) ops).1).length ≤ 1
  rw [schedule_hidden _ rfl]
  refine Nat.le_trans (hidden_run ops _ rfl ho) ?_
  show s.requests ≤ 1
  rw [v.one]
  split <;> omega

example : drawn (machine.runFrom (machine.run (exOrder ++ [.visible false])).2 [.draw, .push ⟨80, 4, 3⟩, .draw, .draw]).1 =
    [⟨40, 4, 3⟩] := by decide

/-! ### Requests of animation frames -/

/-- At most one animation frame is requested at a time. -/
theorem c119_once {tr : Trace} {s : State} (h : machine.Reach tr s) : s.requests ≤ 1 := by
  rw [(inv_reach h).one]
  split <;> omega

def Asked (s : State) : Prop := Playing s → s.visible = true → s.queue ≠ [] → s.requests = 1

theorem asked_schedule {s : State} (h : s.requests = if s.scheduled then 1 else 0) : Asked (schedule s) := by
  intro hp hv hq
  have ss := schedule_same s
  unfold Playing at hp
  rw [ss.2.2.2.2.2.1] at hp
  rw [ss.2.1] at hv
  rw [ss.2.2.2.2.2.2.2.2.2.2] at hq
  rw [schedule_one h, schedule_sched s hp hv hq]
  rfl

theorem asked_step {tr : Trace} {s : State} (v : Inv tr s) (hd : s.dead = false) (op : Op) (hl : ∀ d, op ≠ .latency d)
    (ha : Asked s ∨ ∃ f, op = .push f) : Asked (step s op).2 := by
  rw [step_alive hd]
  have v1 : s.requests = if s.scheduled then 1 else 0 := v.one
  cases op with
  | push f =>
    obtain ⟨l, r, _, _, _, _, h5⟩ := push_spec s f
    dsimp only
    rw [h5]
    exact asked_schedule v1
  | draw =>
    have ha : Asked s := by
      rcases ha with h | ⟨f, h⟩
      · exact h
      · cases h
    rcases draw_spec v.one v.tim with ⟨h1, h⟩ | ⟨_, h2, h⟩ | ⟨_, _, h2, h⟩ | ⟨_, hp, l, g', r, h⟩
    · dsimp only
      rw [h]
      exact ha
    · dsimp only
      rw [h]
      exact fun hp => absurd hp h2
    · dsimp only
      rw [h]
      exact fun _ _ h => absurd rfl h
    · intro _ hv hq
      dsimp only at hv hq ⊢
      rw [h.visible] at hv
      rw [h.one, h.sched.2 ⟨hv, hq⟩]
      rfl
  | latency d => exact absurd rfl (hl d)
  | canvas c =>
    rcases ha with h | ⟨f, h⟩
    · exact h
    · cases h
  | paused b =>
    cases b with
    | true => rintro (h | h) <;> cases h
    | false => exact asked_schedule v1
  | visible b => exact asked_schedule v1
  | fire x =>
    have ha : Asked s := by
      rcases ha with h | ⟨f, h⟩
      · exact h
      · cases h
    dsimp only
    unfold fire
    split
    · exact ha
    · split
      · exact ha
      · dsimp only
        split
        · exact fun _ => ha (.inl (by assumption))
        · exact ha
  | wait d =>
    rcases ha with h | ⟨f, h⟩
    · exact h
    · cases h

theorem sound_snoc {tr : Trace} {op : Op} {o : Out} (h : Sound (tr ++ [(op, o)])) : Sound tr :=
  fun e he => h e (List.mem_append_left _ he)

/-- **While playing and visible, with frames to draw, an animation frame is requested**, provided that a frame was pushed since the
latency was last set.  Full claim: without the proviso; `c119_stuck` shows that it is needed. -/
theorem c119_asked_partial {tr : Trace} {s : State} (h : machine.Reach tr s) (ok : Sound tr)
    (hl : ∀ a b d o, tr = a ++ (.latency d, o) :: b → ∃ e ∈ b, ∃ f, e.1 = .push f) (hp : Playing s) (hv : s.visible = true)
    (hq : s.queue ≠ []) : s.requests = 1 := by
  revert ok hl hp hv hq
  have key : Sound tr → (∀ a b d o, tr = a ++ (.latency d, o) :: b → ∃ e ∈ b, ∃ f, e.1 = .push f) → Asked s := by
    refine Machine.Reach.induct (M := machine) (P := fun tr s => Sound tr →
      (∀ a b d o, tr = a ++ (.latency d, o) :: b → ∃ e ∈ b, ∃ f, e.1 = .push f) → Asked s) ?_ ?_ h
    · intro _ _ hp
      rcases hp with h | h <;> cases h
    · intro tr s op hr ih ok hl
      have v := inv_reach hr
      have hd := sound_dead v (sound_snoc ok)
      refine asked_step v hd op ?_ ?_
      · rintro d rfl
        obtain ⟨e, he, _⟩ := hl tr [] d _ rfl
        cases he
      · by_cases hpu : ∃ f, op = .push f
        · exact .inr hpu
        · refine .inl (ih (sound_snoc ok) ?_)
          intro a b d o hab
          obtain ⟨e, he, f, hf⟩ := hl a (b ++ [(op, (step s op).1)]) d o (by rw [hab]; simp)
          rcases List.mem_append.1 he with he | he
          · exact ⟨e, he, f, hf⟩
          · rw [List.mem_singleton.1 he] at hf
            exact absurd ⟨f, hf⟩ hpu
  exact fun ok hl hp hv hq => key ok hl hp hv hq

example : (machine.run exOrder).2.requests = 1 ∧ (machine.run exOrder).2.queue ≠ [] := by decide

/-- Setting the latency of a renderer that has frames starts it, but the frames are not drawn before the next one is pushed. -/
theorem c119_stuck : Playing (machine.run [.push ⟨0, 4, 3⟩, .latency 100]).2 ∧
    (machine.run [.push ⟨0, 4, 3⟩, .latency 100]).2.visible = true ∧
    (machine.run [.push ⟨0, 4, 3⟩, .latency 100]).2.queue ≠ [] ∧
    (machine.run [.push ⟨0, 4, 3⟩, .latency 100]).2.requests = 0 := by
  unfold Playing
  decide

/-! ### Panics -/

/-- **The first panic** is in an animation frame, after pausing with a request outstanding and resuming before it came, without a frame
pushed in between. -/
theorem c119_panic {tr : Trace} {s : State} (h : machine.Reach tr s) (ok : Sound tr) (op : Op) (hp : (step s op).1 = .panic) :
    op = .draw ∧ ∃ a b, tr = a ++ (.paused true, .ok) :: b ∧ (∀ e ∈ b, e.1 ≠ .draw ∧ ∀ f, e.1 ≠ .push f) ∧
      ∃ e ∈ b, Resumes e.1 := by
  have v := inv_reach h
  have hd := sound_dead v ok
  rw [step_alive hd] at hp
  cases op with
  | push f =>
    obtain ⟨l, r, _, _, _, _, h5⟩ := push_spec s f
    dsimp only at hp
    rw [h5] at hp
    cases hp
  | draw =>
    dsimp only at hp
    rcases draw_spec v.one v.tim with ⟨h1, h⟩ | ⟨_, h2, h⟩ | ⟨h1, h2, h3, h⟩ | ⟨_, _, l, g', r, h⟩
    · rw [h] at hp
      cases hp
    · rw [h] at hp
      cases hp
    · obtain ⟨a, b, h4, h5, h6⟩ := v.empty hd h1 h3
      exact ⟨rfl, a, b, h4, h5, h6 h2⟩
    · rw [h.out] at hp
      split at hp <;> cases hp
  | fire x =>
    dsimp only at hp
    unfold fire at hp
    split at hp
    · cases hp
    · split at hp <;> cases hp
  | _ => cases hp

/-- Without pausing there is no panic. -/
theorem c119_sound_partial {tr : Trace} {s : State} (h : machine.Reach tr s) (hn : ∀ e ∈ tr, e.1 ≠ .paused true) : Sound tr := by
  revert hn
  refine Machine.Reach.induct (M := machine) (P := fun tr _ => (∀ e ∈ tr, e.1 ≠ .paused true) → Sound tr) ?_ ?_ h
  · intro _ e he
    cases he
  · intro tr s op hr ih hn e he
    have ok := ih fun e he => hn e (List.mem_append_left _ he)
    rcases List.mem_append.1 he with he | he
    · exact ok e he
    · rw [List.mem_singleton.1 he]
      intro hp
      obtain ⟨_, a, b, h1, _⟩ := c119_panic hr ok op hp
      refine hn (.paused true, .ok) (List.mem_append_left _ ?_) rfl
      rw [h1]
      exact List.mem_append_right _ List.mem_cons_self

/-- **Pausing and resuming between two animation frames panics**, whenever one is requested. -/
theorem c119_toggle {tr : Trace} {s : State} (h : machine.Reach tr s) (ok : Sound tr) (hr : s.requests = 1) :
    ((machine.runFrom s [.paused true, .paused false, .draw]).1.map (·.2)) = [.ok, .ok, .panic] := by
  have v := inv_reach h
  have hd := sound_dead v ok
  have hs : s.scheduled = true := by
    have := v.one
    rw [hr] at this
    cases hx : s.scheduled
    · rw [hx] at this
      cases this
    · rfl
  have h1 : step s (.paused true) = (.ok, { s with queue := [], anchor := none, status := .paused }) := step_alive hd _
  have h2 : step { s with queue := [], anchor := none, status := .paused } (.paused false) =
      (.ok, { s with queue := [], anchor := none, status := .buffering }) := by
    refine (step_alive (s := { s with queue := [], anchor := none, status := .paused }) hd _).trans ?_
    show (Out.ok, schedule _) = _
    unfold schedule
    rw [if_pos hs]
  have h3 : (step { s with queue := [], anchor := none, status := .buffering } .draw).1 = .panic := by
    refine (congrArg Prod.fst (step_alive (s := { s with queue := [], anchor := none, status := .buffering }) hd _)).trans ?_
    show (draw _).1 = _
    unfold draw
    dsimp only
    rw [hr]
    rfl
  simp only [Machine.runFrom]
  show List.map _ [_, _, _] = _
  simp only [List.map_cons, List.map_nil]
  rw [h1]
  dsimp only
  rw [h2]
  dsimp only
  rw [h3]

example : (machine.run [.paused false, .push ⟨0, 4, 3⟩]).2.requests = 1 := by decide

/-- After a panic every call panics. -/
theorem c119_dead {tr : Trace} {s : State} (h : machine.Reach tr s) (hp : ¬ Sound tr) (op : Op) (ho : ∀ d, op ≠ .wait d) :
    (step s op).1 = .panic := by
  have hd : s.dead = true := by
    cases hd : s.dead with
    | true => rfl
    | false =>
      exfalso
      apply hp
      intro e he hx
      have := (inv_reach h).dead.2 ⟨e, he, hx⟩
      rw [hd] at this
      cases this
  unfold step
  rw [if_pos hd]
  cases op <;> first | rfl | exact absurd rfl (ho _)

/-! ### Buffering and live -/

/-- There is at most one timeout, and one while live, within a second. -/
theorem c119_live {tr : Trace} {s : State} (h : machine.Reach tr s) : s.timers.length ≤ 1 ∧
    (s.status = .live → ∃ h d, s.timers = [(h, d)] ∧ d ≤ s.clock + 1000000) := by
  have v := inv_reach h
  rcases v.tim.2 with h1 | ⟨x, d, _, h1, h2⟩
  · rw [h1]
    exact ⟨Nat.zero_le _, fun hl => absurd h1 (v.live hl)⟩
  · rw [h1]
    exact ⟨Nat.le_refl _, fun _ => ⟨x, d, rfl, h2⟩⟩

/-- The timeout ends being live, and only that. -/
theorem c119_timeout {tr : Trace} {s : State} (h : machine.Reach tr s) (ok : Sound tr) (x d : Nat) (hm : (x, d) ∈ s.timers)
    (hd : d ≤ s.clock) : (step s (.fire x)).1 = .ok ∧ (step s (.fire x)).2.timers = [] ∧
      (step s (.fire x)).2.status = (if s.status = .live then .buffering else s.status) := by
  have v := inv_reach h
  rw [step_alive (sound_dead v ok)]
  rcases v.tim.2 with h1 | ⟨y, e, _, h1, h2⟩
  · rw [h1] at hm
    cases hm
  · rw [h1] at hm
    cases List.mem_singleton.1 hm
    dsimp only
    unfold fire
    rw [h1]
    simp only [List.find?_cons, decide_true, ne_eq]
    rw [if_neg (by omega)]
    split <;> simp_all

/-- **A frame drawn makes it live exactly if the queue gets shorter**, with a timeout in a second; otherwise the status stays. -/
theorem c119_alive {tr : Trace} {s : State} (h : machine.Reach tr s) (ok : Sound tr) {g : Frame} {c : Nat × Nat}
    (hg : (step s .draw).1 = .drawn g c) :
    ((step s .draw).2.queue.length < s.queue.length ∧ (step s .draw).2.status = .live ∧
      ∃ h, (step s .draw).2.timers = [(h, s.clock + 1000000)]) ∨
    ((step s .draw).2.queue = s.queue ∧ (step s .draw).2.status = s.status ∧ (step s .draw).2.timers = s.timers) := by
  have v := inv_reach h
  rw [step_alive (sound_dead v ok)] at hg ⊢
  dsimp only at hg ⊢
  rcases draw_spec v.one v.tim with ⟨_, h⟩ | ⟨_, _, h⟩ | ⟨_, _, _, h⟩ | ⟨_, _, l, g', r, h⟩
  · rw [h] at hg
    cases hg
  · rw [h] at hg
    cases hg
  · rw [h] at hg
    cases hg
  · rw [h.split]
    rcases h.back with ⟨h1, _, h2, h3⟩ | ⟨h1, _, h2, h3⟩
    · by_cases hl : l = []
      · obtain ⟨a, b⟩ := h2 hl
        rw [hl]
        exact .inr ⟨h1, a, b⟩
      · obtain ⟨a, b⟩ := h3 hl
        refine .inl ⟨?_, a, b⟩
        rw [h1, List.length_append]
        have := List.length_pos_iff.2 hl
        omega
    · refine .inl ⟨?_, h2, h3⟩
      rw [h1, List.length_append, List.length_cons]
      omega

example : (machine.run exOrder).2.status = .live ∧ (machine.run exOrder).2.timers = [(0, 1000150)] := by decide

/-! ### The size of the canvas -/

/-- The canvas has the size of the frame that is drawn, if all frames pushed have the same size.  Full claim: without the proviso;
`c119_size` shows that it is needed. -/
theorem c119_size_partial {tr : Trace} {s : State} (h : machine.Reach tr s) (ok : Sound tr) (w k : Nat)
    (hs : ∀ f ∈ pushed tr, f.width = w ∧ f.height = k) {g : Frame} {c : Nat × Nat} (hg : (step s .draw).1 = .drawn g c) :
    c = (g.width, g.height) := by
  have v := inv_reach h
  have hq : ∀ f ∈ s.queue, f.width = w ∧ f.height = k := by
    intro f hf
    obtain ⟨d, _, a, _⟩ := v.order
    rw [a] at hf
    exact hs f (List.mem_of_mem_drop hf)
  rw [step_alive (sound_dead v ok)] at hg
  dsimp only at hg
  rcases draw_spec v.one v.tim with ⟨_, h⟩ | ⟨_, _, h⟩ | ⟨_, _, _, h⟩ | ⟨_, _, l, g', r, h⟩
  · rw [h] at hg
    cases hg
  · rw [h] at hg
    cases hg
  · rw [h] at hg
    cases hg
  · have ho := h.out
    have hm : g' ∈ s.queue := by
      rw [h.split]
      exact List.mem_append_right _ List.mem_cons_self
    rw [hg] at ho
    split at ho
    · rename_i f _ _ heq
      cases ho
      have h1 := hq g hm
      have h2 := hq f (by rw [heq]; exact List.mem_cons_self)
      rw [h1.1, h1.2, h2.1, h2.2]
    · cases ho

example : ∀ f ∈ pushed (machine.run exOrder).1, f.width = 4 ∧ f.height = 3 := by decide

/-- If a frame is passed over, the canvas has its size, not that of the frame drawn. -/
theorem c119_size : (step (machine.run [.canvas (some (1, 1)), .latency 100, .push ⟨0, 4, 3⟩, .push ⟨40, 16, 9⟩, .draw, .wait 150]).2
    .draw).1 = .drawn ⟨40, 16, 9⟩ (4, 3) := by
  decide

end Verif.Props.WasmRender
