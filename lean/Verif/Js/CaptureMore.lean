import Verif.Js.CaptureView

/-!
# Publishing video from the browser: pictures, key frames and `#active`
-/

set_option autoImplicit false

namespace Verif.Js.Capture

open Verif

open Verif.Js.Frames (Input)

/-! ## Runs -/

/-- What becomes of a run when others do something, or when it ends. -/
def Dies (run run' : Run) : Prop :=
  (run'.phase = run.phase ∧ run'.encoder = run.encoder) ∨ (run'.phase = .over ∧ run'.encoder = .closed)

theorem Dies.refl (run : Run) : Dies run run := .inl ⟨rfl, rfl⟩

/-- Nothing changes but that runs end. -/
structure Less (v v' : View) : Prop where
  latest : v'.latest = v.latest
  captured : v'.captured = v.captured
  shut : v'.shut = v.shut
  timestamp : v'.timestamp = v.timestamp
  closed : v'.closed = v.closed
  len : v'.runs.length = v.runs.length
  runs : ∀ (k : Nat) run', v'.runs[k]? = some run' → ∃ run, v.runs[k]? = some run ∧ Dies run run'
  active : v'.active = v.active ∨ v'.active = false

theorem Less.refl (v : View) : Less v v :=
  ⟨rfl, rfl, rfl, rfl, rfl, rfl, fun _ run h => ⟨run, h, .refl run⟩, .inl rfl⟩

theorem put_get {v : View} {r : Nat} {run run' : Run} (hr : v.runs[r]? = some run) (k : Nat) (x : Run)
    (h : (v.put r run').runs[k]? = some x) : (k = r ∧ x = run') ∨ (k ≠ r ∧ v.runs[k]? = some x) := by
  have hlt := (List.getElem?_eq_some_iff.1 hr).1
  unfold View.put at h
  dsimp only at h
  by_cases hk : k = r
  · subst hk
    rw [List.getElem?_set_self hlt] at h
    cases h
    exact .inl ⟨rfl, rfl⟩
  · rw [List.getElem?_set_ne (Ne.symm hk)] at h
    exact .inr ⟨hk, h⟩

theorem put_self {v : View} {r : Nat} {run run' : Run} (hr : v.runs[r]? = some run) :
    (v.put r run').runs[r]? = some run' := List.getElem?_set_self (List.getElem?_eq_some_iff.1 hr).1

theorem finish_less {v : View} {r : Nat} {run : Run} (run' : Run) (hr : v.runs[r]? = some run) :
    Less v (v.finish r run') := by
  refine ⟨rfl, rfl, rfl, rfl, rfl, by simp [View.finish, View.put], ?_, ?_⟩
  · intro k x h
    rcases put_get hr k x h with ⟨rfl, rfl⟩ | ⟨-, h⟩
    · exact ⟨run, hr, .inr ⟨rfl, rfl⟩⟩
    · exact ⟨x, h, .refl x⟩
  · unfold View.finish
    dsimp only
    split
    · exact .inl rfl
    · exact .inr rfl

theorem exhaust_less {v : View} {r : Nat} {run : Run} (hr : v.runs[r]? = some run) :
    Less v (v.exhaust r run) := by
  have hput : Less v (v.put r { run with done := true }) := by
    refine ⟨rfl, rfl, rfl, rfl, rfl, by simp [View.put], ?_, .inl rfl⟩
    intro k x h
    rcases put_get hr k x h with ⟨rfl, rfl⟩ | ⟨-, h⟩
    · exact ⟨run, hr, .inl ⟨rfl, rfl⟩⟩
    · exact ⟨x, h, .refl x⟩
  unfold View.exhaust
  split
  · exact finish_less _ hr
  · exact finish_less _ hr
  · exact hput

theorem cleanup_less (v : View) : Less v v.cleanup := by
  unfold View.cleanup
  split
  · split
    · next run hr =>
      have h := exhaust_less hr
      exact ⟨h.1, h.2, h.3, h.4, h.5, h.6, h.7, h.8⟩
    · exact .refl v
  · exact .refl v

/-! ## Pictures -/

/-- A run waits for its configuration with this picture. -/
def Waits (runs : List Run) (p : Nat) : Prop :=
  ∃ (r : Nat) (run : Run) (ts : Int), runs[r]? = some run ∧ run.phase = .config p ts

/-- The configuration for which this picture waited could not be found. -/
def Failed (tr : Trace) (p : Nat) : Prop := ∃ r, (.config r false, .failed p) ∈ tr

structure PInv (tr : Trace) (v : View) : Prop where
  waits : ∀ p, Waits v.runs p → p < v.captured ∧ p ∉ v.shut ∧ v.latest ≠ some p
  uniq : ∀ (r r' : Nat) (run run' : Run) p ts ts', v.runs[r]? = some run → v.runs[r']? = some run' →
    run.phase = .config p ts → run'.phase = .config p ts' → r = r'
  latest : ∀ p, v.latest = some p → p < v.captured ∧ (v.closed = false → p ∉ v.shut)
  shut : ∀ p ∈ v.shut, p < v.captured
  once : v.closed = false → v.shut.Nodup
  all : ∀ p, p < v.captured → p ∈ v.shut ∨ v.latest = some p ∨ Waits v.runs p ∨ Failed tr p

theorem failed_mono {tr : Trace} {p : Nat} (e : Op × Out) (h : Failed tr p) : Failed (tr ++ [e]) p := by
  obtain ⟨r, h⟩ := h
  exact ⟨r, List.mem_append_left _ h⟩

/-- Runs change, but no picture ceases to wait. -/
theorem PInv.runs {tr tr' : Trace} {v v' : View} (i : PInv tr v) (htr : ∀ p, Failed tr p → Failed tr' p)
    (h1 : v'.latest = v.latest) (h2 : v'.captured = v.captured) (h3 : v'.shut = v.shut)
    (h4 : v'.closed = v.closed)
    (hr : ∀ (k : Nat) (x' : Run) p ts, v'.runs[k]? = some x' → x'.phase = .config p ts →
      ∃ x, v.runs[k]? = some x ∧ x.phase = .config p ts)
    (hw : ∀ p, Waits v.runs p → Waits v'.runs p ∨ Failed tr' p) : PInv tr' v' := by
  have hw' : ∀ p, Waits v'.runs p → Waits v.runs p := by
    rintro p ⟨r, run, ts, a, b⟩
    obtain ⟨x, c, d⟩ := hr r run p ts a b
    exact ⟨r, x, ts, c, d⟩
  refine ⟨fun p h => ?_, ?_, ?_, ?_, ?_, ?_⟩
  · rw [h1, h2, h3]
    exact i.waits p (hw' p h)
  · intro r r' run run' p ts ts' a b c d
    obtain ⟨x, a', c'⟩ := hr r run p ts a c
    obtain ⟨x', b', d'⟩ := hr r' run' p ts' b d
    exact i.uniq r r' x x' p ts ts' a' b' c' d'
  · rw [h1, h2, h3, h4]
    exact i.latest
  · rw [h2, h3]
    exact i.shut
  · rw [h3, h4]
    exact i.once
  · rw [h1, h2, h3]
    intro p hp
    rcases i.all p hp with h | h | h | h
    · exact .inl h
    · exact .inr (.inl h)
    · rcases hw p h with h | h
      · exact .inr (.inr (.inl h))
      · exact .inr (.inr (.inr h))
    · exact .inr (.inr (.inr (htr p h)))

theorem less_config {v v' : View} (h : Less v v') (k : Nat) (x' : Run) (p : Nat) (ts : Int)
    (hk : v'.runs[k]? = some x') (hp : x'.phase = .config p ts) :
    ∃ x, v.runs[k]? = some x ∧ x.phase = .config p ts := by
  obtain ⟨x, h1, h2⟩ := h.runs k x' hk
  rcases h2 with ⟨a, -⟩ | ⟨a, -⟩
  · exact ⟨x, h1, by rw [← a]; exact hp⟩
  · rw [a] at hp
    cases hp

/-- Runs that wait go on waiting when others end, and when they are exhausted. -/
theorem finish_waits {v : View} {r : Nat} {run : Run} (run' : Run) (hr : v.runs[r]? = some run) (p : Nat)
    (hp : ∀ ts, run.phase ≠ .config p ts) (h : Waits v.runs p) : Waits (v.finish r run').runs p := by
  obtain ⟨k, x, ts, h1, h2⟩ := h
  have hk : k ≠ r := by
    intro he
    subst he
    rw [hr] at h1
    cases h1
    exact hp ts h2
  refine ⟨k, x, ts, ?_, h2⟩
  unfold View.finish View.put
  dsimp only
  rw [List.getElem?_set_ne (Ne.symm hk)]
  exact h1

theorem exhaust_waits {v : View} {r : Nat} {run : Run} (hr : v.runs[r]? = some run) (p : Nat)
    (h : Waits v.runs p) : Waits (v.exhaust r run).runs p := by
  have hput : Waits (v.put r { run with done := true }).runs p := by
    obtain ⟨k, x, ts, h1, h2⟩ := h
    by_cases hk : k = r
    · subst hk
      rw [hr] at h1
      cases h1
      exact ⟨k, _, ts, put_self hr, h2⟩
    · refine ⟨k, x, ts, ?_, h2⟩
      unfold View.put
      dsimp only
      rw [List.getElem?_set_ne (Ne.symm hk)]
      exact h1
  unfold View.exhaust
  split
  · next hph => exact finish_waits _ hr p (by simp [hph]) h
  · next hph => exact finish_waits _ hr p (by simp [hph]) h
  · exact hput

theorem cleanup_waits {v : View} (p : Nat) (h : Waits v.runs p) : Waits v.cleanup.runs p := by
  unfold View.cleanup
  split
  · split
    · next run hr => exact exhaust_waits hr p h
    · exact h
  · exact h

theorem Waits.append {runs : List Run} {p : Nat} (l : List Run) (h : Waits runs p) : Waits (runs ++ l) p := by
  obtain ⟨k, x, ts, h1, h2⟩ := h
  exact ⟨k, x, ts, by rw [List.getElem?_append_left (List.getElem?_eq_some_iff.1 h1).1]; exact h1, h2⟩

/-- A picture becomes `#latest`; `v'` may have other runs. -/
theorem PInv.given {tr tr' : Trace} {v v' : View} (i : PInv tr v) {pic : Nat}
    (htr : ∀ p, Failed tr p → Failed tr' p)
    (h1 : v'.latest = some pic) (h2 : v'.captured = v.captured ∨ v'.captured = v.captured + 1)
    (h3 : v'.shut = v.shut ++ v.latest.toList) (h4 : v'.closed = v.closed)
    (hpic : pic < v'.captured ∧ pic ∉ v.shut ∧ v.latest ≠ some pic)
    (hnew : v'.captured = v.captured + 1 → pic = v.captured)
    (hr : ∀ (k : Nat) (x' : Run) p ts, v'.runs[k]? = some x' → x'.phase = .config p ts →
      (∃ x, v.runs[k]? = some x ∧ x.phase = .config p ts) ∧ p ≠ pic)
    (hw : ∀ p, Waits v.runs p → p ≠ pic → Waits v'.runs p) : PInv tr' v' := by
  have hle : v.captured ≤ v'.captured := by omega
  have hmem : ∀ p, p ∈ v'.shut ↔ p ∈ v.shut ∨ v.latest = some p := by
    intro p
    rw [h3, List.mem_append, Option.mem_toList]
  refine ⟨fun p h => ?_, ?_, ?_, ?_, ?_, ?_⟩
  · obtain ⟨r, run, ts, a, b⟩ := h
    obtain ⟨⟨x, c, d⟩, hne⟩ := hr r run p ts a b
    obtain ⟨w1, w2, w3⟩ := i.waits p ⟨r, x, ts, c, d⟩
    refine ⟨by omega, ?_, ?_⟩
    · rw [hmem]
      rintro (h | h)
      · exact w2 h
      · exact w3 h
    · rw [h1]
      intro h
      exact hne (Option.some.inj h).symm
  · intro r r' run run' p ts ts' a b c d
    obtain ⟨⟨x, a', c'⟩, -⟩ := hr r run p ts a c
    obtain ⟨⟨x', b', d'⟩, -⟩ := hr r' run' p ts' b d
    exact i.uniq r r' x x' p ts ts' a' b' c' d'
  · intro p hp
    rw [h1] at hp
    cases hp
    refine ⟨hpic.1, fun _ => ?_⟩
    rw [hmem]
    rintro (h | h)
    · exact hpic.2.1 h
    · exact hpic.2.2 h
  · intro p hp
    rcases (hmem p).1 hp with h | h
    · exact Nat.lt_of_lt_of_le (i.shut p h) hle
    · exact Nat.lt_of_lt_of_le (i.latest p h).1 hle
  · intro hc
    rw [h4] at hc
    rw [h3]
    cases hl : v.latest with
    | none => simpa using i.once hc
    | some q =>
      rw [Option.toList_some, List.nodup_append]
      refine ⟨i.once hc, by simp, ?_⟩
      intro a ha b hb
      rw [List.mem_singleton] at hb
      subst hb
      intro he
      subst he
      exact (i.latest a hl).2 hc ha
  · intro p hp
    by_cases hpp : p = pic
    · exact .inr (.inl (by rw [h1, hpp]))
    · have hp' : p < v.captured := by
        rcases h2 with h | h
        · omega
        · have := hnew h
          omega
      rcases i.all p hp' with h | h | h | h
      · exact .inl ((hmem p).2 (.inl h))
      · exact .inl ((hmem p).2 (.inr h))
      · exact .inr (.inr (.inl (hw p h hpp)))
      · exact .inr (.inr (.inr (htr p h)))

theorem put_config {v : View} {r : Nat} {run run' : Run} (hr : v.runs[r]? = some run)
    (hp : run'.phase = run.phase ∨ ∀ p ts, run'.phase ≠ .config p ts) (k : Nat) (x' : Run) (p : Nat) (ts : Int)
    (hk : (v.put r run').runs[k]? = some x') (hx : x'.phase = .config p ts) :
    ∃ x, v.runs[k]? = some x ∧ x.phase = .config p ts := by
  rcases put_get hr k x' hk with ⟨rfl, rfl⟩ | ⟨-, h⟩
  · rcases hp with h | h
    · exact ⟨run, hr, by rw [← h]; exact hx⟩
    · exact absurd hx (h p ts)
  · exact ⟨x', h, hx⟩

theorem put_waits {v : View} {r : Nat} {run run' : Run} (hr : v.runs[r]? = some run) (p : Nat)
    (hp : ∀ ts, run.phase = .config p ts → run'.phase = .config p ts) (h : Waits v.runs p) :
    Waits (v.put r run').runs p := by
  obtain ⟨k, x, ts, h1, h2⟩ := h
  by_cases hk : k = r
  · subst hk
    rw [hr] at h1
    cases h1
    exact ⟨k, _, ts, put_self hr, hp ts h2⟩
  · refine ⟨k, x, ts, ?_, h2⟩
    unfold View.put
    dsimp only
    rw [List.getElem?_set_ne (Ne.symm hk)]
    exact h1

theorem PInv.step {tr : Trace} {v v' : View} {op : Op} {o : Out} (i : PInv tr v) (e : Eff v op o v') :
    PInv (tr ++ [(op, o)]) v' := by
  have hm : ∀ p, Failed tr p → Failed (tr ++ [(op, o)]) p := fun p => failed_mono _
  cases e with
  | invalid => exact i.runs hm rfl rfl rfl rfl (fun k x p ts a b => ⟨x, a, b⟩) (fun p h => .inl h)
  | track => exact i.runs hm rfl rfl rfl rfl (fun k x p ts a b => ⟨x, a, b⟩) (fun p h => .inl h)
  | start hc =>
    have l := cleanup_less v
    refine i.runs hm l.latest l.captured l.shut l.closed ?_ fun p h => .inl ((cleanup_waits p h).append _)
    intro k x p ts a b
    dsimp only at a
    rcases Nat.lt_or_ge k v.cleanup.runs.length with h | h
    · rw [List.getElem?_append_left h] at a
      exact less_config l k x p ts a b
    · rw [List.getElem?_append_right h] at a
      cases hn : k - v.cleanup.runs.length with
      | zero =>
        rw [hn] at a
        cases a
        cases b
      | succ n =>
        rw [hn] at a
        cases a
  | stop hc =>
    have l := cleanup_less v
    exact i.runs hm l.latest l.captured l.shut l.closed (less_config l) fun p h => .inl (cleanup_waits p h)
  | close hc =>
    have l := cleanup_less { v with shut := v.shut ++ v.latest.toList }
    have hmem : ∀ p, p ∈ v.shut ++ v.latest.toList ↔ p ∈ v.shut ∨ v.latest = some p := by
      intro p
      rw [List.mem_append, Option.mem_toList]
    refine ⟨?_, ?_, ?_, ?_, fun h => (by cases h), ?_⟩
    · rintro p ⟨r, run, ts, a, b⟩
      obtain ⟨x, c, d⟩ := less_config l r run p ts a b
      obtain ⟨w1, w2, w3⟩ := i.waits p ⟨r, x, ts, c, d⟩
      refine ⟨by dsimp only; rw [l.captured]; exact w1, ?_, by dsimp only; rw [l.latest]; exact w3⟩
      dsimp only
      rw [l.shut, hmem]
      rintro (h | h)
      · exact w2 h
      · exact w3 h
    · intro r r' run run' p ts ts' a b c d
      obtain ⟨x, a', c'⟩ := less_config l r run p ts a c
      obtain ⟨x', b', d'⟩ := less_config l r' run' p ts' b d
      exact i.uniq r r' x x' p ts ts' a' b' c' d'
    · intro p hp
      dsimp only at hp ⊢
      rw [l.latest] at hp
      rw [l.captured]
      exact ⟨(i.latest p hp).1, fun h => by cases h⟩
    · intro p hp
      dsimp only at hp ⊢
      rw [l.shut, hmem] at hp
      rw [l.captured]
      rcases hp with h | h
      · exact i.shut p h
      · exact (i.latest p h).1
    · intro p hp
      dsimp only at hp ⊢
      rw [l.captured] at hp
      rw [l.shut, l.latest, hmem]
      rcases i.all p hp with h | h | h | h
      · exact .inl (.inl h)
      · exact .inl (.inr h)
      · exact .inr (.inr (.inl (cleanup_waits (v := { v with shut := v.shut ++ v.latest.toList }) p h)))
      · exact .inr (.inr (.inr (hm p h)))
  | first r ts run hr hd hp =>
    have hcase : ∀ (k : Nat) (x : Run) p t,
        (v.put r { run with phase := .config v.captured ts }).runs[k]? = some x → x.phase = .config p t →
        (k = r ∧ p = v.captured) ∨ v.runs[k]? = some x := by
      intro k x p t a b
      rcases put_get hr k x a with ⟨rfl, rfl⟩ | ⟨-, h⟩
      · cases b
        exact .inl ⟨rfl, rfl⟩
      · exact .inr h
    refine ⟨?_, ?_, ?_, ?_, i.once, ?_⟩
    · rintro p ⟨k, x, t, a, b⟩
      rcases hcase k x p t a b with ⟨-, rfl⟩ | h
      · refine ⟨Nat.lt_succ_self _, fun h => ?_, fun h => ?_⟩
        · have := i.shut _ h
          omega
        · have := (i.latest _ h).1
          omega
      · obtain ⟨w1, w2, w3⟩ := i.waits p ⟨k, x, t, h, b⟩
        exact ⟨Nat.lt_succ_of_lt w1, w2, w3⟩
    · intro k k' x x' p t t' a b c d
      rcases hcase k x p t a c with ⟨h1, h2⟩ | h
      · rcases hcase k' x' p t' b d with ⟨h3, h4⟩ | h'
        · rw [h1, h3]
        · have := (i.waits p ⟨k', x', t', h', d⟩).1
          omega
      · rcases hcase k' x' p t' b d with ⟨h3, h4⟩ | h'
        · have := (i.waits p ⟨k, x, t, h, c⟩).1
          omega
        · exact i.uniq k k' x x' p t t' h h' c d
    · intro p h
      exact ⟨Nat.lt_succ_of_lt (i.latest p h).1, (i.latest p h).2⟩
    · intro p h
      exact Nat.lt_succ_of_lt (i.shut p h)
    · intro p h
      dsimp only at h ⊢
      rcases Nat.lt_or_ge p v.captured with h' | h'
      · rcases i.all p h' with h | h | h | h
        · exact .inl h
        · exact .inr (.inl h)
        · exact .inr (.inr (.inl (put_waits hr p (by simp [hp]) h)))
        · exact .inr (.inr (.inr (hm p h)))
      · have : p = v.captured := by omega
        subst this
        exact .inr (.inr (.inl ⟨r, _, ts, put_self hr, rfl⟩))
  | encode r ts run q st hr hd hp he =>
    refine i.given (pic := v.captured) hm rfl (.inr rfl) rfl rfl ⟨Nat.lt_succ_self _, fun h => ?_, fun h => ?_⟩
      (fun _ => rfl) ?_ ?_
    · have := i.shut _ h
      omega
    · have := (i.latest _ h).1
      omega
    · intro k x p t a b
      obtain ⟨y, h1, h2⟩ := put_config (v := { v.given v.captured ts with captured := v.captured + 1 })
        (run' := { run with encoder := .working (q ++ [⟨ts, decide (v.timestamp + GOP < ts)⟩]) st }) hr
        (.inl rfl) k x p t a b
      refine ⟨⟨y, h1, h2⟩, ?_⟩
      have := (i.waits p ⟨k, y, t, h1, h2⟩).1
      omega
    · intro p h _
      exact put_waits (v := { v.given v.captured ts with captured := v.captured + 1 }) hr p (fun _ => id) h
  | dead r ts run hr hd hp he =>
    have l : Less { v.given v.captured ts with captured := v.captured + 1 } _ :=
      finish_less (r := r) (run := run) run hr
    refine i.given (pic := v.captured) hm rfl (.inr rfl) rfl rfl ⟨Nat.lt_succ_self _, fun h => ?_, fun h => ?_⟩
      (fun _ => rfl) ?_ ?_
    · have := i.shut _ h
      omega
    · have := (i.latest _ h).1
      omega
    · intro k x p t a b
      obtain ⟨y, h1, h2⟩ := less_config l k x p t a b
      refine ⟨⟨y, h1, h2⟩, ?_⟩
      have := (i.waits p ⟨k, y, t, h1, h2⟩).1
      omega
    · intro p h _
      exact finish_waits (v := { v.given v.captured ts with captured := v.captured + 1 }) run hr p
        (by simp [hp]) h
  | ended r run hr hd =>
    have l := exhaust_less hr
    exact i.runs hm l.latest l.captured l.shut l.closed (less_config l) fun p h => .inl (exhaust_waits hr p h)
  | threw r pic ts run hr hp he =>
    have l := finish_less run hr
    refine i.runs hm l.latest l.captured l.shut l.closed (less_config l) fun p h => ?_
    by_cases hpp : p = pic
    · subst hpp
      exact .inr ⟨r, by simp⟩
    · refine .inl (finish_waits run hr p ?_ h)
      intro t ht
      rw [hp] at ht
      cases ht
      exact hpp rfl
  | done r pic ts run hr hp he hd =>
    have l : Less (v.given pic ts) ((v.given pic ts).finish r run) := finish_less (r := r) (run := run) run hr
    obtain ⟨w1, w2, w3⟩ := i.waits pic ⟨r, run, ts, hr, hp⟩
    refine i.given (pic := pic) hm rfl (.inl rfl) rfl rfl ⟨w1, w2, w3⟩ (fun _ => ?_) ?_ ?_
    · rename_i h
      have : v.captured = v.captured + 1 := h
      omega
    · intro k x p t a b
      obtain ⟨y, h1, h2⟩ := less_config l k x p t a b
      refine ⟨⟨y, h1, h2⟩, ?_⟩
      intro hpp
      subst hpp
      have hk := i.uniq k r y run p t ts h1 hr h2 hp
      subst hk
      have hs : ((v.given p ts).finish k run).runs[k]? = some ⟨.over, .closed, run.done⟩ :=
        List.getElem?_set_self (List.getElem?_eq_some_iff.1 hr).1
      rw [hs] at a
      cases a
      cases b
    · intro p h hne
      refine finish_waits (v := v.given pic ts) run hr p ?_ h
      intro t ht
      rw [hp] at ht
      cases ht
      exact hne rfl
  | configured r pic ts run hr hp he hd =>
    obtain ⟨w1, w2, w3⟩ := i.waits pic ⟨r, run, ts, hr, hp⟩
    refine i.given (pic := pic) hm rfl (.inl rfl) rfl rfl ⟨w1, w2, w3⟩ (fun _ => ?_) ?_ ?_
    · rename_i h
      have : v.captured = v.captured + 1 := h
      omega
    · intro k x p t a b
      rcases put_get (v := v.given pic ts) hr k x a with ⟨rfl, rfl⟩ | ⟨hk, h⟩
      · cases b
      · refine ⟨⟨x, h, b⟩, ?_⟩
        intro hpp
        subst hpp
        exact hk (i.uniq k r x run p t ts h hr b hp)
    · intro p h hne
      refine put_waits (v := v.given pic ts) hr p ?_ h
      intro t ht
      rw [hp] at ht
      cases ht
      exact absurd rfl hne
  | output r run c q qs st _ hr he ht hk ho =>
    exact i.runs hm rfl rfl rfl rfl (put_config hr (.inl rfl)) fun p h => .inl (put_waits hr p (fun _ => id) h)
  | error r run q st hr he =>
    exact i.runs hm rfl rfl rfl rfl (put_config hr (.inl rfl)) fun p h => .inl (put_waits hr p (fun _ => id) h)

theorem pinv_reach {tr : Trace} {s : State} (h : machine.Reach tr s) : PInv tr (view s) := by
  refine Machine.Reach.induct (M := machine) (P := fun tr s => PInv tr (view s)) ?_ ?_ h
  · refine ⟨?_, ?_, ?_, ?_, fun _ => List.nodup_nil, ?_⟩
    · rintro p ⟨r, run, ts, h, -⟩
      simp [view, init] at h
    · intro r r' run run' p ts ts' h
      simp [view, init] at h
    · intro p h
      cases h
    · intro p h
      cases h
    · intro p h
      exact absurd h (Nat.not_lt_zero p)
  · intro tr s op hr i
    exact i.step (step_eff (inv_reach hr) op)

/-! ## Key frames -/

/-- The timestamp of the last key frame. -/
def lastKey (cs : List Input) : Option Int := ((cs.filter (·.keyframe)).map (·.timestamp)).getLast?

theorem lastKey_snoc (cs : List Input) (c : Input) :
    lastKey (cs ++ [c]) = if c.keyframe then some c.timestamp else lastKey cs := by
  unfold lastKey
  rw [List.filter_append, List.map_append]
  cases hk : c.keyframe <;> simp [hk]

/-- If no key frame was requested that is not put out yet, `#groupTimestamp` is that of the last. -/
def KInv (tr : Trace) (v : View) : Prop :=
  ¬ Late tr → ∀ (r : Nat) (run : Run) q, v.runs[r]? = some run → run.encoder = .working q true →
    (∀ x ∈ q, x.key = false) → lastKey (chunks tr r) = some v.timestamp

theorem KInv.keep {tr : Trace} {v v' : View} {op : Op} {o : Out} (i : KInv tr v)
    (hop : ∀ r c, op = .output r c → o = .invalid) (ht : v'.timestamp = v.timestamp)
    (hr : ∀ (k : Nat) (x' : Run) q, v'.runs[k]? = some x' → x'.encoder = .working q true →
      ∃ x, v.runs[k]? = some x ∧ x.encoder = .working q true) : KInv (tr ++ [(op, o)]) v' := by
  intro hl r run q h1 h2 h3
  obtain ⟨x, h4, h5⟩ := hr r run q h1 h2
  rw [chunks_same _ _ _ hop, ht]
  exact i (fun h => hl (late_mono tr _ h)) r x q h4 h5 h3

theorem less_working {v v' : View} (h : Less v v') (k : Nat) (x' : Run) (q : List Request) (st : Bool)
    (hk : v'.runs[k]? = some x') (hp : x'.encoder = .working q st) :
    ∃ x, v.runs[k]? = some x ∧ x.encoder = .working q st := by
  obtain ⟨x, h1, h2⟩ := h.runs k x' hk
  rcases h2 with ⟨-, a⟩ | ⟨-, a⟩
  · exact ⟨x, h1, by rw [← a]; exact hp⟩
  · rw [a] at hp
    cases hp

theorem KInv.step {tr : Trace} {s : State} {v' : View} {op : Op} {o : Out} (j : Inv tr s)
    (i : KInv tr (view s)) (e : Eff (view s) op o v') : KInv (tr ++ [(op, o)]) v' := by
  have hidle : ∀ (k : Nat) (x : Run) q st, s.runs[k]? = some x → x.encoder = .working q st →
      s.current = some k := fun k x q st h1 h2 => j.state.idle h1 h2
  have hgoing : ∀ (k : Nat) (x : Run), s.runs[k]? = some x → x.done = false → s.current = some k := by
    intro k x h1 h2
    obtain ⟨t, gs, ls, -, y⟩ := j.state.both h1
    exact y.run.going h2
  generalize hv : view s = v at i e
  have hruns : s.runs = v.runs := by rw [← hv]; rfl
  rw [hruns] at hidle hgoing
  cases e with
  | invalid => exact i.keep (fun _ _ _ => rfl) rfl fun k x q a b => ⟨x, a, b⟩
  | track => exact i.keep (fun _ _ h => by cases h) rfl fun k x q a b => ⟨x, a, b⟩
  | start hc =>
    have l := cleanup_less v
    refine i.keep (fun _ _ h => by cases h) l.timestamp ?_
    intro k x q a b
    dsimp only at a
    rcases Nat.lt_or_ge k v.cleanup.runs.length with h | h
    · rw [List.getElem?_append_left h] at a
      exact less_working l k x q true a b
    · rw [List.getElem?_append_right h] at a
      cases hn : k - v.cleanup.runs.length with
      | zero =>
        rw [hn] at a
        cases a
        cases b
      | succ n =>
        rw [hn] at a
        cases a
  | stop hc =>
    have l := cleanup_less v
    exact i.keep (fun _ _ h => by cases h) l.timestamp fun k x q a b => less_working l k x q true a b
  | close hc =>
    have l := cleanup_less { v with shut := v.shut ++ v.latest.toList }
    exact i.keep (fun _ _ h => by cases h) l.timestamp fun k x q a b => less_working l k x q true a b
  | first r ts run hr hd hp =>
    refine i.keep (fun _ _ h => by cases h) rfl fun k x q a b => ?_
    rcases put_get hr k x a with ⟨rfl, rfl⟩ | ⟨-, h⟩
    · exact ⟨run, hr, b⟩
    · exact ⟨x, h, b⟩
  | encode r ts run q st hr hd hp he =>
    intro hl k x q' a b hq
    have hcur := hgoing r run hr hd
    rcases put_get (v := { v.given v.captured ts with captured := v.captured + 1 }) hr k x a with
      ⟨rfl, rfl⟩ | ⟨hk, h⟩
    · cases b
      have hkey : decide (v.timestamp + GOP < ts) = false := by
        have := hq ⟨ts, decide (v.timestamp + GOP < ts)⟩ (by simp)
        exact this
      have hn : ¬ v.timestamp + GOP < ts := by simpa using hkey
      have ht : (v.given v.captured ts).timestamp = v.timestamp := by
        unfold View.given
        dsimp only
        rw [if_neg hn]
      rw [chunks_same _ _ _ (fun _ _ h => by cases h)]
      have := i (fun h => hl (late_mono tr _ h)) k run q hr he fun x hx => hq x (by simp [hx])
      rw [← ht] at this
      exact this
    · have := hidle k x q' true h b
      rw [hcur] at this
      exact absurd (Option.some.inj this).symm hk
  | dead r ts run hr hd hp he =>
    intro hl k x q' a b hq
    have hcur := hgoing r run hr hd
    have l : Less { v.given v.captured ts with captured := v.captured + 1 } _ :=
      finish_less (r := r) (run := run) run hr
    obtain ⟨y, h1, h2⟩ := less_working l k x q' true a b
    have := hidle k y q' true h1 h2
    rw [hcur] at this
    cases this
    rw [show v.runs[r]? = some y from h1] at hr
    cases hr
    rw [he] at h2
    cases h2
  | ended r run hr hd =>
    have l := exhaust_less hr
    exact i.keep (fun _ _ h => by cases h) l.timestamp fun k x q a b => less_working l k x q true a b
  | threw r pic ts run hr hp he =>
    have l := finish_less run hr
    exact i.keep (fun _ _ h => by cases h) l.timestamp fun k x q a b => less_working l k x q true a b
  | done r pic ts run hr hp he hd =>
    intro hl k x q' a b hq
    have l : Less (v.given pic ts) ((v.given pic ts).finish r run) := finish_less (r := r) (run := run) run hr
    obtain ⟨y, h1, h2⟩ := less_working l k x q' true a b
    have hc := hidle k y q' true h1 h2
    have hk : k ≠ r := by
      intro h
      subst h
      rw [show v.runs[k]? = some y from h1] at hr
      cases hr
      rw [he] at h2
      cases h2
    obtain ⟨c1, c2⟩ := j.late_of (by rw [hruns]; exact hr) hc hk
    exact absurd ((late_snoc _ _).2 (.inr ⟨_, _, _, k, rfl, by simp, c1, c2⟩)) hl
  | configured r pic ts run hr hp he hd =>
    intro hl k x q' a b hq
    rcases put_get (v := v.given pic ts) hr k x a with ⟨rfl, rfl⟩ | ⟨hk, h⟩
    · cases b
    · have hc := hidle k x q' true h b
      obtain ⟨c1, c2⟩ := j.late_of (by rw [hruns]; exact hr) hc hk
      exact absurd ((late_snoc _ _).2 (.inr ⟨_, _, _, k, rfl, by simp, c1, c2⟩)) hl
  | output r run c q qs st _ hr he ht hk ho =>
    intro hl k x q' a b hq
    have hcur := hidle r run _ _ hr he
    have hne : o ≠ .invalid := by
      rcases ho with ⟨g, h⟩ | h <;> rw [h] <;> simp
    rcases put_get hr k x a with ⟨rfl, rfl⟩ | ⟨hkr, h⟩
    · cases b
      rw [chunks_snoc]
      dsimp only
      rw [if_pos ⟨rfl, hne⟩, lastKey_snoc]
      cases hc : c.keyframe with
      | true => rfl
      | false =>
        rw [if_neg (by simp), if_neg (by simp)]
        have hst : st = true := by
          cases st with
          | true => rfl
          | false =>
            rw [hk (.inr rfl)] at hc
            cases hc
        subst hst
        have hqk : q.key = false := by
          cases hq : q.key with
          | false => rfl
          | true =>
            rw [hk (.inl hq)] at hc
            cases hc
        refine i (fun h => hl (late_mono tr _ h)) k run _ hr he ?_
        intro x hx
        rcases List.mem_cons.1 hx with rfl | hx
        · exact hqk
        · exact hq x hx
    · have := hidle k x q' true h b
      rw [hcur] at this
      exact absurd (Option.some.inj this).symm hkr
  | error r run q st hr he =>
    refine i.keep (fun _ _ h => by cases h) rfl fun k x q a b => ?_
    rcases put_get hr k x a with ⟨rfl, rfl⟩ | ⟨-, h⟩
    · cases b
    · exact ⟨x, h, b⟩

theorem kinv_reach {tr : Trace} {s : State} (h : machine.Reach tr s) : KInv tr (view s) := by
  refine Machine.Reach.induct (M := machine) (P := fun tr s => KInv tr (view s)) ?_ ?_ h
  · intro _ r run q h
    simp [view, init] at h
  · intro tr s op hr i
    exact i.step (inv_reach hr) (step_eff (inv_reach hr) op)

/-! ## `#active` -/

/-- The run is past its first picture, and has not ended. -/
def Run.busy (run : Run) : Prop := (∃ p ts, run.phase = .config p ts) ∨ run.phase = .loop

structure AInv (tr : Trace) (v : View) : Prop where
  up : ¬ Late tr → ∀ (r : Nat) (run : Run), r + 1 = v.runs.length → v.runs[r]? = some run → run.busy →
    run.encoder ≠ .closed → v.active = true
  down : (∀ r, ¬ Errored tr r) → v.active = true → ∃ (r : Nat) (run : Run), v.runs[r]? = some run ∧ run.busy
  over : (∀ r, ¬ Errored tr r) → ∀ (r : Nat) (run : Run), v.runs[r]? = some run → run.encoder = .closed →
    run.phase = .over

theorem errored_mono {tr : Trace} {e : Op × Out} (h : ∀ r, ¬ Errored (tr ++ [e]) r) : ∀ r, ¬ Errored tr r :=
  fun r hr => h r ((errored_snoc tr e r).2 (.inl hr))

theorem busy_not_over {run : Run} (h : run.busy) : run.phase ≠ .over := by
  rcases h with ⟨p, ts, h⟩ | h <;> rw [h] <;> simp

/-- A run ends: the newest, or one whose end makes the history late. -/
theorem AInv.finish {tr : Trace} {v w : View} {e : Op × Out} (i : AInv tr v) {r : Nat} {run run' : Run}
    (hr : v.runs[r]? = some run) (hw : w.runs = v.runs)
    (he : run'.encoder = .closed ↔ run.encoder = .closed)
    (hbusy : run.encoder = .closed → run.busy)
    (hnew : ¬ Late (tr ++ [e]) → r + 1 = v.runs.length) : AInv (tr ++ [e]) (w.finish r run') := by
  have hr' : w.runs[r]? = some run := by rw [hw]; exact hr
  refine ⟨?_, ?_, ?_⟩
  · intro hl k x hk hx hb hc
    have hlen : (w.finish r run').runs.length = v.runs.length := by
      unfold View.finish View.put
      simp [hw]
    have hkr : k = r := by
      have := hnew hl
      omega
    subst hkr
    rcases put_get (run' := ⟨.over, .closed, run'.done⟩) hr' k x hx with ⟨-, rfl⟩ | ⟨h, -⟩
    · exact absurd rfl hc
    · exact absurd rfl h
  · intro hn hact
    by_cases hc : run.encoder = .closed
    · have h1 := i.over (errored_mono hn) r run hr hc
      exact absurd h1 (busy_not_over (hbusy hc))
    · unfold View.finish at hact
      dsimp only at hact
      rw [if_neg fun h => hc (he.1 h)] at hact
      cases hact
  · intro hn k x hx hc
    rcases put_get (run' := ⟨.over, .closed, run'.done⟩) hr' k x hx with ⟨-, rfl⟩ | ⟨-, h⟩
    · rfl
    · rw [hw] at h
      exact i.over (errored_mono hn) k x h hc

theorem AInv.exhaust {tr : Trace} {s : State} {e : Op × Out} (j : Inv tr s) {v : View} (hv : view s = v)
    (i : AInv tr v) {r : Nat} {run : Run} (hr : v.runs[r]? = some run)
    (hnew : r + 1 = v.runs.length) : AInv (tr ++ [e]) (v.exhaust r run) := by
  have hruns : s.runs = v.runs := by rw [← hv]; rfl
  have hr' : s.runs[r]? = some run := by rw [hruns]; exact hr
  obtain ⟨t, gs, ls, -, x⟩ := j.state.both hr'
  have hp := x.run.phase
  have hput : AInv (tr ++ [e]) (v.put r { run with done := true }) := by
    refine ⟨?_, ?_, ?_⟩
    · intro hl k x hk hx hb hc
      have hk' : k + 1 = v.runs.length := by simpa [View.put] using hk
      rcases put_get hr k x hx with ⟨rfl, rfl⟩ | ⟨-, h⟩
      · exact i.up (fun h => hl (late_mono tr _ h)) k run hk' hr hb hc
      · exact i.up (fun h => hl (late_mono tr _ h)) k x hk' h hb hc
    · intro hn hact
      obtain ⟨k, x, h1, h2⟩ := i.down (errored_mono hn) hact
      by_cases hk : k = r
      · subst hk
        rw [hr] at h1
        cases h1
        exact ⟨k, _, put_self hr, h2⟩
      · refine ⟨k, x, ?_, h2⟩
        unfold View.put
        dsimp only
        rw [List.getElem?_set_ne (Ne.symm hk)]
        exact h1
    · intro hn k x hx hc
      rcases put_get hr k x hx with ⟨rfl, rfl⟩ | ⟨-, h⟩
      · exact i.over (errored_mono hn) k run hr hc
      · exact i.over (errored_mono hn) k x h hc
  unfold View.exhaust
  split
  · next hph =>
    refine i.finish hr rfl (run' := { run with done := true }) Iff.rfl (fun hc => ?_) fun _ => hnew
    rw [hc, hph] at hp
    simp at hp
  · next hph =>
    exact i.finish hr rfl (run' := { run with done := true }) Iff.rfl (fun _ => .inr hph) fun _ => hnew
  · exact hput

theorem AInv.keep {tr : Trace} {v : View} (e : Op × Out) (i : AInv tr v) : AInv (tr ++ [e]) v :=
  ⟨fun hl => i.up fun h => hl (late_mono tr _ h), fun hn => i.down (errored_mono hn),
    fun hn => i.over (errored_mono hn)⟩

/-- Fields that do not matter. -/
theorem AInv.same {tr : Trace} {v w : View} (i : AInv tr v) (h1 : w.runs = v.runs) (h2 : w.active = v.active) :
    AInv tr w :=
  ⟨by rw [h1, h2]; exact i.up, by rw [h1, h2]; exact i.down, by rw [h1]; exact i.over⟩

theorem AInv.cleanup {tr : Trace} {s : State} {e : Op × Out} (j : Inv tr s) {v : View} (hv : view s = v)
    (i : AInv tr v) : AInv (tr ++ [e]) v.cleanup := by
  unfold View.cleanup
  split
  · next r hc =>
    split
    · next run hr =>
      have hcur : s.current = some r := by rw [← hc, ← hv]; rfl
      have := j.state.current r hcur
      rw [show s.runs = v.runs by rw [← hv]; rfl] at this
      exact (i.exhaust j hv hr this).same rfl rfl
    · exact i.keep e
  · exact i.keep e

theorem AInv.step {tr : Trace} {s : State} {v' : View} {op : Op} {o : Out} (j : Inv tr s)
    (i : AInv tr (view s)) (e : Eff (view s) op o v') : AInv (tr ++ [(op, o)]) v' := by
  have hgoing : ∀ (k : Nat) (x : Run), s.runs[k]? = some x → x.done = false → k + 1 = s.runs.length := by
    intro k x h1 h2
    obtain ⟨t, gs, ls, -, y⟩ := j.state.both h1
    exact j.state.current k (y.run.going h2)
  have hidle : ∀ (k : Nat) (x : Run) q st, s.runs[k]? = some x → x.encoder = .working q st →
      k + 1 = s.runs.length := fun k x q st h1 h2 => j.state.current k (j.state.idle h1 h2)
  generalize hv : view s = v at i e
  have hruns : s.runs = v.runs := by rw [← hv]; rfl
  rw [hruns] at hgoing hidle
  -- the answer about the configuration of an old run makes the history late
  have hlate : ∀ (r : Nat) (run : Run) ok (o' : Out), v.runs[r]? = some run → o' ≠ .invalid →
      ¬ Late (tr ++ [(.config r ok, o')]) → r + 1 = v.runs.length := by
    intro r run ok o' hr ho hl
    have hlt := (List.getElem?_eq_some_iff.1 hr).1
    refine Classical.byContradiction fun hne => hl ?_
    refine (late_snoc _ _).2 (.inr ⟨r, ok, o', r + 1, rfl, ho, ?_, Nat.lt_succ_self r⟩)
    rw [j.started, hruns]
    omega
  -- a run changes and is busy afterwards, and `#active` is set or was already
  have hput : ∀ (w : View) (r : Nat) (run run' : Run) (e : Op × Out), v.runs[r]? = some run →
      w.runs = v.runs → run'.busy → run'.encoder ≠ .closed → r + 1 = v.runs.length →
      (w.active = true ∨ (w.active = v.active ∧ run.busy ∧ run.encoder ≠ .closed)) →
      AInv (tr ++ [e]) (w.put r run') := by
    intro w r run run' e hr hw hb hc hnew hact
    have hr' : w.runs[r]? = some run := by rw [hw]; exact hr
    refine ⟨?_, ?_, ?_⟩
    · intro hl k x hk hx hbx hcx
      rcases hact with h | ⟨h, h2, h3⟩
      · exact h
      · exact h.trans (i.up (fun h => hl (late_mono tr _ h)) r run hnew hr h2 h3)
    · intro _ _
      exact ⟨r, run', put_self hr', hb⟩
    · intro hn k x hx hcx
      rcases put_get hr' k x hx with ⟨rfl, rfl⟩ | ⟨-, h⟩
      · exact absurd hcx hc
      · rw [hw] at h
        exact i.over (errored_mono hn) k x h hcx
  cases e with
  | invalid => exact i.keep _
  | track => exact i.keep _
  | start hc =>
    have a := i.cleanup (e := (.start, .run v.cleanup.runs.length)) j hv
    refine ⟨?_, ?_, ?_⟩
    · intro hl r run hlen hr hb
      dsimp only at hlen hr
      rw [List.length_append, List.length_singleton] at hlen
      have : r = v.cleanup.runs.length := by omega
      subst this
      rw [List.getElem?_append_right (Nat.le_refl _), Nat.sub_self] at hr
      cases hr
      rcases hb with ⟨p, ts, h⟩ | h <;> cases h
    · intro hn hact
      obtain ⟨r, run, h1, h2⟩ := a.down hn hact
      exact ⟨r, run, by dsimp only; rw [List.getElem?_append_left (List.getElem?_eq_some_iff.1 h1).1]; exact h1,
        h2⟩
    · intro hn r run hr hc
      dsimp only at hr
      rcases Nat.lt_or_ge r v.cleanup.runs.length with h | h
      · rw [List.getElem?_append_left h] at hr
        exact a.over hn r run hr hc
      · rw [List.getElem?_append_right h] at hr
        cases hz : r - v.cleanup.runs.length with
        | zero =>
          rw [hz] at hr
          cases hr
          cases hc
        | succ n =>
          rw [hz] at hr
          cases hr
  | stop hc => exact i.cleanup j hv
  | close hc =>
    have a := (i.same (w := { v with shut := v.shut ++ v.latest.toList }) rfl rfl)
    have j' : Inv tr { s with shut := s.shut ++ s.latest.toList } :=
      ⟨j.state.same rfl rfl rfl rfl rfl id, j.started, j.closed, j.shut, j.keeps, j.live⟩
    have hv' : view { s with shut := s.shut ++ s.latest.toList } =
        { v with shut := v.shut ++ v.latest.toList } := by
      rw [← hv]
      rfl
    exact (a.cleanup j' hv').same rfl rfl
  | first r ts run hr hd hp =>
    have hph : run.encoder ≠ .closed := by
      obtain ⟨t, gs, ls, -, y⟩ := j.state.both (r := r) (by rw [hruns]; exact hr)
      have := y.run.phase
      intro hc
      rw [hc, hp] at this
      simp at this
    exact hput { v with active := true, captured := v.captured + 1 } r run _ _ hr rfl (.inl ⟨_, _, rfl⟩) hph
      (hgoing r run hr hd) (.inl rfl)
  | encode r ts run q st hr hd hp he =>
    exact hput { v.given v.captured ts with captured := v.captured + 1 } r run _ _ hr rfl (.inr hp) (by simp)
      (hgoing r run hr hd) (.inr ⟨rfl, .inr hp, by simp [he]⟩)
  | dead r ts run hr hd hp he =>
    exact i.finish (w := { v.given v.captured ts with captured := v.captured + 1 }) hr rfl Iff.rfl
      (fun _ => .inr hp) fun _ => hgoing r run hr hd
  | ended r run hr hd => exact i.exhaust j hv hr (hgoing r run hr hd)
  | threw r pic ts run hr hp he =>
    exact i.finish hr rfl Iff.rfl (fun _ => .inl ⟨pic, ts, hp⟩) (hlate r run false _ hr (by simp))
  | done r pic ts run hr hp he hd =>
    exact i.finish (w := v.given pic ts) hr rfl Iff.rfl (fun _ => .inl ⟨pic, ts, hp⟩)
      (hlate r run true _ hr (by simp))
  | configured r pic ts run hr hp he hd =>
    exact hput (v.given pic ts) r run _ _ hr rfl (.inr rfl) (by simp) (hgoing r run hr hd)
      (.inr ⟨rfl, .inl ⟨pic, ts, hp⟩, by simp [he]⟩)
  | output r run c q qs st _ hr he ht hk ho =>
    have hph : run.phase = .loop := by
      obtain ⟨t, gs, ls, -, y⟩ := j.state.both (r := r) (by rw [hruns]; exact hr)
      have := y.run.phase
      rw [he] at this
      exact this.1
    exact hput { v with timestamp := if c.keyframe then c.timestamp else v.timestamp } r run _ _ hr rfl
      (.inr hph) (by simp) (hidle r run _ _ hr he) (.inr ⟨rfl, .inr hph, by simp [he]⟩)
  | error r run q st hr he =>
    refine ⟨?_, fun hn => absurd ((errored_snoc _ _ r).2 (.inr rfl)) (hn r),
      fun hn => absurd ((errored_snoc _ _ r).2 (.inr rfl)) (hn r)⟩
    intro hl k x hk hx hb hc
    have hk' : k + 1 = v.runs.length := by simpa [View.put] using hk
    rcases put_get hr k x hx with ⟨rfl, rfl⟩ | ⟨hkr, h⟩
    · exact absurd rfl hc
    · exact i.up (fun h => hl (late_mono tr _ h)) k x hk' h hb hc

theorem ainv_reach {tr : Trace} {s : State} (h : machine.Reach tr s) : AInv tr (view s) := by
  refine Machine.Reach.induct (M := machine) (P := fun tr s => AInv tr (view s)) ?_ ?_ h
  · refine ⟨fun _ r run _ h => ?_, fun _ h => (by cases h), fun _ r run h => ?_⟩ <;> simp [view, init] at h
  · intro tr s op hr i
    exact i.step (inv_reach hr) (step_eff (inv_reach hr) op)

/-! ## The ends of tracks -/

theorem track_ended (t : Track.State) (op : Track.Op) (h : t.status ≠ .live) :
    (Track.step t op).2.status ≠ .live := by
  have hg : ∀ id f, (Track.onGroup t id f).2.status = t.status := by
    intro id f
    unfold Track.onGroup
    split
    · split <;> rfl
    · rfl
  have hs : ∀ c f, (Track.onSub t c f).2.status = t.status := by
    intro c f
    unfold Track.onSub
    split
    · rfl
    · rfl
  have ha : ∀ g o, (Track.add t g o).2.status = t.status := by
    intro g o
    unfold Track.add
    rw [if_neg h]
  cases op with
  | append => rw [Track.step, ha]; exact h
  | insert id fs st =>
    rw [Track.step]
    split
    · exact h
    · rw [ha]; exact h
  | write id b => rw [Track.step, hg]; exact h
  | closeGroup id => rw [Track.step, hg]; exact h
  | abortGroup id => rw [Track.step, hg]; exact h
  | close => rw [Track.step, if_neg h]; exact h
  | abort => rw [Track.step, if_neg h]; exact h
  | consume => exact h
  | run c => rw [Track.step, hs]; exact h
  | nextGroup c => rw [Track.step, hs]; exact h
  | nextFrame c pick => rw [Track.step, hs]; exact h
  | closeSub c => rw [Track.step, hs]; exact h

/-- Tracks that have ended stay so. -/
def Fin (s s' : State) : Prop :=
  s'.tracks.length = s.tracks.length ∧ ∀ (k : Nat) t', s'.tracks[k]? = some t' →
    ∃ t, s.tracks[k]? = some t ∧ (t.status ≠ .live → t'.status ≠ .live)

theorem Fin.refl (s : State) : Fin s s := ⟨rfl, fun _ t h => ⟨t, h, id⟩⟩

theorem Fin.trans {a b c : State} (h1 : Fin a b) (h2 : Fin b c) : Fin a c := by
  refine ⟨h2.1.trans h1.1, fun k t h => ?_⟩
  obtain ⟨t1, a1, b1⟩ := h2.2 k t h
  obtain ⟨t2, a2, b2⟩ := h1.2 k t1 a1
  exact ⟨t2, a2, fun h => b1 (b2 h)⟩

/-- Nothing happened to the tracks. -/
theorem Fin.of {s s' : State} (h : s'.tracks = s.tracks) : Fin s s' :=
  ⟨by rw [h], fun k t hk => ⟨t, by rw [← h]; exact hk, id⟩⟩

theorem fin_act (s : State) (r : Nat) (op : Track.Op) : Fin s (act s r op) := by
  cases ht : s.tracks[r]? with
  | none =>
    unfold act
    rw [ht]
    exact .refl s
  | some t =>
    have ho := act_only ht op
    refine ⟨ho.len, fun k t' hk => ?_⟩
    by_cases hkr : k = r
    · subst hkr
      rw [ho.this] at hk
      cases hk
      exact ⟨t, ht, track_ended t op⟩
    · rw [ho.other k hkr] at hk
      exact ⟨t', hk, id⟩

theorem fin_closeGroup (s : State) : Fin s (closeGroup s) := by
  unfold closeGroup
  split
  · exact fin_act ..
  · exact .refl s

theorem fin_abortGroup (s : State) : Fin s (abortGroup s) := by
  unfold abortGroup
  split
  · exact fin_act ..
  · exact .refl s

theorem fin_finish (s : State) (r : Nat) (run : Run) : Fin s (finish s r run) := by
  unfold finish
  split
  · exact .of rfl
  · exact (fin_closeGroup s).trans (.of rfl)

theorem fin_exhaust (s : State) (r : Nat) (run : Run) : Fin s (exhaust s r run) := by
  unfold exhaust
  split
  · exact fin_finish ..
  · exact fin_finish ..
  · exact .of rfl

theorem fin_cleanup (s : State) : Fin s (cleanup s) := by
  unfold cleanup
  split
  · split
    · exact ((fin_act ..).trans (fin_exhaust ..)).trans (.of rfl)
    · exact .refl s
  · exact .refl s

theorem fin_write (s : State) (k g : Nat) (c : Input) : Fin s (write s k g c).2 := by
  unfold write
  split
  · exact .refl s
  · split
    · exact fin_act ..
    · exact .refl s

theorem fin_emit (s : State) (r : Nat) (c : Input) : Fin s (emit s r c).2 := by
  unfold emit
  split
  · dsimp only
    have h1 : Fin s (closeGroup { s with timestamp := c.timestamp }) :=
      (Fin.of rfl).trans (fin_closeGroup { s with timestamp := c.timestamp })
    split
    · split
      · exact h1.trans ((fin_act ..).trans ((Fin.of rfl).trans (fin_write ..)))
      · exact h1.trans (fin_act ..)
    · exact .refl s
  · split
    · exact fin_write ..
    · exact .refl s

theorem fin_encode (s : State) (r : Nat) (run : Run) (pic : Nat) (ts : Int) :
    Fin s (encode s r run pic ts).2 := by
  unfold encode
  dsimp only
  split
  · exact .of rfl
  · exact (Fin.of rfl).trans (fin_finish ..)

theorem fin_next (s : State) (r : Nat) : Fin s (next s r) := by
  unfold next
  split
  · split
    · exact fin_finish ..
    · exact .refl s
  · exact .refl s

theorem step_fin (s : State) (op : Op) (h : op ≠ .start) : Fin s (step s op).2 := by
  have hon : ∀ r f, (∀ run, Fin s (f run).2) → Fin s (onRun s r f).2 := by
    intro r f hf
    unfold onRun
    split
    · exact hf _
    · exact .refl s
  cases op with
  | start => exact absurd rfl h
  | stop =>
    rw [step]
    split
    · exact .refl s
    · exact fin_cleanup s
  | close =>
    rw [step]
    split
    · exact .refl s
    · exact (Fin.of rfl).trans ((fin_cleanup { s with shut := s.shut ++ s.latest.toList }).trans (.of rfl))
  | picture r ts =>
    rw [step]
    refine hon r _ fun run => ?_
    unfold picture
    split
    · exact .refl s
    · split
      · exact .of rfl
      · exact (Fin.of rfl).trans (fin_encode ..)
      · exact .refl s
  | ended r =>
    rw [step]
    refine hon r _ fun run => ?_
    split
    · exact .refl s
    · exact fin_exhaust ..
  | config r ok =>
    rw [step]
    refine hon r _ fun run => ?_
    unfold config
    split
    · split
      · exact (Fin.of (s' := { s with encoderConfig := some r }) rfl).trans ((fin_encode ..).trans (fin_next ..))
      · exact fin_finish ..
    · exact .refl s
  | output r c =>
    rw [step]
    refine hon r _ fun run => ?_
    unfold output
    split
    · split
      · exact (Fin.of rfl).trans (fin_emit ..)
      · exact .refl s
    · exact .refl s
  | error r =>
    rw [step]
    refine hon r _ fun run => ?_
    unfold error
    split
    · exact (Fin.of (s' := put s r { run with encoder := .closed }) rfl).trans
        ((fin_abortGroup (put s r { run with encoder := .closed })).trans
        ((Fin.of (s' := { abortGroup (put s r { run with encoder := .closed }) with group := none }) rfl).trans
        (fin_act ..)))
    · exact .refl s
  | track r op =>
    rw [step]
    split
    · split
      · exact fin_act ..
      · exact .refl s
    · exact .refl s

/-- Only the track of the current run can be live. -/
def EInv (s : State) : Prop :=
  ∀ (r : Nat) t, s.tracks[r]? = some t → s.current ≠ some r → t.status ≠ .live

theorem cleanup_ended {s : State} (i : EInv s) (hc : ∀ r, s.current = some r → r < s.runs.length) (r : Nat)
    (t : Track.State) (h : (cleanup s).tracks[r]? = some t) : t.status ≠ .live := by
  cases hcur : s.current with
  | none =>
    unfold cleanup at h
    rw [hcur] at h
    exact i r t h (by rw [hcur]; simp)
  | some k =>
    unfold cleanup at h
    rw [hcur] at h
    dsimp only at h
    rw [List.getElem?_eq_getElem (hc k hcur)] at h
    dsimp only at h
    obtain ⟨t1, h1, h2⟩ := (fin_exhaust _ _ _).2 r t h
    refine h2 ?_
    by_cases hkr : r = k
    · subst hkr
      cases ht : s.tracks[r]? with
      | none =>
        unfold act at h1
        rw [ht] at h1
        dsimp only at h1
        rw [ht] at h1
        cases h1
      | some t0 =>
        rw [(act_only ht .close).this] at h1
        cases h1
        rw [Track.step]
        split
        · simp
        · next h => exact h
    · obtain ⟨t2, h3, h4⟩ := (fin_act s k .close).2 r t1 h1
      exact h4 (i r t2 h3 (by rw [hcur]; simpa using Ne.symm hkr))

theorem cleanup_current (s : State) (hc : ∀ r, s.current = some r → r < s.runs.length) :
    (cleanup s).current = none := by
  unfold cleanup
  cases hcur : s.current with
  | none => exact hcur
  | some k =>
    dsimp only
    rw [List.getElem?_eq_getElem (hc k hcur)]

theorem step_current {tr : Trace} {s : State} (j : Inv tr s) (op : Op) (h1 : op ≠ .start) (h2 : op ≠ .stop)
    (h3 : op ≠ .close) : (step s op).2.current = s.current := by
  have e := step_eff j op
  have hv : ∀ w : State, (view w).current = w.current := fun _ => rfl
  rw [← hv, ← hv s]
  generalize view (step s op).2 = w at e
  generalize (step s op).1 = o at e
  have hex : ∀ (v : View) r run, (v.exhaust r run).current = v.current := by
    intro v r run
    unfold View.exhaust
    split <;> rfl
  cases e with
  | start => exact absurd rfl h1
  | stop => exact absurd rfl h2
  | close => exact absurd rfl h3
  | ended r run hr hd => exact hex _ _ _
  | _ => rfl

theorem einv_reach {tr : Trace} {s : State} (h : machine.Reach tr s) : EInv s := by
  refine Machine.Reach.induct (M := machine) (P := fun tr s => EInv s) ?_ ?_ h
  · intro r t h
    simp [init] at h
  · intro tr s op hr i
    have j := inv_reach hr
    have hc : ∀ r, s.current = some r → r < s.runs.length := by
      intro r hr
      have := j.state.current r hr
      omega
    by_cases h1 : op = .start
    · subst h1
      intro r t ht hcur
      change (step s .start).2.tracks[r]? = _ at ht
      change (step s .start).2.current ≠ _ at hcur
      rw [step] at ht hcur
      split at ht
      · next hcl =>
        rw [if_pos hcl] at hcur
        exact i r t ht hcur
      · next hcl =>
        rw [if_neg hcl] at hcur
        dsimp only at ht hcur
        have hlen : (cleanup s).tracks.length = (cleanup s).runs.length := (cleanup_inv j.state).1.len
        rcases Nat.lt_or_ge r (cleanup s).tracks.length with h | h
        · rw [List.getElem?_append_left h] at ht
          exact cleanup_ended i hc r t ht
        · rw [List.getElem?_append_right h] at ht
          cases hz : r - (cleanup s).tracks.length with
          | zero => exact absurd (congrArg some (by omega)) hcur
          | succ n =>
            rw [hz] at ht
            cases ht
    · by_cases h2 : op = .stop
      · subst h2
        intro r t ht hcur
        change (step s .stop).2.tracks[r]? = _ at ht
        change (step s .stop).2.current ≠ _ at hcur
        rw [step] at ht hcur
        split at ht
        · next hcl =>
          rw [if_pos hcl] at hcur
          exact i r t ht hcur
        · exact cleanup_ended i hc r t ht
      · by_cases h3 : op = .close
        · subst h3
          intro r t ht hcur
          change (step s .close).2.tracks[r]? = _ at ht
          change (step s .close).2.current ≠ _ at hcur
          rw [step] at ht hcur
          split at ht
          · next hcl =>
            rw [if_pos hcl] at hcur
            exact i r t ht hcur
          · exact cleanup_ended (s := { s with shut := s.shut ++ s.latest.toList }) i hc r t ht
        · intro r t ht hcur
          have e := step_current j op h1 h2 h3
          obtain ⟨t0, a, b⟩ := (step_fin s op h1).2 r t ht
          exact b (i r t0 a (by rw [← e]; exact hcur))

/-! ## Two seconds -/

/-- Pictures or chunks, and whether they are key frames: none is later than 2 s after the key frame before
it, the first of which was at `a`. -/
def good : Int → List (Int × Bool) → Prop
  | _, [] => True
  | a, (t, k) :: l => if k then good t l else t ≤ a + GOP ∧ good a l

/-- The timestamp of the last key frame. -/
def final : Int → List (Int × Bool) → Int
  | a, [] => a
  | a, (t, k) :: l => if k then final t l else final a l

theorem good_append (a : Int) (l m : List (Int × Bool)) : good a (l ++ m) ↔ good a l ∧ good (final a l) m := by
  induction l generalizing a with
  | nil => simp [good, final]
  | cons x l ih =>
    obtain ⟨t, k⟩ := x
    cases k
    · simp [good, final, ih, and_assoc]
    · simp [good, final, ih]

theorem final_append (a : Int) (l m : List (Int × Bool)) : final a (l ++ m) = final (final a l) m := by
  induction l generalizing a with
  | nil => rfl
  | cons x l ih =>
    obtain ⟨t, k⟩ := x
    cases k <;> simp [final, ih]

theorem good_mono {a b : Int} (h : a ≤ b) (l : List (Int × Bool)) (hg : good a l) : good b l := by
  induction l with
  | nil => trivial
  | cons x l ih =>
    obtain ⟨t, k⟩ := x
    cases k
    · simp only [good, Bool.false_eq_true, if_false] at hg ⊢
      exact ⟨by omega, ih hg.2⟩
    · exact hg

theorem final_mono {a b : Int} (h : a ≤ b) (l : List (Int × Bool)) : final a l ≤ final b l := by
  induction l with
  | nil => exact h
  | cons x l ih =>
    obtain ⟨t, k⟩ := x
    cases k
    · exact ih
    · exact Int.le_refl _

theorem final_ge {a b : Int} (h : b ≤ a) (l : List (Int × Bool)) (hl : ∀ x ∈ l, b ≤ x.1) : b ≤ final a l := by
  induction l generalizing a with
  | nil => exact h
  | cons x l ih =>
    obtain ⟨t, k⟩ := x
    cases k
    · exact ih h fun y hy => hl y (by simp [hy])
    · exact ih (hl (t, true) (by simp)) fun y hy => hl y (by simp [hy])

theorem final_le {a b : Int} (h : a ≤ b) (l : List (Int × Bool)) (hl : ∀ x ∈ l, x.1 ≤ b) : final a l ≤ b := by
  induction l generalizing a with
  | nil => exact h
  | cons x l ih =>
    obtain ⟨t, k⟩ := x
    cases k
    · exact ih h fun y hy => hl y (by simp [hy])
    · exact ih (hl (t, true) (by simp)) fun y hy => hl y (by simp [hy])

theorem timestamps_snoc (tr : Trace) (op : Op) (o : Out) : timestamps (tr ++ [(op, o)]) =
    timestamps tr ++ match op with
      | .picture _ ts => if o ≠ .invalid then [ts] else []
      | _ => [] := by
  unfold timestamps
  rw [List.filterMap_append]
  congr 1
  cases op with
  | picture r ts => simp only [List.filterMap_cons, List.filterMap_nil]; split <;> simp_all
  | _ => rfl

theorem timestamps_same (tr : Trace) (op : Op) (o : Out) (h : ∀ r ts, op = .picture r ts → o = .invalid) :
    timestamps (tr ++ [(op, o)]) = timestamps tr := by
  rw [timestamps_snoc]
  cases op with
  | picture r' ts =>
    have := h r' ts rfl
    subst this
    simp
  | _ => simp

theorem pictures_sub (tr : Trace) (r : Nat) : (pictures tr r).Sublist (timestamps tr) := by
  induction tr with
  | nil => exact .slnil
  | cons e tr ih =>
    obtain ⟨op, o⟩ := e
    unfold pictures timestamps at ih ⊢
    rw [List.filterMap_cons, List.filterMap_cons]
    cases op with
    | picture r' ts =>
      by_cases ho : o = .invalid
      · simp only [ho, ne_eq, not_true_eq_false, and_false, if_false]
        exact ih
      · by_cases hr : r' = r
        · simp only [hr, ne_eq, ho, not_false_eq_true, and_self, if_true]
          exact ih.cons_cons _
        · simp only [hr, ne_eq, ho, not_false_eq_true, false_and, if_false, if_true]
          exact ih.cons _
    | _ => exact ih

/-- The clock of the pictures does not run backwards, and starts at 0 or later. -/
def Sorted (tr : Trace) : Prop := (0 :: timestamps tr).Pairwise (· ≤ ·)

theorem Sorted.prefix {tr : Trace} {e : Op × Out} (h : Sorted (tr ++ [e])) : Sorted tr := by
  unfold Sorted at h ⊢
  obtain ⟨op, o⟩ := e
  rw [timestamps_snoc, ← List.cons_append] at h
  exact (List.pairwise_append.1 h).1

theorem Sorted.last {tr : Trace} {r : Nat} {ts : Int} {o : Out} (h : Sorted (tr ++ [(.picture r ts, o)]))
    (ho : o ≠ .invalid) (y : Int) (hy : y ∈ 0 :: timestamps tr) : y ≤ ts := by
  unfold Sorted at h
  rw [timestamps_snoc] at h
  dsimp only at h
  rw [if_pos ho, ← List.cons_append] at h
  exact (List.pairwise_append.1 h).2.2 y hy ts (by simp)

theorem Sorted.pictures {tr : Trace} (h : Sorted tr) (r : Nat) : (pictures tr r).Pairwise (· ≤ ·) :=
  (List.pairwise_cons.1 h).2.sublist (pictures_sub tr r)

theorem Sorted.head {tr : Trace} (h : Sorted tr) {r : Nat} {a : Int} (ha : (Capture.pictures tr r).head? = some a)
    (y : Int) (hy : y ∈ Capture.pictures tr r) : a ≤ y := by
  have := h.pictures r
  cases hp : Capture.pictures tr r with
  | nil => rw [hp] at ha; cases ha
  | cons b l =>
    rw [hp] at ha this hy
    cases ha
    rcases List.mem_cons.1 hy with rfl | hy
    · exact Int.le_refl _
    · exact (List.pairwise_cons.1 this).1 y hy

/-- The chunks of run `r`. -/
def marks (tr : Trace) (r : Nat) : List (Int × Bool) := (chunks tr r).map fun c => (c.timestamp, c.keyframe)

/-- The chunks of run `r` and the pictures in its encoder. -/
def line (tr : Trace) (r : Nat) (q : List Request) : List (Int × Bool) :=
  marks tr r ++ q.map fun x => (x.timestamp, x.key)

theorem line_fst (tr : Trace) (r : Nat) (q : List Request) :
    (line tr r q).map (·.1) = (chunks tr r).map (·.timestamp) ++ q.map (·.timestamp) := by
  simp [line, marks, Function.comp_def]

structure BInv (tr : Trace) (v : View) : Prop where
  mem : v.timestamp ∈ 0 :: timestamps tr
  waits : ∀ (k : Nat) (x : Run) p ts, v.runs[k]? = some x → x.phase = .config p ts →
    ts ∈ timestamps tr ∧ ∀ r, v.current = some r → ∀ y ∈ pictures tr r, ts ≤ y
  idle : ∀ (r : Nat) (x : Run), v.current = some r → v.runs[r]? = some x → x.encoder = .unconfigured →
    ∀ y ∈ pictures tr r, v.timestamp ≤ y
  works : ∀ (r : Nat) (x : Run) q st, v.runs[r]? = some x → x.encoder = .working q st →
    ∃ a, (pictures tr r).head? = some a ∧ good a (line tr r q) ∧ v.timestamp ≤ final a (line tr r q)
  sent : ∀ r, ∃ a, good a (marks tr r)

theorem BInv.keep {tr : Trace} {v v' : View} {op : Op} {o : Out} (i : BInv tr v)
    (hop : ∀ r c, op = .output r c → o = .invalid) (hpc : ∀ r ts, op = .picture r ts → o = .invalid)
    (ht : v'.timestamp = v.timestamp)
    (hc : ∀ (k : Nat) (x' : Run) p ts, v'.runs[k]? = some x' → x'.phase = .config p ts →
      ∃ x, v.runs[k]? = some x ∧ x.phase = .config p ts)
    (hw : ∀ (k : Nat) (x' : Run) q st, v'.runs[k]? = some x' → x'.encoder = .working q st →
      ∃ x, v.runs[k]? = some x ∧ x.encoder = .working q st)
    (hcur : ∀ r, v'.current = some r → pictures tr r = [] ∨ (v.current = some r ∧
      ∀ x', v'.runs[r]? = some x' → x'.encoder = .unconfigured →
        ∃ x, v.runs[r]? = some x ∧ x.encoder = .unconfigured)) : BInv (tr ++ [(op, o)]) v' := by
  have e1 := pictures_same tr op o hpc
  have e2 := timestamps_same tr op o hpc
  have e3 : line (tr ++ [(op, o)]) = line tr := by
    funext r q
    unfold line marks
    rw [chunks_same _ _ _ hop]
  have e4 : marks (tr ++ [(op, o)]) = marks tr := by
    funext r
    unfold marks
    rw [chunks_same _ _ _ hop]
  constructor
  · rw [e2, ht]
    exact i.mem
  · rw [e1, e2]
    intro k x p ts h1 h2
    obtain ⟨y, h3, h4⟩ := hc k x p ts h1 h2
    obtain ⟨h5, h6⟩ := i.waits k y p ts h3 h4
    refine ⟨h5, fun r hr => ?_⟩
    rcases hcur r hr with h | ⟨h, -⟩
    · rw [h]
      simp
    · exact h6 r h
  · rw [e1, ht]
    intro r x h1 h2 h3
    rcases hcur r h1 with h | ⟨h, h4⟩
    · rw [h]
      simp
    · obtain ⟨y, h5, h6⟩ := h4 x h2 h3
      exact i.idle r y h h5 h6
  · rw [e1, e3, ht]
    intro r x q st h1 h2
    obtain ⟨y, h3, h4⟩ := hw r x q st h1 h2
    exact i.works r y q st h3 h4
  · rw [e4]
    exact i.sent

theorem less_unconfigured {v v' : View} (h : Less v v') (k : Nat) (x' : Run)
    (hk : v'.runs[k]? = some x') (hp : x'.encoder = .unconfigured) :
    ∃ x, v.runs[k]? = some x ∧ x.encoder = .unconfigured := by
  obtain ⟨x, h1, h2⟩ := h.runs k x' hk
  rcases h2 with ⟨-, a⟩ | ⟨-, a⟩
  · exact ⟨x, h1, by rw [← a]; exact hp⟩
  · rw [a] at hp
    cases hp

theorem View.exhaust_current (v : View) (r : Nat) (run : Run) : (v.exhaust r run).current = v.current := by
  unfold View.exhaust
  split <;> rfl

/-- The pictures of a run that has no configuration. -/
theorem Inv.unconfigured {tr : Trace} {s : State} (j : Inv tr s) {r : Nat} {run : Run}
    (hr : s.runs[r]? = some run) (he : run.encoder = .unconfigured) :
    pictures tr r = pending run ∧ chunks tr r = [] := by
  obtain ⟨t, gs, ls, -, y⟩ := j.state.both hr
  have hp := y.run.phase
  rw [he] at hp
  have hcs : chunks tr r = [] := by
    rw [y.run.flat, hp.2.1]
    rfl
  obtain ⟨rest, h1, h2⟩ := y.run.order
  rw [h2 (by rw [he]; simp), hcs] at h1
  exact ⟨by simpa using h1, hcs⟩

theorem Inv.working {tr : Trace} {s : State} (j : Inv tr s) {r : Nat} {run : Run} {q : List Request} {st : Bool}
    (hr : s.runs[r]? = some run) (he : run.encoder = .working q st) :
    pictures tr r = (line tr r q).map (·.1) := by
  obtain ⟨t, gs, ls, -, y⟩ := j.state.both hr
  obtain ⟨rest, h1, h2⟩ := y.run.order
  rw [h2 (by rw [he]; simp)] at h1
  rw [line_fst, h1]
  simp [pending, he]

theorem pictures_picture (tr : Trace) (r : Nat) (ts : Int) (o : Out) (ho : o ≠ .invalid) :
    pictures (tr ++ [(.picture r ts, o)]) r = pictures tr r ++ [ts] := by
  rw [pictures_snoc]
  simp [ho]

theorem timestamps_picture (tr : Trace) (r : Nat) (ts : Int) (o : Out) (ho : o ≠ .invalid) :
    timestamps (tr ++ [(.picture r ts, o)]) = timestamps tr ++ [ts] := by
  rw [timestamps_snoc]
  simp [ho]

theorem marks_same (tr : Trace) (op : Op) (o : Out) (h : ∀ r c, op = .output r c → o = .invalid) :
    marks (tr ++ [(op, o)]) = marks tr := by
  funext r
  unfold marks
  rw [chunks_same _ _ _ h]

theorem line_same (tr : Trace) (op : Op) (o : Out) (h : ∀ r c, op = .output r c → o = .invalid) :
    line (tr ++ [(op, o)]) = line tr := by
  funext r q
  unfold line
  rw [marks_same _ _ _ h]

theorem BInv.step {tr : Trace} {s : State} {v' : View} {op : Op} {o : Out} (j : Inv tr s)
    (hs : Sorted (tr ++ [(op, o)]))
    (i : BInv tr (view s)) (e : Eff (view s) op o v') : BInv (tr ++ [(op, o)]) v' := by
  have hsort := hs.prefix
  have hidle : ∀ (k : Nat) (x : Run) q st, s.runs[k]? = some x → x.encoder = .working q st →
      s.current = some k := fun k x q st h1 h2 => j.state.idle h1 h2
  have hgoing : ∀ (k : Nat) (x : Run), s.runs[k]? = some x → x.done = false → s.current = some k := by
    intro k x h1 h2
    obtain ⟨t, gs, ls, -, y⟩ := j.state.both h1
    exact y.run.going h2
  have hun : ∀ (k : Nat) (x : Run), s.runs[k]? = some x → x.encoder = .unconfigured →
      pictures tr k = pending x ∧ chunks tr k = [] := fun k x h1 h2 => j.unconfigured h1 h2
  have hwk : ∀ (k : Nat) (x : Run) q st, s.runs[k]? = some x → x.encoder = .working q st →
      pictures tr k = (line tr k q).map (·.1) := fun k x q st h1 h2 => j.working h1 h2
  have hfe : ∀ (k : Nat) (x : Run), s.runs[k]? = some x → x.phase = .first → x.encoder = .unconfigured := by
    intro k x h1 h2
    obtain ⟨t, gs, ls, -, y⟩ := j.state.both h1
    have hp := y.run.phase
    cases he : x.encoder with
    | unconfigured => rfl
    | working q st => simp [he, h2] at hp
    | closed => simp [he, h2] at hp
  have hfresh := j.state.fresh
  generalize hv : view s = v at i e
  have hruns : s.runs = v.runs := by rw [← hv]; rfl
  have hcurr : s.current = v.current := by rw [← hv]; rfl
  rw [hruns] at hidle hgoing hun hwk hfe hfresh
  rw [hcurr] at hidle hgoing
  cases e with
  | invalid =>
    exact i.keep (fun _ _ _ => rfl) (fun _ _ _ => rfl) rfl (fun k x p ts a b => ⟨x, a, b⟩)
      (fun k x q st a b => ⟨x, a, b⟩) fun r h => .inr ⟨h, fun x a b => ⟨x, a, b⟩⟩
  | track =>
    exact i.keep (fun _ _ h => by cases h) (fun _ _ h => by cases h) rfl (fun k x p ts a b => ⟨x, a, b⟩)
      (fun k x q st a b => ⟨x, a, b⟩) fun r h => .inr ⟨h, fun x a b => ⟨x, a, b⟩⟩
  | start hc =>
    have l := cleanup_less v
    have hnew : ∀ (k : Nat) (x : Run), (v.cleanup.runs ++ [⟨.first, .unconfigured, false⟩])[k]? = some x →
        v.cleanup.runs[k]? = some x ∨ x = ⟨.first, .unconfigured, false⟩ := by
      intro k x a
      rcases Nat.lt_or_ge k v.cleanup.runs.length with h | h
      · rw [List.getElem?_append_left h] at a
        exact .inl a
      · rw [List.getElem?_append_right h] at a
        cases hn : k - v.cleanup.runs.length with
        | zero =>
          rw [hn] at a
          cases a
          exact .inr rfl
        | succ n =>
          rw [hn] at a
          cases a
    refine i.keep (fun _ _ h => by cases h) (fun _ _ h => by cases h) l.timestamp ?_ ?_ ?_
    · intro k x p ts a b
      rcases hnew k x a with h | h
      · exact less_config l k x p ts h b
      · rw [h] at b
        cases b
    · intro k x q st a b
      rcases hnew k x a with h | h
      · exact less_working l k x q st h b
      · rw [h] at b
        cases b
    · intro r h
      cases h
      exact .inl (hfresh _ (by rw [l.len])).2.1
  | stop hc =>
    have l := cleanup_less v
    refine i.keep (fun _ _ h => by cases h) (fun _ _ h => by cases h) l.timestamp
      (fun k x p ts a b => less_config l k x p ts a b) (fun k x q st a b => less_working l k x q st a b) ?_
    intro r h
    refine .inr ⟨?_, fun x a b => less_unconfigured l r x a b⟩
    unfold View.cleanup at h
    split at h
    · split at h
      · cases h
      · exact h
    · exact h
  | close hc =>
    have l := cleanup_less { v with shut := v.shut ++ v.latest.toList }
    refine i.keep (fun _ _ h => by cases h) (fun _ _ h => by cases h) l.timestamp
      (fun k x p ts a b => less_config l k x p ts a b) (fun k x q st a b => less_working l k x q st a b) ?_
    intro r h
    refine .inr ⟨?_, fun x a b => less_unconfigured l r x a b⟩
    unfold View.cleanup at h
    dsimp only at h
    split at h
    · split at h
      · cases h
      · exact h
    · exact h
  | ended r run hr hd =>
    have l := exhaust_less hr
    refine i.keep (fun _ _ h => by cases h) (fun _ _ h => by cases h) l.timestamp
      (fun k x p ts a b => less_config l k x p ts a b) (fun k x q st a b => less_working l k x q st a b) ?_
    intro k h
    rw [View.exhaust_current] at h
    exact .inr ⟨h, fun x a b => less_unconfigured l k x a b⟩
  | threw r pic ts run hr hp he =>
    have l := finish_less run hr
    exact i.keep (fun _ _ h => by cases h) (fun _ _ h => by cases h) l.timestamp
      (fun k x p ts a b => less_config l k x p ts a b) (fun k x q st a b => less_working l k x q st a b)
      fun k h => .inr ⟨h, fun x a b => less_unconfigured l k x a b⟩
  | error r run q st hr he =>
    refine i.keep (fun _ _ h => by cases h) (fun _ _ h => by cases h) rfl ?_ ?_ ?_
    · intro k x p ts a b
      rcases put_get hr k x a with ⟨rfl, rfl⟩ | ⟨-, h⟩
      · exact ⟨run, hr, b⟩
      · exact ⟨x, h, b⟩
    · intro k x q st a b
      rcases put_get hr k x a with ⟨rfl, rfl⟩ | ⟨-, h⟩
      · cases b
      · exact ⟨x, h, b⟩
    · intro k h
      refine .inr ⟨h, fun x a b => ?_⟩
      rcases put_get hr k x a with ⟨rfl, rfl⟩ | ⟨-, h⟩
      · cases b
      · exact ⟨x, h, b⟩
  | first r ts run hr hd hp =>
    have hcur := hgoing r run hr hd
    have he := hfe r run hr hp
    have hno : pictures tr r = [] := by
      rw [(hun r run hr he).1]
      simp [pending, he, hp]
    have hne : (Out.captured v.captured) ≠ .invalid := by simp
    constructor
    · rw [timestamps_picture _ _ _ _ hne]
      rcases List.mem_cons.1 i.mem with h | h
      · exact List.mem_cons.2 (.inl h)
      · exact List.mem_cons.2 (.inr (List.mem_append_left _ h))
    · intro k x p ts' a b
      rw [timestamps_picture _ _ _ _ hne]
      have hall : ts' ∈ timestamps tr ++ [ts] := by
        rcases put_get hr k x a with ⟨rfl, rfl⟩ | ⟨hk, h⟩
        · cases b
          simp
        · exact List.mem_append_left _ (i.waits k x p ts' h b).1
      refine ⟨hall, fun r' hr' y hy => ?_⟩
      rw [show v.current = some r' from hr'] at hcur
      cases hcur
      rw [pictures_picture _ _ _ _ hne, hno] at hy
      cases List.mem_singleton.1 hy
      rcases List.mem_append.1 hall with h | h
      · exact hs.last hne ts' (List.mem_cons_of_mem _ h)
      · rw [List.mem_singleton.1 h]
    · intro k x hk a b y hy
      rw [show v.current = some k from hk] at hcur
      cases hcur
      rw [pictures_picture _ _ _ _ hne, hno] at hy
      cases List.mem_singleton.1 hy
      exact hs.last hne v.timestamp i.mem
    · intro k x q st a b
      rcases put_get hr k x a with ⟨rfl, rfl⟩ | ⟨hk, h⟩
      · rw [show run.encoder = .working q st from b] at he
        cases he
      · have := hidle k x q st h b
        rw [hcur] at this
        exact absurd (Option.some.inj this).symm hk
    · rw [marks_same _ _ _ fun _ _ h => by cases h]
      exact i.sent
  | encode r ts run q st hr hd hp he =>
    have hcur := hgoing r run hr hd
    have hne : (Out.encoded v.captured (decide (v.timestamp + GOP < ts))) ≠ .invalid := by simp
    have hline := line_same tr (.picture r ts) (.encoded v.captured (decide (v.timestamp + GOP < ts)))
      fun _ _ h => by cases h
    obtain ⟨a, ha, hg, hf⟩ := i.works r run q st hr he
    have hold : ∀ (k : Nat) (x : Run), (View.put { v.given v.captured ts with captured := v.captured + 1 } r
          { run with encoder := .working (q ++ [⟨ts, decide (v.timestamp + GOP < ts)⟩]) st }).runs[k]? = some x →
        (k = r ∧ x = { run with encoder := .working (q ++ [⟨ts, decide (v.timestamp + GOP < ts)⟩]) st }) ∨
        (k ≠ r ∧ v.runs[k]? = some x) := fun k x h =>
      put_get (v := { v.given v.captured ts with captured := v.captured + 1 }) hr k x h
    constructor
    · rw [timestamps_picture _ _ _ _ hne]
      change (if v.timestamp + GOP < ts then ts else v.timestamp) ∈ _
      split
      · simp
      · rcases List.mem_cons.1 i.mem with h | h
        · exact List.mem_cons.2 (.inl h)
        · exact List.mem_cons.2 (.inr (List.mem_append_left _ h))
    · intro k x p ts' h1 b
      rw [timestamps_picture _ _ _ _ hne]
      rcases hold k x h1 with ⟨rfl, rfl⟩ | ⟨hk, h⟩
      · rw [show run.phase = .config p ts' from b] at hp
        cases hp
      · obtain ⟨h3, h4⟩ := i.waits k x p ts' h b
        refine ⟨List.mem_append_left _ h3, fun r' hr' y hy => ?_⟩
        rw [show v.current = some r' from hr'] at hcur
        cases hcur
        rw [pictures_picture _ _ _ _ hne] at hy
        rcases List.mem_append.1 hy with h | h
        · exact h4 r hr' y h
        · rw [List.mem_singleton.1 h]
          exact hs.last hne ts' (List.mem_cons_of_mem _ h3)
    · intro k x hk h1 b
      rw [show v.current = some k from hk] at hcur
      cases hcur
      rcases hold r x h1 with ⟨-, rfl⟩ | ⟨hk, -⟩
      · cases b
      · exact absurd rfl hk
    · intro k x q' st' h1 b
      rcases hold k x h1 with ⟨rfl, rfl⟩ | ⟨hk, h⟩
      · cases b
        refine ⟨a, ?_, ?_, ?_⟩
        · rw [pictures_picture _ _ _ _ hne, List.head?_append, ha]
          rfl
        · rw [hline]
          unfold line at hg hf ⊢
          rw [List.map_append, ← List.append_assoc, good_append]
          refine ⟨hg, ?_⟩
          simp only [List.map_cons, List.map_nil, good, and_true]
          split
          · trivial
          · next hkey =>
            have : ¬ v.timestamp + GOP < ts := by simpa using hkey
            omega
        · rw [hline]
          unfold line at hf ⊢
          rw [List.map_append, ← List.append_assoc, final_append]
          change (if v.timestamp + GOP < ts then ts else v.timestamp) ≤ _
          simp only [List.map_cons, List.map_nil, final, decide_eq_true_eq]
          split
          · exact Int.le_refl _
          · exact hf
      · have := hidle k x q' st' h b
        rw [hcur] at this
        exact absurd (Option.some.inj this).symm hk
    · rw [marks_same _ _ _ fun _ _ h => by cases h]
      exact i.sent
  | dead r ts run hr hd hp he =>
    have hcur := hgoing r run hr hd
    have hne : (Out.failed v.captured) ≠ .invalid := by simp
    have l : Less { v.given v.captured ts with captured := v.captured + 1 } _ :=
      finish_less (r := r) (run := run) run hr
    constructor
    · rw [timestamps_picture _ _ _ _ hne]
      change (if v.timestamp + GOP < ts then ts else v.timestamp) ∈ _
      split
      · simp
      · rcases List.mem_cons.1 i.mem with h | h
        · exact List.mem_cons.2 (.inl h)
        · exact List.mem_cons.2 (.inr (List.mem_append_left _ h))
    · intro k x p ts' h1 b
      rw [timestamps_picture _ _ _ _ hne]
      obtain ⟨y, h, hb⟩ := less_config l k x p ts' h1 b
      obtain ⟨h3, h4⟩ := i.waits k y p ts' h hb
      refine ⟨List.mem_append_left _ h3, fun r' hr' y hy => ?_⟩
      rw [show v.current = some r' from hr'] at hcur
      cases hcur
      rw [pictures_picture _ _ _ _ hne] at hy
      rcases List.mem_append.1 hy with h | h
      · exact h4 r hr' y h
      · rw [List.mem_singleton.1 h]
        exact hs.last hne ts' (List.mem_cons_of_mem _ h3)
    · intro k x hk h1 b
      rw [show v.current = some k from hk] at hcur
      cases hcur
      obtain ⟨y, h, hb⟩ := less_unconfigured l r x h1 b
      rw [show v.runs[r]? = some y from h] at hr
      cases hr
      rw [he] at hb
      cases hb
    · intro k x q' st' h1 b
      obtain ⟨y, h, hb⟩ := less_working l k x q' st' h1 b
      have := hidle k y q' st' h hb
      rw [hcur] at this
      cases this
      rw [show v.runs[r]? = some y from h] at hr
      cases hr
      rw [he] at hb
      cases hb
    · rw [marks_same _ _ _ fun _ _ h => by cases h]
      exact i.sent
  | done r pic ts run hr hp he hd =>
    have l : Less (v.given pic ts) ((v.given pic ts).finish r run) := finish_less (r := r) (run := run) run hr
    obtain ⟨w1, w2⟩ := i.waits r run pic ts hr hp
    constructor
    · rw [timestamps_same _ _ _ fun _ _ h => by cases h]
      change (if v.timestamp + GOP < ts then ts else v.timestamp) ∈ _
      split
      · exact List.mem_cons_of_mem _ w1
      · exact i.mem
    · intro k x p ts' h1 b
      rw [timestamps_same _ _ _ (fun _ _ h => by cases h), pictures_same _ _ _ fun _ _ h => by cases h]
      obtain ⟨y, h, hb⟩ := less_config l k x p ts' h1 b
      exact i.waits k y p ts' h hb
    · intro k x hk h1 b y hy
      rw [pictures_same _ _ _ fun _ _ h => by cases h] at hy
      obtain ⟨z, h, hb⟩ := less_unconfigured l k x h1 b
      change (if v.timestamp + GOP < ts then ts else v.timestamp) ≤ _
      split
      · exact w2 k hk y hy
      · exact i.idle k z hk h hb y hy
    · intro k x q' st' h1 b
      obtain ⟨y, h, hb⟩ := less_working l k x q' st' h1 b
      obtain ⟨a, ha, hg, hf⟩ := i.works k y q' st' h hb
      rw [pictures_same _ _ _ (fun _ _ h => by cases h), line_same _ _ _ fun _ _ h => by cases h]
      refine ⟨a, ha, hg, ?_⟩
      change (if v.timestamp + GOP < ts then ts else v.timestamp) ≤ _
      split
      · have hm : a ∈ pictures tr k := List.mem_of_head? ha
        have hc := hidle k y q' st' h hb
        refine final_ge (w2 k hc a hm) _ fun z hz => ?_
        refine w2 k hc z.1 ?_
        rw [hwk k y q' st' h hb]
        exact List.mem_map_of_mem hz
      · exact hf
    · rw [marks_same _ _ _ fun _ _ h => by cases h]
      exact i.sent
  | configured r pic ts run hr hp he hd =>
    have hcur := hgoing r run hr hd
    obtain ⟨w1, w2⟩ := i.waits r run pic ts hr hp
    have hpics : pictures tr r = [ts] := by
      rw [(hun r run hr he).1]
      simp [pending, he, hp]
    have hline : ∀ q, line tr r q = q.map fun x => (x.timestamp, x.key) := by
      intro q
      unfold line marks
      rw [(hun r run hr he).2]
      rfl
    have hT := i.idle r run hcur hr he ts (by rw [hpics]; simp)
    have hold := fun (k : Nat) (x : Run) => put_get (v := v.given pic ts) (run' := { run with
          phase := .loop
          encoder := .working [⟨ts, decide (v.timestamp + GOP < ts)⟩] false }) hr k x
    constructor
    · rw [timestamps_same _ _ _ fun _ _ h => by cases h]
      change (if v.timestamp + GOP < ts then ts else v.timestamp) ∈ _
      split
      · exact List.mem_cons_of_mem _ w1
      · exact i.mem
    · intro k x p ts' h1 b
      rw [timestamps_same _ _ _ (fun _ _ h => by cases h), pictures_same _ _ _ fun _ _ h => by cases h]
      rcases hold k x h1 with ⟨rfl, rfl⟩ | ⟨hk, h⟩
      · cases b
      · exact i.waits k x p ts' h b
    · intro k x hk h1 b y hy
      rw [show v.current = some k from hk] at hcur
      cases hcur
      rcases hold r x h1 with ⟨-, rfl⟩ | ⟨hk, -⟩
      · cases b
      · exact absurd rfl hk
    · intro k x q' st' h1 b
      rw [pictures_same _ _ _ (fun _ _ h => by cases h), line_same _ _ _ fun _ _ h => by cases h]
      rcases hold k x h1 with ⟨rfl, rfl⟩ | ⟨hk, h⟩
      · cases b
        refine ⟨ts, by rw [hpics]; rfl, ?_, ?_⟩
        · rw [hline]
          simp only [List.map_cons, List.map_nil, good, and_true]
          split
          · trivial
          · unfold GOP
            omega
        · rw [hline]
          change (if v.timestamp + GOP < ts then ts else v.timestamp) ≤ _
          simp only [List.map_cons, List.map_nil, final, ite_self]
          split
          · exact Int.le_refl _
          · exact hT
      · have := hidle k x q' st' h b
        rw [hcur] at this
        exact absurd (Option.some.inj this).symm hk
    · rw [marks_same _ _ _ fun _ _ h => by cases h]
      exact i.sent
  | output r run c q qs st _ hr he ht hk ho =>
    have hcur := hidle r run _ _ hr he
    have hne : o ≠ .invalid := by
      rcases ho with ⟨g, h⟩ | h <;> rw [h] <;> simp
    have hchunks : chunks (tr ++ [(.output r c, o)]) r = chunks tr r ++ [c] := by
      rw [chunks_snoc]
      simp [hne]
    have hother : ∀ k, k ≠ r → marks (tr ++ [(.output r c, o)]) k = marks tr k := by
      intro k hk
      unfold marks
      rw [chunks_snoc]
      simp [Ne.symm hk]
    obtain ⟨a, ha, hg, hf⟩ := i.works r run _ st hr he
    have hpics := hwk r run _ _ hr he
    have hle := fun y hy => hsort.head ha y hy
    have hpw := hsort.pictures r
    have hold := fun (k : Nat) (x : Run) => put_get (v := v)
      (run' := { run with encoder := .working qs true }) hr k x
    have hmarks : marks (tr ++ [(.output r c, o)]) r = marks tr r ++ [(c.timestamp, c.keyframe)] := by
      unfold marks
      rw [hchunks, List.map_append]
      rfl
    -- the line afterwards
    have key : good a (line (tr ++ [(.output r c, o)]) r qs) ∧
        (if c.keyframe then c.timestamp else v.timestamp) ≤ final a (line (tr ++ [(.output r c, o)]) r qs) := by
      unfold line at hg hf hpics ⊢
      rw [hmarks, List.append_assoc]
      rw [List.map_cons] at hg hf
      rw [good_append] at hg ⊢
      rw [final_append] at hf ⊢
      have hb : final a (marks tr r) ≤ c.timestamp := by
        have hc : c.timestamp ∈ pictures tr r := by
          rw [hpics, ht]
          simp
        refine final_le (hle _ hc) _ fun x hx => ?_
        rw [hpics, List.map_append] at hpw
        rw [ht]
        exact (List.pairwise_append.1 hpw).2.2 x.1 (List.mem_map_of_mem hx) _ (by simp)
      cases hck : c.keyframe with
      | false =>
        have hqk : q.key = false := by
          cases hq : q.key with
          | false => rfl
          | true =>
            rw [hk (.inl hq)] at hck
            cases hck
        rw [hqk] at hg hf
        rw [ht]
        exact ⟨hg, hf⟩
      | true =>
        have hge : c.timestamp ≤ final c.timestamp (qs.map fun x => (x.timestamp, x.key)) := by
          refine final_ge (Int.le_refl _) _ fun x hx => ?_
          rw [hpics, List.map_append] at hpw
          have := (List.pairwise_append.1 hpw).2.1
          rw [List.map_cons, List.map_cons, List.pairwise_cons] at this
          rw [ht]
          exact this.1 x.1 (List.mem_map_of_mem hx)
        refine ⟨⟨hg.1, ?_⟩, hge⟩
        change good c.timestamp _
        have h2 := hg.2
        unfold good at h2
        rw [ht] at hb ⊢
        split at h2
        · exact h2
        · exact good_mono hb _ h2.2
    constructor
    · rw [timestamps_same _ _ _ fun _ _ h => by cases h]
      change (if c.keyframe then c.timestamp else v.timestamp) ∈ _
      split
      · refine List.mem_cons_of_mem _ ((pictures_sub tr r).subset ?_)
        rw [hpics, ht]
        simp [line]
      · exact i.mem
    · intro k x p ts' h1 b
      rw [timestamps_same _ _ _ (fun _ _ h => by cases h), pictures_same _ _ _ fun _ _ h => by cases h]
      rcases hold k x h1 with ⟨rfl, rfl⟩ | ⟨hk, h⟩
      · exact i.waits k run p ts' hr b
      · exact i.waits k x p ts' h b
    · intro k x hk h1 b y hy
      rw [show v.current = some k from hk] at hcur
      cases hcur
      rcases hold r x h1 with ⟨-, rfl⟩ | ⟨hk, -⟩
      · cases b
      · exact absurd rfl hk
    · intro k x q' st' h1 b
      rw [pictures_same _ _ _ fun _ _ h => by cases h]
      rcases hold k x h1 with ⟨rfl, rfl⟩ | ⟨hk, h⟩
      · cases b
        exact ⟨a, ha, key⟩
      · have := hidle k x q' st' h b
        rw [hcur] at this
        exact absurd (Option.some.inj this).symm hk
    · intro k
      by_cases h : k = r
      · subst h
        have := key.1
        unfold line at this
        rw [good_append] at this
        exact ⟨a, this.1⟩
      · rw [hother k h]
        exact i.sent k

theorem binv_reach {tr : Trace} {s : State} (h : machine.Reach tr s) : Sorted tr → BInv tr (view s) := by
  refine Machine.Reach.induct (M := machine) (P := fun tr s => Sorted tr → BInv tr (view s)) ?_ ?_ h
  · intro _
    refine ⟨by simp [view, init], ?_, ?_, ?_, fun r => ⟨0, trivial⟩⟩
    · intro k x p ts h
      simp [view, init] at h
    · intro k x h
      simp [view, init] at h
    · intro k x q st h
      simp [view, init] at h
  · intro tr s op hr i hs
    exact (i hs.prefix).step (inv_reach hr) hs (step_eff (inv_reach hr) op)

/-! ## Which run is current -/

theorem stopped_snoc (tr : Trace) (e : Op × Out) (r : Nat) : Stopped (tr ++ [e]) r ↔ Stopped tr r ∨
    (Started tr r ∧ (e = (.stop, .ok) ∨ e = (.close, .ok) ∨ ∃ r', e = (.start, .run r'))) := by
  constructor
  · rintro ⟨pre, post, h1, h2⟩
    rcases List.eq_nil_or_concat post with rfl | ⟨post', a, rfl⟩
    · rcases h2 with h | h | ⟨r', h⟩ <;> cases h
    · rw [List.concat_eq_append] at h1 h2
      rw [← List.cons_append, ← List.append_assoc] at h1
      obtain ⟨rfl, h3⟩ := List.append_inj' h1 rfl
      cases h3
      have hst : Started (pre ++ (.start, .run r) :: post') r := by
        unfold Started
        simp
      rcases h2 with h | h | ⟨r', h⟩
      · rcases List.mem_append.1 h with h | h
        · exact .inl ⟨pre, post', rfl, .inl h⟩
        · exact .inr ⟨hst, .inl (List.mem_singleton.1 h).symm⟩
      · rcases List.mem_append.1 h with h | h
        · exact .inl ⟨pre, post', rfl, .inr (.inl h)⟩
        · exact .inr ⟨hst, .inr (.inl (List.mem_singleton.1 h).symm)⟩
      · rcases List.mem_append.1 h with h | h
        · exact .inl ⟨pre, post', rfl, .inr (.inr ⟨r', h⟩)⟩
        · exact .inr ⟨hst, .inr (.inr ⟨r', (List.mem_singleton.1 h).symm⟩)⟩
  · rintro (⟨pre, post, rfl, h⟩ | ⟨h1, h2⟩)
    · refine ⟨pre, post ++ [e], by simp, ?_⟩
      rcases h with h | h | ⟨r', h⟩
      · exact .inl (List.mem_append_left _ h)
      · exact .inr (.inl (List.mem_append_left _ h))
      · exact .inr (.inr ⟨r', List.mem_append_left _ h⟩)
    · obtain ⟨pre, post, rfl⟩ := List.append_of_mem h1
      refine ⟨pre, post ++ [e], by simp, ?_⟩
      rcases h2 with rfl | rfl | ⟨r', rfl⟩
      · exact .inl (by simp)
      · exact .inr (.inl (by simp))
      · exact .inr (.inr ⟨r', by simp⟩)

theorem current_iff {tr : Trace} {s : State} (h : machine.Reach tr s) (r : Nat) :
    s.current = some r ↔ Started tr r ∧ ¬ Stopped tr r := by
  revert r
  refine Machine.Reach.induct (M := machine)
    (P := fun tr s => ∀ r, s.current = some r ↔ Started tr r ∧ ¬ Stopped tr r) ?_ ?_ h
  · intro r
    simp [init, Started]
  · intro tr s op hr i r
    have j := inv_reach hr
    have hc : ∀ r, s.current = some r → r < s.runs.length := by
      intro r hr
      have := j.state.current r hr
      omega
    change (step s op).2.current = some r ↔ Started (tr ++ [(op, (step s op).1)]) r ∧
      ¬ Stopped (tr ++ [(op, (step s op).1)]) r
    rw [stopped_snoc, started_snoc]
    by_cases h1 : op = .start
    · subst h1
      rw [step]
      split
      · simp [i r]
      · have hlen : (cleanup s).runs.length = s.runs.length := by
          have := (cleanup_less (view s)).len
          rw [← view_cleanup] at this
          exact this
        simp only [hlen, Prod.mk.injEq, true_and, Out.run.injEq, Option.some.injEq]
        have hnew : ¬ Started tr s.runs.length := fun h => Nat.lt_irrefl _ ((j.started _).1 h)
        have hold : Stopped tr s.runs.length → Started tr s.runs.length := by
          rintro ⟨pre, post, rfl, -⟩
          unfold Started
          simp
        constructor
        · rintro rfl
          refine ⟨.inr rfl, ?_⟩
          rintro (h | ⟨h, -⟩)
          · exact hnew (hold h)
          · exact hnew h
        · rintro ⟨h2 | h2, h3⟩
          · exact absurd (.inr ⟨h2, .inr (.inr ⟨_, rfl⟩)⟩) h3
          · exact h2
    · by_cases h2 : op = .stop
      · subst h2
        rw [step]
        split
        · simp [i r]
        · simp [cleanup_current s hc]
          exact fun h _ => h
      · by_cases h3 : op = .close
        · subst h3
          rw [step]
          split
          · simp [i r]
          · have := cleanup_current { s with shut := s.shut ++ s.latest.toList } hc
            simp [this]
            exact fun h _ => h
        · rw [step_current j op h1 h2 h3, i r]
          simp [h1, h2, h3]

/-! ## Requests -/

theorem requests_snoc (tr : Trace) (e : Op × Out) (r : Nat) :
    requests (tr ++ [e]) r = requests tr r ++ requests [e] r := by
  unfold requests
  rw [List.filterMap_append]

structure QInv (tr : Trace) (v : View) : Prop where
  fresh : ∀ r, v.runs.length ≤ r → requests tr r = []
  idle : ∀ (r : Nat) (run : Run), v.runs[r]? = some run → run.encoder = .unconfigured → requests tr r = []
  works : ∀ (r : Nat) (run : Run) q st, v.runs[r]? = some run → run.encoder = .working q st →
    (chunks tr r).length ≤ (requests tr r).length ∧
    (requests tr r).drop (chunks tr r).length = q.map (·.key) ∧ requests tr r ≠ []

theorem QInv.keep {tr : Trace} {v v' : View} {op : Op} {o : Out} (i : QInv tr v)
    (hop : ∀ r c, op = .output r c → o = .invalid) (hno : ∀ p k, o ≠ .encoded p k)
    (hlen : v.runs.length ≤ v'.runs.length)
    (hr : ∀ (k : Nat) (x' : Run), v'.runs[k]? = some x' → (∃ x, v.runs[k]? = some x ∧ (x'.encoder = x.encoder ∨
      x'.encoder = .closed)) ∨ (x'.encoder = .unconfigured ∧ v.runs.length ≤ k)) :
    QInv (tr ++ [(op, o)]) v' := by
  have he : ∀ r, requests (tr ++ [(op, o)]) r = requests tr r := by
    intro r
    rw [requests_snoc]
    unfold requests
    cases op <;> cases o <;> first | exact absurd rfl (hno _ _) | simp
  refine ⟨fun r h => ?_, fun r run h1 h2 => ?_, fun r run q st h1 h2 => ?_⟩
  · rw [he]
    exact i.fresh r (by omega)
  · rw [he]
    rcases hr r run h1 with ⟨x, h3, h4⟩ | ⟨h3, h4⟩
    · rcases h4 with h4 | h4
      · exact i.idle r x h3 (by rw [← h4]; exact h2)
      · rw [h4] at h2
        cases h2
    · exact i.fresh r h4
  · rw [he, chunks_same _ _ _ hop]
    rcases hr r run h1 with ⟨x, h3, h4⟩ | ⟨h3, h4⟩
    · rcases h4 with h4 | h4
      · exact i.works r x q st h3 (by rw [← h4]; exact h2)
      · rw [h4] at h2
        cases h2
    · rw [h3] at h2
      cases h2

theorem less_encoder {v v' : View} (h : Less v v') (k : Nat) (x' : Run) (hk : v'.runs[k]? = some x') :
    (∃ x, v.runs[k]? = some x ∧ (x'.encoder = x.encoder ∨ x'.encoder = .closed)) ∨
      (x'.encoder = .unconfigured ∧ v.runs.length ≤ k) := by
  obtain ⟨x, h1, h2⟩ := h.runs k x' hk
  exact .inl ⟨x, h1, h2.imp (·.2) (·.2)⟩

theorem QInv.step {tr : Trace} {s : State} {v' : View} {op : Op} {o : Out} (j : Inv tr s)
    (i : QInv tr (view s)) (e : Eff (view s) op o v') : QInv (tr ++ [(op, o)]) v' := by
  have hun : ∀ (k : Nat) (x : Run), s.runs[k]? = some x → x.encoder = .unconfigured →
      pictures tr k = pending x ∧ chunks tr k = [] := fun k x h1 h2 => j.unconfigured h1 h2
  generalize hv : view s = v at i e
  have hruns : s.runs = v.runs := by rw [← hv]; rfl
  rw [hruns] at hun
  cases e with
  | invalid =>
    exact i.keep (fun _ _ _ => rfl) (fun _ _ h => by cases h) (Nat.le_refl _)
      fun k x a => .inl ⟨x, a, .inl rfl⟩
  | track =>
    exact i.keep (fun _ _ h => by cases h) (fun _ _ h => by cases h) (Nat.le_refl _)
      fun k x a => .inl ⟨x, a, .inl rfl⟩
  | start hc =>
    have l := cleanup_less v
    refine i.keep (fun _ _ h => by cases h) (fun _ _ h => by cases h) (by simp [l.len]) ?_
    intro k x a
    dsimp only at a
    rcases Nat.lt_or_ge k v.cleanup.runs.length with h | h
    · rw [List.getElem?_append_left h] at a
      exact less_encoder l k x a
    · rw [List.getElem?_append_right h] at a
      cases hn : k - v.cleanup.runs.length with
      | zero =>
        rw [hn] at a
        cases a
        exact .inr ⟨rfl, by rw [← l.len]; exact h⟩
      | succ n =>
        rw [hn] at a
        cases a
  | stop hc =>
    have l := cleanup_less v
    exact i.keep (fun _ _ h => by cases h) (fun _ _ h => by cases h) (by simp [l.len])
      fun k x a => less_encoder l k x a
  | close hc =>
    have l := cleanup_less { v with shut := v.shut ++ v.latest.toList }
    exact i.keep (fun _ _ h => by cases h) (fun _ _ h => by cases h) (by simp [l.len])
      fun k x a => less_encoder l k x a
  | ended r run hr hd =>
    have l := exhaust_less hr
    exact i.keep (fun _ _ h => by cases h) (fun _ _ h => by cases h) (by simp [l.len])
      fun k x a => less_encoder l k x a
  | threw r pic ts run hr hp he =>
    have l := finish_less run hr
    exact i.keep (fun _ _ h => by cases h) (fun _ _ h => by cases h) (by simp [l.len])
      fun k x a => less_encoder l k x a
  | dead r ts run hr hd hp he =>
    have l : Less { v.given v.captured ts with captured := v.captured + 1 } _ :=
      finish_less (r := r) (run := run) run hr
    exact i.keep (fun _ _ h => by cases h) (fun _ _ h => by cases h) (by rw [l.len]; exact Nat.le_refl _)
      fun k x a => less_encoder l k x a
  | error r run q st hr he =>
    refine i.keep (fun _ _ h => by cases h) (fun _ _ h => by cases h) (by simp [View.put]) ?_
    intro k x a
    rcases put_get hr k x a with ⟨rfl, rfl⟩ | ⟨-, h⟩
    · exact .inl ⟨run, hr, .inr rfl⟩
    · exact .inl ⟨x, h, .inl rfl⟩
  | first r ts run hr hd hp =>
    refine i.keep (fun _ _ h => by cases h) (fun _ _ h => by cases h) (by simp [View.put]) ?_
    intro k x a
    rcases put_get hr k x a with ⟨rfl, rfl⟩ | ⟨-, h⟩
    · exact .inl ⟨run, hr, .inl rfl⟩
    · exact .inl ⟨x, h, .inl rfl⟩
  | encode r ts run q st hr hd hp he =>
    have hlt := (List.getElem?_eq_some_iff.1 hr).1
    have hreq : ∀ k, requests (tr ++ [(.picture r ts, .encoded v.captured (decide (v.timestamp + GOP < ts)))]) k =
        requests tr k ++ if r = k then [decide (v.timestamp + GOP < ts)] else [] := by
      intro k
      rw [requests_snoc]
      congr 1
      by_cases h : r = k <;> simp [requests, h]
    have hch := chunks_same tr (.picture r ts) (.encoded v.captured (decide (v.timestamp + GOP < ts)))
      fun _ _ h => by cases h
    refine ⟨fun k h => ?_, fun k x h1 h2 => ?_, fun k x q' st' h1 h2 => ?_⟩
    · have : v.runs.length ≤ k := by simpa [View.put, View.given] using h
      rw [hreq, if_neg (by omega), i.fresh k this]
      rfl
    · rcases put_get (v := { v.given v.captured ts with captured := v.captured + 1 }) hr k x h1 with
        ⟨rfl, rfl⟩ | ⟨hk, h⟩
      · cases h2
      · rw [hreq, if_neg (Ne.symm hk), i.idle k x h h2]
        rfl
    · rw [hch]
      rcases put_get (v := { v.given v.captured ts with captured := v.captured + 1 }) hr k x h1 with
        ⟨rfl, rfl⟩ | ⟨hk, h⟩
      · cases h2
        obtain ⟨a, b, -⟩ := i.works k run q st hr he
        rw [hreq, if_pos rfl, List.drop_append_of_le_length a, b]
        refine ⟨?_, by simp, by simp⟩
        simp only [List.length_append]
        omega
      · rw [hreq, if_neg (Ne.symm hk), List.append_nil]
        exact i.works k x q' st' h h2
  | done r pic ts run hr hp he hd =>
    have hlt := (List.getElem?_eq_some_iff.1 hr).1
    have l : Less (v.given pic ts) ((v.given pic ts).finish r run) := finish_less (r := r) (run := run) run hr
    have hreq : ∀ k, requests (tr ++ [(.config r true, .encoded pic (decide (v.timestamp + GOP < ts)))]) k =
        requests tr k ++ if r = k then [decide (v.timestamp + GOP < ts)] else [] := by
      intro k
      rw [requests_snoc]
      congr 1
      by_cases h : r = k <;> simp [requests, h]
    have hch := chunks_same tr (.config r true) (.encoded pic (decide (v.timestamp + GOP < ts)))
      fun _ _ h => by cases h
    refine ⟨fun k h => ?_, fun k x h1 h2 => ?_, fun k x q' st' h1 h2 => ?_⟩
    · have : v.runs.length ≤ k := by
        rw [l.len] at h
        exact h
      rw [hreq, if_neg (by omega), i.fresh k this]
      rfl
    · rcases put_get (v := v.given pic ts) hr k x h1 with ⟨rfl, rfl⟩ | ⟨hk, h⟩
      · cases h2
      · rw [hreq, if_neg (Ne.symm hk), i.idle k x h h2]
        rfl
    · rw [hch]
      rcases put_get (v := v.given pic ts) hr k x h1 with ⟨rfl, rfl⟩ | ⟨hk, h⟩
      · cases h2
      · rw [hreq, if_neg (Ne.symm hk), List.append_nil]
        exact i.works k x q' st' h h2
  | configured r pic ts run hr hp he hd =>
    have hlt := (List.getElem?_eq_some_iff.1 hr).1
    have hreq : ∀ k, requests (tr ++ [(.config r true, .encoded pic (decide (v.timestamp + GOP < ts)))]) k =
        requests tr k ++ if r = k then [decide (v.timestamp + GOP < ts)] else [] := by
      intro k
      rw [requests_snoc]
      congr 1
      by_cases h : r = k <;> simp [requests, h]
    have hch := chunks_same tr (.config r true) (.encoded pic (decide (v.timestamp + GOP < ts)))
      fun _ _ h => by cases h
    refine ⟨fun k h => ?_, fun k x h1 h2 => ?_, fun k x q' st' h1 h2 => ?_⟩
    · have : v.runs.length ≤ k := by simpa [View.put, View.given] using h
      rw [hreq, if_neg (by omega), i.fresh k this]
      rfl
    · rcases put_get (v := v.given pic ts) hr k x h1 with ⟨rfl, rfl⟩ | ⟨hk, h⟩
      · cases h2
      · rw [hreq, if_neg (Ne.symm hk), i.idle k x h h2]
        rfl
    · rw [hch]
      rcases put_get (v := v.given pic ts) hr k x h1 with ⟨rfl, rfl⟩ | ⟨hk, h⟩
      · cases h2
        rw [hreq, if_pos rfl, i.idle k run hr he, (hun k run hr he).2]
        simp
      · rw [hreq, if_neg (Ne.symm hk), List.append_nil]
        exact i.works k x q' st' h h2
  | output r run c q qs st _ hr he ht hk ho =>
    have hne : o ≠ .invalid := by
      rcases ho with ⟨g, h⟩ | h <;> rw [h] <;> simp
    have hreq : ∀ k, requests (tr ++ [(.output r c, o)]) k = requests tr k := by
      intro k
      rw [requests_snoc]
      unfold requests
      simp
    refine ⟨fun k h => ?_, fun k x h1 h2 => ?_, fun k x q' st' h1 h2 => ?_⟩
    · rw [hreq]
      exact i.fresh k (by simpa [View.put] using h)
    · rw [hreq]
      rcases put_get hr k x h1 with ⟨rfl, rfl⟩ | ⟨hk, h⟩
      · cases h2
      · exact i.idle k x h h2
    · rw [hreq, chunks_snoc]
      dsimp only
      rcases put_get hr k x h1 with ⟨rfl, rfl⟩ | ⟨hk, h⟩
      · cases h2
        rw [if_pos ⟨rfl, hne⟩]
        obtain ⟨a, b, d⟩ := i.works k run _ st hr he
        have hl := congrArg List.length b
        simp only [List.length_drop, List.length_map, List.length_cons] at hl
        rw [List.length_append, List.length_singleton]
        refine ⟨by omega, ?_, d⟩
        rw [← List.drop_drop, b]
        rfl
      · rw [if_neg (fun h => hk h.1.symm), List.append_nil]
        exact i.works k x q' st' h h2

theorem qinv_reach {tr : Trace} {s : State} (h : machine.Reach tr s) : QInv tr (view s) := by
  refine Machine.Reach.induct (M := machine) (P := fun tr s => QInv tr (view s)) ?_ ?_ h
  · refine ⟨fun r _ => rfl, fun r run h => ?_, fun r run q st h => ?_⟩ <;> simp [view, init] at h
  · intro tr s op hr i
    exact i.step (inv_reach hr) (step_eff (inv_reach hr) op)

/-! ## How runs end -/

structure HRun (tr : Trace) (r : Nat) (run : Run) : Prop where
  ended : Ended tr r → run.done = true
  done : run.done = true → Ended tr r ∨ Stopped tr r
  errored : Errored tr r → run.encoder = .closed
  refused : ∀ p, Refused tr r p → run.phase = .over
  over : run.phase = .over → Ended tr r ∨ Stopped tr r ∨ Errored tr r ∨ ∃ p, Refused tr r p
  closed : run.encoder = .closed → run.phase = .over ∨ Errored tr r
  settled : Settled tr r → run.encoder ≠ .unconfigured
  waits : ∀ p ts, run.phase = .config p ts → (.picture r ts, .captured p) ∈ tr

structure HInv (tr : Trace) (v : View) : Prop where
  fresh : ∀ r, v.runs.length ≤ r → ¬ Ended tr r ∧ ¬ Errored tr r ∧ ¬ Settled tr r
  run : ∀ (r : Nat) (run : Run), v.runs[r]? = some run → HRun tr r run
  count : ∀ p, Captured tr p ↔ p < v.captured

theorem settled_snoc (tr : Trace) (e : Op × Out) (r : Nat) :
    Settled (tr ++ [e]) r ↔ Settled tr r ∨ ∃ ok o, e = (.config r ok, o) ∧ o ≠ .invalid := by
  unfold Settled
  constructor
  · rintro ⟨ok, o, h1, h2⟩
    rcases List.mem_append.1 h1 with h | h
    · exact .inl ⟨ok, o, h, h2⟩
    · exact .inr ⟨ok, o, (List.mem_singleton.1 h).symm, h2⟩
  · rintro (⟨ok, o, h1, h2⟩ | ⟨ok, o, rfl, h2⟩)
    · exact ⟨ok, o, List.mem_append_left _ h1, h2⟩
    · exact ⟨ok, o, by simp, h2⟩

theorem ended_snoc (tr : Trace) (e : Op × Out) (r : Nat) :
    Ended (tr ++ [e]) r ↔ Ended tr r ∨ e = (.ended r, .ok) := by
  unfold Ended
  rw [List.mem_append, List.mem_singleton]
  exact or_congr_right eq_comm

theorem refused_snoc (tr : Trace) (e : Op × Out) (r p : Nat) :
    Refused (tr ++ [e]) r p ↔ Refused tr r p ∨ e = (.config r false, .failed p) := by
  unfold Refused
  rw [List.mem_append, List.mem_singleton]
  exact or_congr_right eq_comm

theorem captured_snoc (tr : Trace) (e : Op × Out) (p : Nat) :
    Captured (tr ++ [e]) p ↔ Captured tr p ∨
      ∃ r ts o, e = (.picture r ts, o) ∧ (o = .captured p ∨ (∃ k, o = .encoded p k) ∨ o = .failed p) := by
  unfold Captured
  constructor
  · rintro ⟨r, ts, o, h1, h2⟩
    rcases List.mem_append.1 h1 with h | h
    · exact .inl ⟨r, ts, o, h, h2⟩
    · exact .inr ⟨r, ts, o, (List.mem_singleton.1 h).symm, h2⟩
  · rintro (⟨r, ts, o, h1, h2⟩ | ⟨r, ts, o, rfl, h2⟩)
    · exact ⟨r, ts, o, List.mem_append_left _ h1, h2⟩
    · exact ⟨r, ts, o, by simp, h2⟩

/-- An entry that is not about the end of run `r`. -/
def Other (r : Nat) (e : Op × Out) : Prop :=
  e ≠ (.ended r, .ok) ∧ e ≠ (.error r, .ok) ∧ ∀ ok o, e = (.config r ok, o) → o = .invalid

theorem HRun.keep {tr : Trace} {r : Nat} {run : Run} (i : HRun tr r run) {e : Op × Out} (h : Other r e) :
    HRun (tr ++ [e]) r run := by
  obtain ⟨h1, h2, h3⟩ := h
  have a1 : Ended (tr ++ [e]) r ↔ Ended tr r := by rw [ended_snoc]; simp [h1]
  have a2 : Errored (tr ++ [e]) r ↔ Errored tr r := by rw [errored_snoc]; simp [h2]
  have a3 : Settled (tr ++ [e]) r ↔ Settled tr r := by
    rw [settled_snoc]
    refine ⟨fun h => h.elim id ?_, .inl⟩
    rintro ⟨ok, o, he, ho⟩
    exact absurd (h3 ok o he) ho
  have a4 : ∀ p, Refused (tr ++ [e]) r p ↔ Refused tr r p := by
    intro p
    rw [refused_snoc]
    refine ⟨fun h => h.elim id fun he => ?_, .inl⟩
    cases h3 _ _ he
  have a5 : Stopped tr r → Stopped (tr ++ [e]) r := fun h => (stopped_snoc ..).2 (.inl h)
  refine ⟨fun h => i.ended (a1.1 h), fun h => (i.done h).imp a1.2 a5, fun h => i.errored (a2.1 h),
    fun p h => i.refused p ((a4 p).1 h), fun h => ?_, fun h => (i.closed h).imp id a2.2,
    fun h => i.settled (a3.1 h), fun p ts h => List.mem_append_left _ (i.waits p ts h)⟩
  rcases i.over h with h | h | h | ⟨p, h⟩
  · exact .inl (a1.2 h)
  · exact .inr (.inl (a5 h))
  · exact .inr (.inr (.inl (a2.2 h)))
  · exact .inr (.inr (.inr ⟨p, (a4 p).2 h⟩))

/-- A run that has no more pictures. -/
theorem HRun.exhaust {tr : Trace} {r : Nat} {run run' : Run} (i : HRun tr r run)
    (hd : run'.done = true) (h : Ended tr r ∨ Stopped tr r)
    (hrun : (run'.phase = .over ∧ run'.encoder = .closed) ∨
      (run'.phase = run.phase ∧ run'.encoder = run.encoder)) : HRun tr r run' := by
  have hover : Ended tr r ∨ Stopped tr r ∨ Errored tr r ∨ ∃ p, Refused tr r p :=
    h.elim .inl fun h => .inr (.inl h)
  rcases hrun with ⟨h1, h2⟩ | ⟨h1, h2⟩
  · exact ⟨fun _ => hd, fun _ => h, fun _ => h2, fun _ _ => h1, fun _ => hover, fun _ => .inl h1,
      fun _ => by rw [h2]; simp, fun p ts hp => by rw [h1] at hp; cases hp⟩
  · refine ⟨fun _ => hd, fun _ => h, ?_, ?_, fun _ => hover, ?_, ?_, ?_⟩
    · rw [h2]
      exact i.errored
    · rw [h1]
      exact i.refused
    · rw [h1, h2]
      exact i.closed
    · rw [h2]
      exact i.settled
    · rw [h1]
      exact i.waits

/-- What `exhaust` makes of the runs. -/
theorem exhaust_get {v : View} {r : Nat} {run : Run} (hr : v.runs[r]? = some run) (k : Nat) (x : Run)
    (h : (v.exhaust r run).runs[k]? = some x) :
    (k ≠ r ∧ v.runs[k]? = some x) ∨ (k = r ∧ x.done = true ∧ ((x.phase = .over ∧ x.encoder = .closed) ∨
      (x.phase = run.phase ∧ x.encoder = run.encoder))) := by
  have hf : ∀ run', (v.finish r run').runs[k]? = some x → run'.done = true → (k ≠ r ∧ v.runs[k]? = some x) ∨
      (k = r ∧ x.done = true ∧ ((x.phase = .over ∧ x.encoder = .closed) ∨
      (x.phase = run.phase ∧ x.encoder = run.encoder))) := by
    intro run' h hd
    rcases put_get hr k x h with ⟨h1, rfl⟩ | h
    · exact .inr ⟨h1, hd, .inl ⟨rfl, rfl⟩⟩
    · exact .inl h
  unfold View.exhaust at h
  split at h
  · exact hf _ h rfl
  · exact hf _ h rfl
  · rcases put_get hr k x h with ⟨h1, rfl⟩ | h
    · exact .inr ⟨h1, rfl, .inr ⟨rfl, rfl⟩⟩
    · exact .inl h

/-- What a cleanup makes of the runs. -/
theorem HInv.cleanup {tr : Trace} {v : View} {e : Op × Out} (i : HInv tr v) (hcur : ∀ r, v.current = some r → Started tr r)
    (he : e = (.stop, .ok) ∨ e = (.close, .ok) ∨ ∃ r', e = (.start, .run r')) (k : Nat) (x : Run)
    (h : v.cleanup.runs[k]? = some x) : HRun (tr ++ [e]) k x := by
  have hot : ∀ k, Other k e := by
    intro k
    rcases he with rfl | rfl | ⟨r', rfl⟩ <;> exact ⟨by simp, by simp, fun _ _ h => by cases h⟩
  unfold View.cleanup at h
  split at h
  · next r hc =>
    split at h
    · next run hr =>
      rcases exhaust_get hr k x h with ⟨-, h1⟩ | ⟨rfl, h1, h2⟩
      · exact (i.run k x h1).keep (hot k)
      · exact ((i.run k run hr).keep (hot k)).exhaust h1
          (.inr ((stopped_snoc ..).2 (.inr ⟨hcur _ hc, he⟩))) h2
    · exact (i.run k x h).keep (hot k)
  · exact (i.run k x h).keep (hot k)

theorem HInv.step {tr : Trace} {s : State} {v' : View} {op : Op} {o : Out} (hs : machine.Reach tr s)
    (i : HInv tr (view s)) (e : Eff (view s) op o v') : HInv (tr ++ [(op, o)]) v' := by
  have j := inv_reach hs
  have hcur : ∀ r, s.current = some r → Started tr r := fun r h => ((current_iff hs r).1 h).1
  have hencoder : ∀ (r : Nat) (run : Run), s.runs[r]? = some run → run.phase = .first →
      run.encoder = .unconfigured := by
    intro r run hr hph
    obtain ⟨t, gs, ls, ht, x⟩ := j.state.both hr
    have hp := x.run.phase
    cases he : run.encoder with
    | unconfigured => rfl
    | working q st => simp [he, hph] at hp
    | closed => simp [he, hph] at hp
  have hwork : ∀ (r : Nat) (run : Run) q st, s.runs[r]? = some run → run.encoder = .working q st →
      run.phase = .loop := by
    intro r run q st hr he
    obtain ⟨t, gs, ls, ht, x⟩ := j.state.both hr
    have hp := x.run.phase
    rw [he] at hp
    exact hp.1
  generalize hv : view s = v at i e
  have hruns : s.runs = v.runs := by rw [← hv]; rfl
  have hcurr : s.current = v.current := by rw [← hv]; rfl
  rw [hcurr] at hcur
  rw [hruns] at hencoder hwork
  have hcount : ∀ (op : Op) (o : Out), (∀ r ts, op = .picture r ts → o = .invalid) → ∀ p,
      Captured (tr ++ [(op, o)]) p ↔ p < v.captured := by
    intro op o h p
    rw [captured_snoc, i.count]
    refine ⟨fun h' => h'.elim id ?_, .inl⟩
    rintro ⟨r, ts, o', h1, h2⟩
    cases h1
    rw [h r ts rfl] at h2
    simp at h2
  have hcount' : ∀ (r : Nat) (ts : Int) (o : Out), (o = .captured v.captured ∨ (∃ k, o = .encoded v.captured k) ∨
      o = .failed v.captured) → ∀ p, Captured (tr ++ [(.picture r ts, o)]) p ↔ p < v.captured + 1 := by
    intro r ts o h p
    rw [captured_snoc, i.count]
    constructor
    · rintro (h' | ⟨r', ts', o', h1, h2⟩)
      · omega
      · cases h1
        rcases h with rfl | ⟨k, rfl⟩ | rfl <;> simp at h2 <;> omega
    · intro hp
      by_cases hlt : p < v.captured
      · exact .inl hlt
      · have : p = v.captured := by omega
        subst this
        exact .inr ⟨r, ts, o, rfl, h⟩
  have hfresh : ∀ (e : Op × Out) r, v.runs.length ≤ r → Other r e →
      ¬ Ended (tr ++ [e]) r ∧ ¬ Errored (tr ++ [e]) r ∧ ¬ Settled (tr ++ [e]) r := by
    intro e r hr ⟨h1, h2, h3⟩
    obtain ⟨f1, f2, f3⟩ := i.fresh r hr
    rw [ended_snoc, errored_snoc, settled_snoc]
    refine ⟨by simp [f1, h1], by simp [f2, h2], ?_⟩
    rintro (h | ⟨ok, o, he, ho⟩)
    · exact f3 h
    · exact ho (h3 ok o he)
  cases e with
  | invalid =>
    have hot : ∀ r, Other r (op, Out.invalid) := fun r => ⟨by simp, by simp, fun _ _ h => by cases h; rfl⟩
    exact ⟨fun r h => hfresh _ r h (hot r), fun r run h => (i.run r run h).keep (hot r),
      hcount _ _ fun _ _ _ => rfl⟩
  | track r t o' =>
    have hot : ∀ k, Other k (Op.track r t, Out.track o') := fun r => ⟨by simp, by simp, fun _ _ h => by cases h⟩
    exact ⟨fun r h => hfresh _ r h (hot r), fun r run h => (i.run r run h).keep (hot r),
      hcount _ _ fun _ _ h => by cases h⟩
  | start hc =>
    have l := cleanup_less v
    have hot : ∀ k, Other k (Op.start, Out.run v.cleanup.runs.length) :=
      fun r => ⟨by simp, by simp, fun _ _ h => by cases h⟩
    refine ⟨fun r h => hfresh _ r ?_ (hot r), fun k x a => ?_, fun p => ?_⟩
    · simp only [List.length_append, l.len] at h
      omega
    · dsimp only at a
      rcases Nat.lt_or_ge k v.cleanup.runs.length with h | h
      · rw [List.getElem?_append_left h] at a
        exact i.cleanup hcur (.inr (.inr ⟨_, rfl⟩)) k x a
      · rw [List.getElem?_append_right h] at a
        cases hn : k - v.cleanup.runs.length with
        | zero =>
          rw [hn] at a
          cases a
          obtain ⟨f1, f2, f3⟩ := hfresh _ k (by rw [← l.len]; exact h) (hot k)
          refine ⟨fun h => absurd h f1, fun h => (by cases h), fun h => absurd h f2, fun p h => ?_,
            fun h => (by cases h), fun h => (by cases h), fun h => absurd h f3, fun p ts h => by cases h⟩
          exact absurd ⟨false, .failed p, h, by simp⟩ f3
        | succ n =>
          rw [hn] at a
          cases a
    · rw [hcount _ _ fun _ _ h => by cases h]
      dsimp only
      rw [l.captured]
  | stop hc =>
    have l := cleanup_less v
    have hot : ∀ k, Other k (Op.stop, Out.ok) := fun r => ⟨by simp, by simp, fun _ _ h => by cases h⟩
    refine ⟨fun r h => hfresh _ r (by rw [l.len] at h; exact h) (hot r),
      fun k x a => i.cleanup hcur (.inl rfl) k x a, fun p => ?_⟩
    rw [hcount _ _ (fun _ _ h => by cases h), l.captured]
  | close hc =>
    have l := cleanup_less { v with shut := v.shut ++ v.latest.toList }
    have hot : ∀ k, Other k (Op.close, Out.ok) := fun r => ⟨by simp, by simp, fun _ _ h => by cases h⟩
    refine ⟨fun r h => hfresh _ r (by dsimp only at h; rw [l.len] at h; exact h) (hot r),
      fun k x a => HInv.cleanup (v := { v with shut := v.shut ++ v.latest.toList }) ⟨i.fresh, i.run, i.count⟩ hcur
        (.inr (.inl rfl)) k x a, fun p => ?_⟩
    rw [hcount _ _ fun _ _ h => by cases h]
    dsimp only
    rw [l.captured]
  | ended r run hr hd =>
    have l := exhaust_less hr
    have hlt := (List.getElem?_eq_some_iff.1 hr).1
    have hot : ∀ k, k ≠ r → Other k (Op.ended r, Out.ok) :=
      fun k hk => ⟨by simp [Ne.symm hk], by simp, fun _ _ h => by cases h⟩
    refine ⟨fun k h => hfresh _ k (by rw [l.len] at h; exact h) (hot k (by rw [l.len] at h; omega)),
      fun k x a => ?_, fun p => ?_⟩
    · rcases exhaust_get hr k x a with ⟨hk, h1⟩ | ⟨rfl, h1, h2⟩
      · exact (i.run k x h1).keep (hot k hk)
      · have he : Ended (tr ++ [(.ended k, .ok)]) k := (ended_snoc ..).2 (.inr rfl)
        have i0 := i.run k run hr
        have hno := HRun.exhaust (tr := tr ++ [(.ended k, .ok)]) (run := { run with done := true })
          (run' := x) ⟨fun _ => rfl, fun _ => .inl he, fun h => ?_, fun p h => ?_, fun _ => .inl he,
            fun h => ?_, fun h => ?_, fun p ts h => ?_⟩ h1 (.inl he) h2
        · exact hno
        · rw [errored_snoc] at h
          exact i0.errored (h.elim id fun h => by cases h)
        · rw [refused_snoc] at h
          exact i0.refused p (h.elim id fun h => by cases h)
        · rw [errored_snoc]
          exact (i0.closed h).imp id .inl
        · rw [settled_snoc] at h
          exact i0.settled (h.elim id fun ⟨_, _, h, _⟩ => by cases h)
        · exact List.mem_append_left _ (i0.waits p ts h)
    · rw [hcount _ _ (fun _ _ h => by cases h), l.captured]
  | error r run q st hr he =>
    have hlt := (List.getElem?_eq_some_iff.1 hr).1
    have hot : ∀ k, k ≠ r → Other k (Op.error r, Out.ok) :=
      fun k hk => ⟨by simp, by simp [Ne.symm hk], fun _ _ h => by cases h⟩
    refine ⟨fun k h => ?_, fun k x a => ?_, hcount _ _ fun _ _ h => by cases h⟩
    · have h' : v.runs.length ≤ k := by simpa [View.put] using h
      exact hfresh _ k h' (hot k (by omega))
    · rcases put_get hr k x a with ⟨rfl, rfl⟩ | ⟨hk, h⟩
      · have i0 := i.run k run hr
        have he : Errored (tr ++ [(.error k, .ok)]) k := (errored_snoc ..).2 (.inr rfl)
        refine ⟨fun h => ?_, fun h => ?_, fun _ => rfl, fun p h => ?_, fun _ => .inr (.inr (.inl he)),
          fun _ => .inr he, fun _ => by simp, fun p ts h => List.mem_append_left _ (i0.waits p ts h)⟩
        · rw [ended_snoc] at h
          exact i0.ended (h.elim id fun h => by cases h)
        · rw [ended_snoc, stopped_snoc]
          exact (i0.done h).imp .inl .inl
        · rw [refused_snoc] at h
          exact i0.refused p (h.elim id fun h => by cases h)
      · exact (i.run k x h).keep (hot k hk)
  | first r ts run hr hd hp =>
    have hot : ∀ k, Other k (Op.picture r ts, Out.captured v.captured) :=
      fun r => ⟨by simp, by simp, fun _ _ h => by cases h⟩
    refine ⟨fun k h => hfresh _ k (by simpa [View.put] using h) (hot k), fun k x a => ?_,
      hcount' r ts _ (.inl rfl)⟩
    rcases put_get hr k x a with ⟨rfl, rfl⟩ | ⟨hk, h⟩
    · have i0 := (i.run k run hr).keep (hot k)
      have he := hencoder k run hr hp
      refine ⟨i0.ended, i0.done, i0.errored, fun p h => ?_, fun h => (by cases h), fun h => ?_, i0.settled, ?_⟩
      · exact absurd he (i0.settled ⟨false, .failed p, h, by simp⟩)
      · rw [show run.encoder = .closed from h] at he
        cases he
      · intro p ts' h
        cases h
        simp
    · exact (i.run k x h).keep (hot k)
  | encode r ts run q st hr hd hp he =>
    have hot : ∀ k, Other k (Op.picture r ts, Out.encoded v.captured (decide (v.timestamp + GOP < ts))) :=
      fun r => ⟨by simp, by simp, fun _ _ h => by cases h⟩
    refine ⟨fun k h => hfresh _ k (by simpa [View.put, View.given] using h) (hot k), fun k x a => ?_,
      hcount' r ts _ (.inr (.inl ⟨_, rfl⟩))⟩
    rcases put_get (v := { v.given v.captured ts with captured := v.captured + 1 }) hr k x a with
      ⟨rfl, rfl⟩ | ⟨hk, h⟩
    · have i0 := (i.run k run hr).keep (hot k)
      refine ⟨i0.ended, i0.done, fun h => ?_, i0.refused, i0.over, fun h => (by cases h), fun _ => by simp,
        i0.waits⟩
      have := i0.errored h
      rw [he] at this
      cases this
    · exact (i.run k x h).keep (hot k)
  | dead r ts run hr hd hp he =>
    have hot : ∀ k, Other k (Op.picture r ts, Out.failed v.captured) :=
      fun r => ⟨by simp, by simp, fun _ _ h => by cases h⟩
    have l : Less { v.given v.captured ts with captured := v.captured + 1 } _ :=
      finish_less (r := r) (run := run) run hr
    refine ⟨fun k h => hfresh _ k (by rw [l.len] at h; exact h) (hot k), fun k x a => ?_, fun p => ?_⟩
    · rcases put_get (v := { v.given v.captured ts with captured := v.captured + 1 }) hr k x a with
        ⟨rfl, rfl⟩ | ⟨hk, h⟩
      · have i0 := (i.run k run hr).keep (hot k)
        have hov : Errored (tr ++ [(Op.picture k ts, Out.failed v.captured)]) k := by
          refine (i0.closed he).elim (fun h => ?_) id
          rw [hp] at h
          cases h
        exact ⟨i0.ended, i0.done, fun _ => rfl, fun _ _ => rfl, fun _ => .inr (.inr (.inl hov)), fun _ => .inl rfl,
          fun _ => by simp, fun p ts h => by cases h⟩
      · exact (i.run k x h).keep (hot k)
    · rw [hcount' r ts _ (.inr (.inr rfl)), l.captured]
  | threw r pic ts run hr hp he =>
    have hlt := (List.getElem?_eq_some_iff.1 hr).1
    have l := finish_less run hr
    have hot : ∀ k, k ≠ r → Other k (Op.config r false, Out.failed pic) :=
      fun k hk => ⟨by simp, by simp, fun _ _ h => by cases h; exact absurd rfl hk⟩
    refine ⟨fun k h => hfresh _ k (by rw [l.len] at h; exact h) (hot k (by rw [l.len] at h; omega)),
      fun k x a => ?_, fun p => ?_⟩
    · rcases put_get hr k x a with ⟨rfl, rfl⟩ | ⟨hk, h⟩
      · have i0 := i.run k run hr
        refine ⟨fun h => ?_, fun h => ?_, fun _ => rfl, fun _ _ => rfl, fun _ => .inr (.inr (.inr ⟨pic, by simp [Refused]⟩)),
          fun _ => .inl rfl, fun _ => by simp, fun p ts h => by cases h⟩
        · rw [ended_snoc] at h
          exact i0.ended (h.elim id fun h => by cases h)
        · rw [ended_snoc, stopped_snoc]
          exact (i0.done h).imp .inl .inl
      · exact (i.run k x h).keep (hot k hk)
    · rw [hcount _ _ (fun _ _ h => by cases h), l.captured]
  | done r pic ts run hr hp he hd =>
    have hlt := (List.getElem?_eq_some_iff.1 hr).1
    have l : Less (v.given pic ts) ((v.given pic ts).finish r run) := finish_less (r := r) (run := run) run hr
    have hot : ∀ k, k ≠ r → Other k (Op.config r true, Out.encoded pic (decide (v.timestamp + GOP < ts))) :=
      fun k hk => ⟨by simp, by simp, fun _ _ h => by cases h; exact absurd rfl hk⟩
    refine ⟨fun k h => hfresh _ k (by rw [l.len] at h; exact h) (hot k ?_), fun k x a => ?_, fun p => ?_⟩
    · rw [l.len] at h
      have h' : v.runs.length ≤ k := h
      omega
    · rcases put_get (v := v.given pic ts) hr k x a with ⟨rfl, rfl⟩ | ⟨hk, h⟩
      · have i0 := i.run k run hr
        have hdone : Ended (tr ++ [(Op.config k true, Out.encoded pic (decide (v.timestamp + GOP < ts)))]) k ∨
            Stopped (tr ++ [(Op.config k true, Out.encoded pic (decide (v.timestamp + GOP < ts)))]) k := by
          rw [ended_snoc, stopped_snoc]
          exact (i0.done hd).imp .inl .inl
        exact ⟨fun _ => hd, fun _ => hdone, fun _ => rfl, fun _ _ => rfl, fun _ => hdone.imp id .inl,
          fun _ => .inl rfl, fun _ => by simp, fun p ts h => by cases h⟩
      · exact (i.run k x h).keep (hot k hk)
    · rw [hcount _ _ (fun _ _ h => by cases h), l.captured]
      rfl
  | configured r pic ts run hr hp he hd =>
    have hlt := (List.getElem?_eq_some_iff.1 hr).1
    have hot : ∀ k, k ≠ r → Other k (Op.config r true, Out.encoded pic (decide (v.timestamp + GOP < ts))) :=
      fun k hk => ⟨by simp, by simp, fun _ _ h => by cases h; exact absurd rfl hk⟩
    refine ⟨fun k h => ?_, fun k x a => ?_, hcount _ _ fun _ _ h => by cases h⟩
    · have h' : v.runs.length ≤ k := by simpa [View.put, View.given] using h
      exact hfresh _ k h' (hot k (by omega))
    · rcases put_get (v := v.given pic ts) hr k x a with ⟨rfl, rfl⟩ | ⟨hk, h⟩
      · have i0 := i.run k run hr
        refine ⟨fun h => ?_, fun h => ?_, fun h => ?_, fun p h => ?_, fun h => (by cases h),
          fun h => (by cases h), fun _ => by simp, fun p ts h => by cases h⟩
        · rw [ended_snoc] at h
          exact i0.ended (h.elim id fun h => by cases h)
        · rw [show run.done = true from h] at hd
          cases hd
        · rw [errored_snoc] at h
          have := i0.errored (h.elim id fun h => by cases h)
          rw [he] at this
          cases this
        · rw [refused_snoc] at h
          have := i0.refused p (h.elim id fun h => by cases h)
          rw [hp] at this
          cases this
      · exact (i.run k x h).keep (hot k hk)
  | output r run c q qs st _ hr he ht hk ho =>
    have hot : ∀ k, Other k (Op.output r c, o) := fun r => ⟨by simp, by simp, fun _ _ h => by cases h⟩
    refine ⟨fun k h => hfresh _ k (by simpa [View.put] using h) (hot k), fun k x a => ?_,
      hcount _ _ fun _ _ h => by cases h⟩
    rcases put_get hr k x a with ⟨rfl, rfl⟩ | ⟨hk, h⟩
    · have i0 := (i.run k run hr).keep (hot k)
      refine ⟨i0.ended, i0.done, fun h => ?_, i0.refused, i0.over, fun h => (by cases h), fun _ => by simp,
        i0.waits⟩
      have := i0.errored h
      rw [he] at this
      cases this
    · exact (i.run k x h).keep (hot k)

theorem hinv_reach {tr : Trace} {s : State} (h : machine.Reach tr s) : HInv tr (view s) := by
  refine Machine.Reach.induct (M := machine) (P := fun tr s => HInv tr (view s)) ?_ ?_ h
  · refine ⟨fun r _ => ⟨by simp [Ended], by simp [Errored], by simp [Settled]⟩, fun r run h => ?_, fun p => ?_⟩
    · simp [view, init] at h
    · simp [Captured, view, init]
  · intro tr s op hr i
    exact i.step hr (step_eff (inv_reach hr) op)

end Verif.Js.Capture
