import Verif.Gst.Sink
import Verif.Props.Import

/-!
# C126: the sink element of GStreamer

What was given to the element since it was started is taken from the history.
-/

set_option autoImplicit false

namespace Verif.Props.GstSink

open Verif Verif.Hang.Import Verif.Gst.Sink

variable {Atom Err σ : Type}

/-! ## Specification -/

structure Hist where
  url : Bool
  /-- a start panicked -/
  stuck : Bool
  /-- a start or a buffer panicked -/
  dead : Bool
  started : Bool
  starts : Nat
  /-- the last start, unless a buffer panicked since, and the buffers since -/
  sent : Option (Nat × List Bytes)
  deriving DecidableEq

def see (h : Hist) (e : Op × Out σ) : Hist :=
  match e with
  | (.setUrl b, .ok) => { h with url := b }
  | (.start _, .ok) => { h with started := true, starts := h.starts + 1, sent := some (h.starts + 1, []) }
  | (.start _, .panicked) => { h with dead := true, stuck := true }
  | (.stop, .ok) => { h with started := false }
  | (.stop, .failed) => { h with started := false }
  | (.render (some d), .ok) => { h with sent := h.sent.map fun x => (x.1, x.2 ++ [d]) }
  | (.render _, .panicked) => { h with dead := true, sent := none }
  | _ => h

def hist (tr : Trace σ) : Hist := tr.foldl see ⟨false, false, false, false, 0, none⟩

theorem hist_snoc (tr : Trace σ) (e : Op × Out σ) : hist (tr ++ [e]) = see (hist tr) e := by simp [hist]

/-! ## Invariant -/

/-- The importer is where the buffers have brought it. -/
def Fits (P : Params Atom Err σ) (new : σ) : Option (Nat × List Bytes) → Option (Media σ) → Prop
  | none, none => True
  | some x, some m => m.id = x.1 ∧ feed P ([], new) x.2 = (none, m.buffer, m.imported)
  | _, _ => False

structure Inv (P : Params Atom Err σ) (new : σ) (tr : Trace σ) (s : State σ) : Prop where
  url : (hist tr).url = s.url
  stuck : (hist tr).stuck = s.poisoned
  dead : (hist tr).dead = s.dead
  started : (hist tr).started = s.started
  starts : (hist tr).starts = s.starts
  media : Fits P new (hist tr).sent s.media
  there : s.started = true → s.dead = false → s.media.isSome = true

theorem feed_snoc (P : Params Atom Err σ) (ds : List Bytes) (d : Bytes) (x y : Bytes × σ) (h : feed P x ds = (none, y)) :
    feed P x (ds ++ [d]) = parse P y d := by
  induction ds generalizing x with
  | nil =>
    simp only [feed, Prod.mk.injEq, true_and] at h
    subst h
    simp only [List.nil_append, feed]
    split <;> simp_all
  | cons e ds ih =>
    simp only [feed] at h
    simp only [List.cons_append, feed]
    split at h
    · cases h
    · rename_i heq
      exact ih _ h

theorem inv_init (P : Params Atom Err σ) (new : σ) : Inv P new [] (init : State σ) :=
  ⟨rfl, rfl, rfl, rfl, rfl, trivial, fun h => nomatch h⟩

theorem inv_step (P : Params Atom Err σ) (new : σ) (tr : Trace σ) (s : State σ) (op : Op) (v : Inv P new tr s) :
    Inv P new (tr ++ [(op, (step P new s op).1)]) (step P new s op).2 := by
  obtain ⟨h1, h2, h3, h4, h5, h6, h7⟩ := v
  cases op with
  | setUrl b =>
    simp only [step]
    by_cases hp : s.poisoned = true
    · simp only [hp, if_true]
      exact ⟨by rw [hist_snoc]; exact h1, by rw [hist_snoc]; exact h2, by rw [hist_snoc]; exact h3, by rw [hist_snoc]; exact h4,
        by rw [hist_snoc]; exact h5, by rw [hist_snoc]; exact h6, h7⟩
    · simp only [hp]
      exact ⟨by rw [hist_snoc]; rfl, by rw [hist_snoc]; simp_all [see], by rw [hist_snoc]; exact h3, by rw [hist_snoc]; exact h4,
        by rw [hist_snoc]; exact h5, by rw [hist_snoc]; exact h6, h7⟩
  | look =>
    exact ⟨by rw [hist_snoc]; exact h1, by rw [hist_snoc]; exact h2, by rw [hist_snoc]; exact h3, by rw [hist_snoc]; exact h4,
        by rw [hist_snoc]; exact h5, by rw [hist_snoc]; exact h6, h7⟩
  | stop =>
    simp only [step, stop]
    by_cases hs : s.started = true
    · by_cases hd : s.dead = true <;> simp only [hs, hd, Bool.not_true, Bool.false_eq_true, if_true, if_false]
      all_goals
        exact ⟨by rw [hist_snoc]; exact h1, by rw [hist_snoc]; exact h2, by rw [hist_snoc]; simp_all [see], by rw [hist_snoc]; rfl,
          by rw [hist_snoc]; exact h5, by rw [hist_snoc]; exact h6, (nomatch ·)⟩
    · simp only [hs, Bool.not_false, if_true]
      exact ⟨by rw [hist_snoc]; exact h1, by rw [hist_snoc]; exact h2, by rw [hist_snoc]; exact h3, by rw [hist_snoc]; exact h4,
        by rw [hist_snoc]; exact h5, by rw [hist_snoc]; exact h6, h7⟩
  | start p =>
    simp only [step, start]
    by_cases hs : s.started = true
    · simp only [hs, if_true]
      exact ⟨by rw [hist_snoc]; exact h1, by rw [hist_snoc]; exact h2, by rw [hist_snoc]; exact h3, by rw [hist_snoc]; exact h4,
        by rw [hist_snoc]; exact h5, by rw [hist_snoc]; exact h6, h7⟩
    · by_cases hd : s.dead = true
      · simp only [hs, hd, if_true]
        exact ⟨by rw [hist_snoc]; exact h1, by rw [hist_snoc]; exact h2, by rw [hist_snoc]; exact h3, by rw [hist_snoc]; exact h4,
          by rw [hist_snoc]; exact h5, by rw [hist_snoc]; exact h6, h7⟩
      · by_cases hu : s.url = true
        · cases p <;> simp only [hs, hd, hu, Bool.not_true, Bool.false_eq_true, if_false]
          · exact ⟨by rw [hist_snoc]; exact h1, by rw [hist_snoc]; exact h2, by rw [hist_snoc]; exact h3, by rw [hist_snoc]; exact h4,
              by rw [hist_snoc]; exact h5, by rw [hist_snoc]; exact h6, h7⟩
          · exact ⟨by rw [hist_snoc]; simp_all [see], by rw [hist_snoc]; rfl, by rw [hist_snoc]; rfl, by rw [hist_snoc]; simp_all [see],
              by rw [hist_snoc]; exact h5, by rw [hist_snoc]; exact h6, fun _ h => nomatch h⟩
          · exact ⟨by rw [hist_snoc]; simp_all [see], by rw [hist_snoc]; exact h2, by rw [hist_snoc]; simp_all [see],
              by rw [hist_snoc]; rfl, by rw [hist_snoc]; simp [see, h5], by rw [hist_snoc]; exact ⟨by rw [h5], rfl⟩, fun _ _ => rfl⟩
        · simp only [hs, hd, hu, Bool.not_false, Bool.false_eq_true, if_true, if_false]
          exact ⟨by rw [hist_snoc]; simp_all [see], by rw [hist_snoc]; rfl, by rw [hist_snoc]; rfl, by rw [hist_snoc]; simp_all [see],
            by rw [hist_snoc]; exact h5, by rw [hist_snoc]; exact h6, fun _ h => nomatch h⟩
  | render d =>
    simp only [step, render]
    by_cases hs : s.started = true
    · by_cases hd : s.dead = true
      · simp only [hs, hd, Bool.not_true, Bool.false_eq_true, if_true, if_false]
        exact ⟨by rw [hist_snoc]; cases d <;> exact h1, by rw [hist_snoc]; cases d <;> exact h2, by rw [hist_snoc]; cases d <;> exact h3,
          by rw [hist_snoc]; cases d <;> exact h4, by rw [hist_snoc]; cases d <;> exact h5, by rw [hist_snoc]; cases d <;> exact h6, h7⟩
      · simp only [hs, hd, Bool.not_true, Bool.false_eq_true, if_false]
        cases d with
        | none =>
          exact ⟨by rw [hist_snoc]; exact h1, by rw [hist_snoc]; exact h2, by rw [hist_snoc]; exact h3, by rw [hist_snoc]; exact h4,
            by rw [hist_snoc]; exact h5, by rw [hist_snoc]; exact h6, h7⟩
        | some d =>
          have ht := h7 hs (by simpa using hd)
          cases hm : s.media with
          | none => rw [hm] at ht; cases ht
          | some m =>
            rw [hm] at h6
            cases hx : (hist tr).sent with
            | none => rw [hx] at h6; exact h6.elim
            | some x =>
              rw [hx] at h6
              obtain ⟨hi, hf⟩ := h6
              have hg := feed_snoc P x.2 d _ _ hf
              dsimp only
              rcases hp : parse P (m.buffer, m.imported) d with ⟨_ | e, b, i⟩
              · rw [hp] at hg
                exact ⟨by rw [hist_snoc]; exact h1, by rw [hist_snoc]; exact h2, by rw [hist_snoc]; simp_all [see],
                  by rw [hist_snoc]; simp_all [see], by rw [hist_snoc]; exact h5,
                  by rw [hist_snoc]; simp only [see, hx, Option.map_some]; exact ⟨hi, hg⟩, fun _ _ => rfl⟩
              · exact ⟨by rw [hist_snoc]; exact h1, by rw [hist_snoc]; exact h2, by rw [hist_snoc]; rfl,
                  by rw [hist_snoc]; simp_all [see], by rw [hist_snoc]; exact h5,
                  by rw [hist_snoc]; exact trivial, fun _ h => nomatch h⟩
    · simp only [hs, Bool.not_false, if_true]
      exact ⟨by rw [hist_snoc]; cases d <;> exact h1, by rw [hist_snoc]; cases d <;> exact h2, by rw [hist_snoc]; cases d <;> exact h3,
        by rw [hist_snoc]; cases d <;> exact h4, by rw [hist_snoc]; cases d <;> exact h5, by rw [hist_snoc]; cases d <;> exact h6, h7⟩

variable {P : Params Atom Err σ} {new : σ} {tr : Trace σ} {s : State σ}

theorem inv_reach (h : (machine P new).Reach tr s) : Inv P new tr s :=
  Machine.Reach.induct (M := machine P new) (P := fun tr s => Inv P new tr s) (inv_init P new)
    (fun tr s op _ v => inv_step P new tr s op v) h

/-! ## C126 -/

/-- When the element is started.  Failing to connect is a panic. -/
theorem c126_start (h : (machine P new).Reach tr s) (p : Peer) :
    (step P new s (.start p)).1 =
      if (hist tr).started then .invalid else if (hist tr).dead then .failed else if !(hist tr).url then .panicked
      else if p = .connected then .ok else if p = .unusable then .failed else .panicked := by
  obtain ⟨h1, h2, h3, h4, h5, h6, h7⟩ := inv_reach h
  rw [h1, h3, h4]
  simp only [step, start]
  cases s.started <;> cases s.dead <;> cases s.url <;> cases p <;> rfl

theorem c126_stop (h : (machine P new).Reach tr s) :
    (step P new s .stop).1 = if !(hist tr).started then .invalid else if (hist tr).dead then .failed else .ok := by
  obtain ⟨h1, h2, h3, h4, h5, h6, h7⟩ := inv_reach h
  rw [h3, h4]
  simp only [step, stop]
  cases s.started <;> cases s.dead <;> rfl

/-- The URL can be set unless a start has panicked. -/
theorem c126_url (h : (machine P new).Reach tr s) (b : Bool) :
    (step P new s (.setUrl b)).1 = if (hist tr).stuck then .panicked else .ok := by
  rw [(inv_reach h).stuck]
  simp only [step]
  cases s.poisoned <;> rfl

/-- A buffer is rendered if `Import::parse` takes all buffers since the start in one piece, and makes the element panic otherwise; for
a decoder that does not change its mind when more bytes follow. -/
theorem c126_render_partial (hP : Stable P.decode) (h : (machine P new).Reach tr s) (hs : (hist tr).started = true)
    (hd : (hist tr).dead = false) (d : Bytes) : ∃ x, (hist tr).sent = some x ∧
    (step P new s (.render (some d))).1 =
      match (parse P ([], new) (x.2 ++ [d]).flatten).1 with
      | none => .ok
      | some _ => .panicked := by
  obtain ⟨h1, h2, h3, h4, h5, h6, h7⟩ := inv_reach h
  rw [h4] at hs
  rw [h3] at hd
  have ht := h7 hs hd
  cases hm : s.media with
  | none => rw [hm] at ht; cases ht
  | some m =>
    rw [hm] at h6
    cases hx : (hist tr).sent with
    | none => rw [hx] at h6; exact h6.elim
    | some x =>
      rw [hx] at h6
      obtain ⟨hi, hf⟩ := h6
      refine ⟨x, rfl, ?_⟩
      rw [← Import.c67_split_partial P hP ([], new) (x.2 ++ [d]) (by simp), feed_snoc P x.2 d _ _ hf]
      simp only [step, render, hs, hd, hm, Bool.not_true, Bool.false_eq_true, if_false]
      rcases parse P (m.buffer, m.imported) d with ⟨_ | e, b, i⟩ <;> rfl

/-- A buffer that comes at another time, or cannot be read. -/
theorem c126_not_rendered (h : (machine P new).Reach tr s) (d : Option Bytes) :
    (!(hist tr).started → (step P new s (.render d)).1 = .invalid) ∧
    ((hist tr).started → (hist tr).dead → (step P new s (.render d)).1 = .failed) ∧
    ((hist tr).started → (step P new s (.render none)).1 = .failed) := by
  obtain ⟨h1, h2, h3, h4, h5, h6, h7⟩ := inv_reach h
  rw [h3, h4]
  simp only [step, render]
  cases s.started <;> cases s.dead <;> simp

/-- What is published is what `Import::parse` makes of all buffers since the last start in one piece, wherever they are cut. -/
theorem c126_published_partial (hP : Stable P.decode) (h : (machine P new).Reach tr s) :
    (step P new s .look).1 = .shown ((hist tr).sent.map fun x =>
      (x.1, if x.2 = [] then new else (parse P ([], new) x.2.flatten).2.2)) := by
  obtain ⟨h1, h2, h3, h4, h5, h6, h7⟩ := inv_reach h
  simp only [step]
  cases hm : s.media with
  | none =>
    cases hx : (hist tr).sent with
    | none => rfl
    | some x => rw [hm, hx] at h6; exact h6.elim
  | some m =>
    rw [hm] at h6
    cases hx : (hist tr).sent with
    | none => rw [hx] at h6; exact h6.elim
    | some x =>
      rw [hx] at h6
      obtain ⟨hi, hf⟩ := h6
      simp only [Option.map_some, hi]
      by_cases he : x.2 = []
      · rw [he] at hf
        simp only [feed, Prod.mk.injEq, true_and] at hf
        rw [if_pos he, hf.2]
      · rw [if_neg he, ← Import.c67_split_partial P hP ([], new) x.2 he, hf]

/-- Two elements that got the same bytes since they were started publish the same. -/
theorem c126_cuts_partial (hP : Stable P.decode) {tr' : Trace σ} {s' : State σ} (h : (machine P new).Reach tr s)
    (h' : (machine P new).Reach tr' s') {n n' : Nat} {ds ds' : List Bytes} (hd : (hist tr).sent = some (n, ds))
    (hd' : (hist tr').sent = some (n', ds')) (hne : ds ≠ []) (hne' : ds' ≠ []) (heq : ds.flatten = ds'.flatten) :
    ∃ x, (step P new s .look).1 = .shown (some (n, x)) ∧ (step P new s' .look).1 = .shown (some (n', x)) := by
  rw [c126_published_partial hP h, c126_published_partial hP h', hd, hd']
  simp only [Option.map_some, if_neg hne, if_neg hne', heq]
  exact ⟨_, rfl, rfl⟩

/-- Every start makes a broadcast of its own, with nothing in it, and ends the former. -/
theorem c126_fresh (h : (machine P new).Reach tr s) (hs : (step P new s (.start .connected)).1 = .ok) :
    (step P new (step P new s (.start .connected)).2 .look).1 = .shown (some ((hist tr).starts + 1, new)) := by
  rw [(inv_reach h).starts]
  simp only [step, start] at hs ⊢
  by_cases a : s.started = true
  · simp [a] at hs
  · by_cases b : s.dead = true
    · simp [a, b] at hs
    · by_cases c : s.url = true
      · simp [a, b, c]
      · simp [a, b, c] at hs

/-- The only things that change what is published are a start and a buffer. -/
theorem c126_kept (s : State σ) (op : Op) (h1 : op ≠ .start .connected) (h2 : ∀ d, op ≠ .render (some d)) :
    (step P new (step P new s op).2 .look).1 = (step P new s .look).1 := by
  cases op with
  | setUrl b => simp only [step]; split <;> rfl
  | look => rfl
  | stop => simp only [step, stop]; split <;> rfl
  | start p =>
    simp only [step, start]
    cases p
    · cases s.started <;> cases s.dead <;> cases s.url <;> rfl
    · cases s.started <;> cases s.dead <;> cases s.url <;> rfl
    · exact (h1 rfl).elim
  | render d =>
    cases d with
    | none => simp only [step, render]; cases s.started <;> cases s.dead <;> rfl
    | some d => exact (h2 d rfl).elim

/-- After a panic the element never starts again. -/
theorem c126_dead (h : (machine P new).Reach tr s) (hd : (hist tr).dead = true) (ops : List Op) (p : Peer) :
    (step P new ((machine P new).runFrom s ops).2 (.start p)).1 ≠ .ok := by
  have key : ∀ (ops : List Op) (s : State σ), s.dead = true → ((machine P new).runFrom s ops).2.dead = true := by
    intro ops
    induction ops with
    | nil => exact fun _ h => h
    | cons op ops ih =>
      intro s hs
      refine ih _ ?_
      cases op with
      | setUrl b => simp only [step]; split <;> exact hs
      | look => exact hs
      | stop => simp only [step, stop]; split <;> exact hs
      | start p => simp only [step, start, hs]; cases s.started <;> simp [hs]
      | render d => simp only [step, render, hs]; cases s.started <;> simp [hs]
  have hs : s.dead = true := by rw [← (inv_reach h).dead]; exact hd
  simp only [step, start, key ops s hs]
  split <;> simp

/-! ## Disagreements -/

/-- Boxes of one byte for the size; see `Import.sized`. -/
abbrev sample := machine Import.sized []

/-- Three buffers, cut in the middle of boxes. -/
example : ∃ (tr : Trace (List Bytes)) (s : State (List Bytes)), sample.Reach tr s ∧ (hist tr).started = true ∧
    (hist tr).dead = false ∧ (hist tr).sent = some (1, [[3, 7], [8, 2], [9, 4, 1]]) ∧
    (step Import.sized [] s .look).1 = .shown (some (1, [[3, 7, 8], [2, 9]])) :=
  ⟨_, _, sample.reach_run [.setUrl true, .start .connected, .render (some [3, 7]), .render (some [8, 2]), .render (some [9, 4, 1])],
    by decide +kernel, by decide +kernel, by decide +kernel, by decide +kernel⟩

/-- Stopping the element does not end its broadcast. -/
theorem c126_still_there : ∃ (tr : Trace (List Bytes)) (s : State (List Bytes)), sample.Reach tr s ∧
    tr.getLast? = some (.stop, .ok) ∧ (hist tr).dead = false ∧ (step Import.sized [] s .look).1 = .shown (some (1, [[2, 9]])) :=
  ⟨_, _, sample.reach_run [.setUrl true, .start .connected, .render (some [2, 9]), .stop],
    by decide +kernel, by decide +kernel, by decide +kernel⟩

/-- A relay that cannot be reached makes the element panic; it cannot be started again, and its broadcast stays. -/
theorem c126_unreachable : ∃ (tr : Trace (List Bytes)) (s : State (List Bytes)), sample.Reach tr s ∧
    tr.getLast? = some (.start .unreachable, .panicked) ∧
    (step Import.sized [] s (.start .connected)).1 = .failed ∧ (step Import.sized [] s (.setUrl true)).1 = .panicked ∧
    (step Import.sized [] s .look).1 = .shown (some (1, [[2, 9]])) :=
  ⟨_, _, sample.reach_run [.setUrl true, .start .connected, .render (some [2, 9]), .stop, .start .unreachable],
    by decide +kernel, by decide +kernel, by decide +kernel, by decide +kernel⟩

/-- One buffer that is not valid makes the element panic and ends the broadcast; what follows is refused, also after a restart. -/
theorem c126_bad_buffer : ∃ (tr : Trace (List Bytes)) (s : State (List Bytes)), sample.Reach tr s ∧
    tr.getLast? = some (.render (some [0]), .panicked) ∧
    (step Import.sized [] s .look).1 = .shown none ∧
    (step Import.sized [] s (.render (some [2, 9]))).1 = .failed ∧
    (step Import.sized [] (step Import.sized [] s .stop).2 (.start .connected)).1 = .failed :=
  ⟨_, _, sample.reach_run [.setUrl true, .start .connected, .render (some [2, 9]), .render (some [0])],
    by decide +kernel, by decide +kernel, by decide +kernel, by decide +kernel⟩

end Verif.Props.GstSink
