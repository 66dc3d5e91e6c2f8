import Verif.Js.CaptureLemmas

/-!
# Publishing video from the browser: what steps do to everything but the tracks
-/

set_option autoImplicit false

namespace Verif.Js.Capture

open Verif

open Verif.Js.Frames (Input)

/-- The state without the tracks, the group and the configurations. -/
structure View where
  latest : Option Nat
  captured : Nat
  shut : List Nat
  timestamp : Int
  active : Bool
  runs : List Run
  current : Option Nat
  closed : Bool

def view (s : State) : View :=
  ⟨s.latest, s.captured, s.shut, s.timestamp, s.active, s.runs, s.current, s.closed⟩

theorem view_act (s : State) (r : Nat) (op : Track.Op) : view (act s r op) = view s := by
  unfold act
  split <;> rfl

theorem view_closeGroup (s : State) : view (closeGroup s) = view s := by
  unfold closeGroup
  split
  · exact view_act ..
  · rfl

theorem view_abortGroup (s : State) : view (abortGroup s) = view s := by
  unfold abortGroup
  split
  · exact view_act ..
  · rfl

def View.put (v : View) (r : Nat) (run : Run) : View := { v with runs := v.runs.set r run }

/-- The `finally` of `#runFrames`. -/
def View.finish (v : View) (r : Nat) (run : Run) : View :=
  { v.put r ⟨.over, .closed, run.done⟩ with active := if run.encoder = .closed then v.active else false }

theorem view_finish (s : State) (r : Nat) (run : Run) : view (finish s r run) = (view s).finish r run := by
  unfold finish
  split
  · next h =>
    unfold View.finish View.put view put
    rw [if_pos h]
    dsimp only
    rw [h]
  · next h =>
    have := view_closeGroup s
    unfold view at this
    injection this with h1 h2 h3 h4 h5 h6 h7 h8
    unfold View.finish View.put view put
    rw [if_neg h]
    dsimp only
    rw [h1, h2, h3, h4, h6, h7, h8]

/-- The reader of run `r` has no more pictures. -/
def View.exhaust (v : View) (r : Nat) (run : Run) : View :=
  match run.phase with
  | .first => v.finish r { run with done := true }
  | .loop => v.finish r { run with done := true }
  | _ => v.put r { run with done := true }

theorem view_exhaust (s : State) (r : Nat) (run : Run) : view (exhaust s r run) = (view s).exhaust r run := by
  unfold exhaust View.exhaust
  cases run.phase with
  | first => exact view_finish ..
  | loop => exact view_finish ..
  | config pic ts => rfl
  | over => rfl

/-- The effects are cleaned up. -/
def View.cleanup (v : View) : View :=
  match v.current with
  | some r =>
    match v.runs[r]? with
    | some run => { v.exhaust r run with current := none }
    | none => v
  | none => v

theorem view_cleanup (s : State) : view (cleanup s) = (view s).cleanup := by
  unfold cleanup View.cleanup
  have h1 : (view s).current = s.current := rfl
  rw [h1]
  cases hc : s.current with
  | none => rfl
  | some r =>
    dsimp only
    have h2 : (view s).runs = s.runs := rfl
    rw [h2]
    cases hr : s.runs[r]? with
    | none => rfl
    | some run =>
      dsimp only
      have h := view_exhaust (act s r .close) r run
      rw [view_act] at h
      rw [← h]
      rfl

/-- A picture is given to the encoder. -/
def View.given (v : View) (pic : Nat) (ts : Int) : View := { v with
  timestamp := if v.timestamp + GOP < ts then ts else v.timestamp
  latest := some pic
  shut := v.shut ++ v.latest.toList }

/-- What steps do. -/
inductive Eff : View → Op → Out → View → Prop where
  | invalid (v : View) (op : Op) : Eff v op .invalid v
  | start (v : View) (hc : v.closed = false) : Eff v .start (.run v.cleanup.runs.length) { v.cleanup with
      runs := v.cleanup.runs ++ [⟨.first, .unconfigured, false⟩]
      current := some v.cleanup.runs.length }
  | stop (v : View) (hc : v.closed = false) : Eff v .stop .ok v.cleanup
  | close (v : View) (hc : v.closed = false) :
      Eff v .close .ok { View.cleanup { v with shut := v.shut ++ v.latest.toList } with closed := true }
  | first (v : View) (r : Nat) (ts : Int) (run : Run) (hr : v.runs[r]? = some run) (hd : run.done = false)
      (hp : run.phase = .first) : Eff v (.picture r ts) (.captured v.captured)
        { v.put r { run with phase := .config v.captured ts } with
          active := true
          captured := v.captured + 1 }
  | encode (v : View) (r : Nat) (ts : Int) (run : Run) (q : List Request) (st : Bool)
      (hr : v.runs[r]? = some run) (hd : run.done = false)
      (hp : run.phase = .loop) (he : run.encoder = .working q st) : Eff v (.picture r ts)
        (.encoded v.captured (decide (v.timestamp + GOP < ts)))
        (View.put { v.given v.captured ts with captured := v.captured + 1 } r
          { run with encoder := .working (q ++ [⟨ts, decide (v.timestamp + GOP < ts)⟩]) st })
  | dead (v : View) (r : Nat) (ts : Int) (run : Run) (hr : v.runs[r]? = some run) (hd : run.done = false)
      (hp : run.phase = .loop) (he : run.encoder = .closed) : Eff v (.picture r ts) (.failed v.captured)
        (View.finish { v.given v.captured ts with captured := v.captured + 1 } r run)
  | ended (v : View) (r : Nat) (run : Run) (hr : v.runs[r]? = some run) (hd : run.done = false) :
      Eff v (.ended r) .ok (v.exhaust r run)
  | threw (v : View) (r pic : Nat) (ts : Int) (run : Run) (hr : v.runs[r]? = some run)
      (hp : run.phase = .config pic ts) (he : run.encoder = .unconfigured) :
      Eff v (.config r false) (.failed pic) (v.finish r run)
  | done (v : View) (r pic : Nat) (ts : Int) (run : Run) (hr : v.runs[r]? = some run)
      (hp : run.phase = .config pic ts) (he : run.encoder = .unconfigured) (hd : run.done = true) :
      Eff v (.config r true) (.encoded pic (decide (v.timestamp + GOP < ts))) ((v.given pic ts).finish r run)
  | configured (v : View) (r pic : Nat) (ts : Int) (run : Run) (hr : v.runs[r]? = some run)
      (hp : run.phase = .config pic ts) (he : run.encoder = .unconfigured) (hd : run.done = false) :
      Eff v (.config r true) (.encoded pic (decide (v.timestamp + GOP < ts)))
        ((v.given pic ts).put r { run with
          phase := .loop
          encoder := .working [⟨ts, decide (v.timestamp + GOP < ts)⟩] false })
  | output (v : View) (r : Nat) (run : Run) (c : Input) (q : Request) (qs : List Request) (st : Bool) (o : Out)
      (hr : v.runs[r]? = some run) (he : run.encoder = .working (q :: qs) st) (ht : c.timestamp = q.timestamp)
      (hk : (q.key = true ∨ st = false) → c.keyframe = true)
      (ho : (∃ g, o = .wrote g) ∨ o = .noKeyframe) : Eff v (.output r c) o
        { v.put r { run with encoder := .working qs true } with
          timestamp := if c.keyframe then c.timestamp else v.timestamp }
  | error (v : View) (r : Nat) (run : Run) (q : List Request) (st : Bool)
      (hr : v.runs[r]? = some run) (he : run.encoder = .working q st) : Eff v (.error r) .ok
        (v.put r { run with encoder := .closed })
  | track (v : View) (r : Nat) (op : Track.Op) (o : Track.Out) : Eff v (.track r op) (.track o) v

theorem view_write (s : State) (k g : Nat) (c : Input) : view (write s k g c).2 = view s := by
  unfold write
  split
  · rfl
  · split
    · exact view_act ..
    · rfl

theorem act_tracks_length (s : State) (r : Nat) (op : Track.Op) :
    (act s r op).tracks.length = s.tracks.length := by
  unfold act
  split <;> simp

theorem view_emit (s : State) (r : Nat) (c : Input) (h : r < s.tracks.length) :
    view (emit s r c).2 = { view s with timestamp := if c.keyframe then c.timestamp else s.timestamp } := by
  unfold emit
  cases hk : c.keyframe with
  | true =>
    rw [if_pos rfl, if_pos rfl]
    dsimp only
    have hv := view_closeGroup { s with timestamp := c.timestamp }
    have hl : r < (closeGroup { s with timestamp := c.timestamp }).tracks.length := by
      unfold closeGroup
      split
      · rw [act_tracks_length]
        exact h
      · exact h
    generalize closeGroup { s with timestamp := c.timestamp } = s1 at hv hl ⊢
    rw [List.getElem?_eq_getElem hl]
    dsimp only
    have hw : view s1 = { view s with timestamp := c.timestamp } := hv
    split
    · rw [view_write, ← hw]
      exact view_act s1 r .append
    · rw [← hw]
      exact view_act s1 r .append
  | false =>
    rw [if_neg (by simp), if_neg (by simp)]
    split
    · exact view_write ..
    · rfl

theorem step_eff {tr : Trace} {s : State} (i : Inv tr s) (op : Op) :
    Eff (view s) op (step s op).1 (view (step s op).2) := by
  have hencoder : ∀ (r : Nat) (run : Run) pic ts, s.runs[r]? = some run → run.phase = .config pic ts →
      run.encoder = .unconfigured := by
    intro r run pic ts hr hph
    obtain ⟨t, gs, ls, ht, x⟩ := i.state.both hr
    have hp := x.run.phase
    cases he : run.encoder with
    | unconfigured => rfl
    | working q st => simp [he, hph] at hp
    | closed => simp [he, hph] at hp
  cases op with
  | start =>
    rw [step]
    split
    · exact .invalid ..
    · next h =>
      have h' : (view s).closed = false := Bool.eq_false_iff.2 h
      have := Eff.start (view s) h'
      rw [← view_cleanup] at this
      exact this
  | stop =>
    rw [step]
    split
    · exact .invalid ..
    · next h =>
      have h' : (view s).closed = false := Bool.eq_false_iff.2 h
      have := Eff.stop (view s) h'
      rw [← view_cleanup] at this
      exact this
  | close =>
    rw [step]
    split
    · exact .invalid ..
    · next h =>
      have h' : (view s).closed = false := Bool.eq_false_iff.2 h
      have h1 := Eff.close (view s) h'
      have h2 := view_cleanup { s with shut := s.shut ++ s.latest.toList }
      have h3 : view { s with shut := s.shut ++ s.latest.toList } =
        { view s with shut := (view s).shut ++ (view s).latest.toList } := rfl
      rw [h3] at h2
      rw [← h2] at h1
      exact h1
  | picture r ts =>
    rw [step, onRun]
    cases hr : s.runs[r]? with
    | none => exact .invalid ..
    | some run =>
      dsimp only
      obtain ⟨t, gs, ls, ht, x⟩ := i.state.both hr
      have hp := x.run.phase
      unfold picture
      split
      · exact .invalid ..
      · next h =>
        have hd : run.done = false := by
          cases hd : run.done with
          | false => rfl
          | true => exact absurd (.inl hd) h
        split
        · next hph => exact .first (view s) r ts run hr hd hph
        · next hph =>
          unfold encode
          split
          · next q st he =>
            have := Eff.encode (view s) r ts run q st hr hd hph he
            have h2 : (⟨.loop, .working (q ++ [⟨ts, decide (s.timestamp + GOP < ts)⟩]) st, run.done⟩ : Run) =
              { run with encoder := .working (q ++ [⟨ts, decide (s.timestamp + GOP < ts)⟩]) st } := by rw [hph]
            dsimp only
            rw [h2]
            simp only [decide_eq_true_eq]
            exact this
          · next hw =>
            have he : run.encoder = .closed := by
              cases he : run.encoder with
              | unconfigured => simp [he, hph] at hp
              | working q st => exact absurd he (hw q st)
              | closed => rfl
            have := Eff.dead (view s) r ts run hr hd hph he
            rw [view_finish]
            simp only [decide_eq_true_eq]
            exact this
        · exact .invalid ..
  | ended r =>
    rw [step, onRun]
    cases hr : s.runs[r]? with
    | none => exact .invalid ..
    | some run =>
      dsimp only
      split
      · exact .invalid ..
      · next h =>
        rw [view_exhaust]
        exact .ended (view s) r run hr (by simpa using h)
  | config r ok =>
    rw [step, onRun]
    cases hr : s.runs[r]? with
    | none => exact .invalid ..
    | some run =>
      dsimp only
      have hinv : (∀ pic ts, run.phase ≠ .config pic ts) → Capture.config s r run ok = (.invalid, s) := by
        intro h
        unfold Capture.config
        split
        · next pic ts hp => exact absurd hp (h pic ts)
        · rfl
      cases hph : run.phase with
      | first =>
        rw [hinv (by simp [hph])]
        exact .invalid ..
      | loop =>
        rw [hinv (by simp [hph])]
        exact .invalid ..
      | over =>
        rw [hinv (by simp [hph])]
        exact .invalid ..
      | config pic ts =>
        have he := hencoder r run pic ts hr hph
        rw [config_eq s r run ok hr pic ts hph]
        cases ok with
        | false =>
          rw [if_neg (by simp)]
          dsimp only
          rw [view_finish]
          exact .threw (view s) r pic ts run hr hph he
        | true =>
          rw [if_pos rfl]
          dsimp only
          cases hd : run.done with
          | true =>
            rw [if_pos rfl, view_finish]
            have := Eff.done (view s) r pic ts run hr hph he hd
            have h2 : (view (given s r pic ts)).finish r
                ⟨.loop, .working [⟨ts, decide (s.timestamp + GOP < ts)⟩] false, true⟩ =
                ((view s).given pic ts).finish r run := by
              unfold View.finish
              rw [if_neg (by simp), if_neg (by simp [he]), hd]
              rfl
            rw [h2]
            exact this
          | false =>
            rw [if_neg (by simp)]
            have := Eff.configured (view s) r pic ts run hr hph he hd
            rw [hd] at this
            exact this
  | output r c =>
    have hout := i.output r c
    rw [step, onRun] at hout ⊢
    cases hr : s.runs[r]? with
    | none => exact .invalid ..
    | some run =>
      dsimp only
      unfold output
      split
      · next q qs st he =>
        split
        · next h =>
          have hlt := (List.getElem?_eq_some_iff.1 hr).1
          have e := i.emit hr he h.1 h.2 (if st = true then s.decoderConfig else some r)
          rw [view_emit _ _ _ (by show r < s.tracks.length; rw [i.state.len]; exact hlt)]
          refine .output (view s) r run c q qs st _ hr he h.1 h.2 ?_
          rcases e.out with ⟨g, h, -⟩ | ⟨h, -⟩
          · exact .inl ⟨g, h⟩
          · exact .inr h
        · exact .invalid ..
      · exact .invalid ..
  | error r =>
    rw [step, onRun]
    cases hr : s.runs[r]? with
    | none => exact .invalid ..
    | some run =>
      dsimp only
      unfold error
      split
      · next q st he =>
        dsimp only
        rw [view_act]
        have h1 : ∀ w : State, view { w with group := none } = view w := fun _ => rfl
        rw [h1, view_abortGroup]
        exact .error (view s) r run q st hr he
      · exact .invalid ..
  | track r op =>
    rw [step]
    split
    · split
      · dsimp only
        rw [view_act]
        exact .track ..
      · exact .invalid ..
    · exact .invalid ..

end Verif.Js.Capture
