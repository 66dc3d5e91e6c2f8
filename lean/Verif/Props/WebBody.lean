import Verif.Relay.WebBodyLemmas

/-!
# The response to `/fetch` (C75, C76)
-/

set_option autoImplicit false

namespace Verif.Props.WebBody

open Verif Verif.Session Verif.Model Verif.Relay.WebBody Verif.Relay.WebBody.Spec

/-- One uninterrupted poll of the body. -/
def pollNow (s : State) : Out × State :=
  if (step s .poll).1 = .busy then step (step s .poll).2 .poll else step s .poll

/-- **C75.**  The pieces of the body are the frames of the group, whole and in order, whatever
happens in between. -/
theorem c75_sent {tr : Trace} {s : State} (h : machine.Reach tr s) (k : Nat) (b : Bytes)
    (hb : (sent tr)[k]? = some b) :
    ∃ f, (Group.Spec.appended (others tr))[k]? = some f ∧
      Frame.Spec.closing (Group.Spec.frameTrace f (others tr)) ≠ none ∧
      b = (Frame.Spec.written (Group.Spec.frameTrace f (others tr))).flatten := by
  have hI := inv_reach h
  obtain ⟨f, size, fs, h1, h2, h3, h4⟩ := hI.sentOk k b hb
  obtain ⟨h5, h6, _⟩ := hI.frameAt h2
  exact ⟨f, by rw [hI.list]; exact h1, by rw [h6]; exact h3, by rw [h5]; exact h4⟩

theorem poll_answer {tr : Trace} {s : State} (h : machine.Reach tr s) (hr : Responding tr) :
    ((step s .poll).1 = .busy ∧ (step (step s .poll).2 .poll).1 ≠ .busy) ∨
      (step s .poll).1 = due tr := by
  have hI := inv_reach h
  obtain ⟨b, hb⟩ := Option.isSome_iff_exists.1 (hI.responding.2 hr)
  have hB := hI.body b hb
  cases hf : b.frame with
  | none =>
    have e : step s .poll = pollGroup s b := by simp only [step, hb, hf]
    rw [e]
    rcases pollGroup_cases hB hf hI.exist with ⟨f, id, h3, h4, h5, h6⟩ | ⟨h3, h4, _⟩
    · left
      rw [h5]
      refine ⟨rfl, ?_⟩
      have e2 : step { s with
          g := (Group.giveReader s.g b.c ((sent tr).length + 1) f).2
          body := some { b with frame := some (f, id) } } .poll = pollFrame { s with
          g := (Group.giveReader s.g b.c ((sent tr).length + 1) f).2
          body := some { b with frame := some (f, id) } } { b with frame := some (f, id) } f id := rfl
      rw [e2]
      obtain ⟨size, fs, _, _, h7 | h7⟩ := pollFrame_cases (s := { s with
          g := (Group.giveReader s.g b.c ((sent tr).length + 1) f).2
          body := some { b with frame := some (f, id) } }) h6 rfl
      · rw [h7.2]; intro hx; cases hx
      · rw [h7.2.1]; split
        · intro hx; cases hx
        · split <;> (intro hx; cases hx)
    · right
      rw [h4]
      unfold due
      rw [hI.list, h3, hI.atEnd]
  | some x =>
    obtain ⟨f, id⟩ := x
    right
    have e : step s .poll = pollFrame s b f id := by simp only [step, hb, hf]
    rw [e]
    obtain ⟨size, fs, h3, h4, h5⟩ := pollFrame_cases hB hf
    obtain ⟨_, _, h6⟩ := hI.frameAt h4
    unfold due
    rw [hI.list, h3]
    simp only [h6]
    rcases h5 with ⟨h5, h7⟩ | ⟨h5, h7, _⟩
    · rw [h7, h5]
    · rw [h7]
      cases hc : fs.closed with
      | none => rfl
      | some r =>
        cases r with
        | ok u => exact absurd hc h5
        | error e => rfl

theorem due_ne_busy (tr : Trace) : due tr ≠ .busy := by
  have : ∀ o, asBody o ≠ .busy := by intro o; cases o <;> simp [asBody]
  unfold due
  split <;> exact this _

theorem due_busy (tr : Trace) : due (tr ++ [(.poll, .busy)]) = due tr := by
  have h1 : others (tr ++ [(.poll, .busy)]) = others tr := by rw [others_snoc]; simp [others]
  have h2 : sent (tr ++ [(.poll, .busy)]) = sent tr := by rw [sent_snoc]; simp [sent]
  unfold due
  rw [h1, h2]

/-- **C75.**  The answer to a poll after any history: the next frame of the group as soon as it is
complete, its error if it failed; after the last frame how the group ended; and `Pending` exactly
if that is not known yet. -/
theorem c75_poll {tr : Trace} {s : State} (h : machine.Reach tr s) (hr : Responding tr) :
    (pollNow s).1 = due tr := by
  unfold pollNow
  rcases poll_answer h hr with ⟨h1, h2⟩ | h1
  · rw [if_pos h1]
    have h' : machine.Reach (tr ++ [(.poll, (step s .poll).1)]) (step s .poll).2 :=
      Machine.Reach.step (M := machine) .poll h
    have hr' : Responding (tr ++ [(.poll, (step s .poll).1)]) := by
      obtain ⟨d, hd⟩ := hr; exact ⟨d, List.mem_append_left _ hd⟩
    rcases poll_answer h' hr' with ⟨h3, _⟩ | h3
    · exact absurd h3 h2
    · rw [h3, h1, due_busy]
  · rw [if_neg (by rw [h1]; exact due_ne_busy tr)]
    exact h1

/-- **C75.**  The body ends without an error only after all frames of a finished group. -/
theorem c75_ended {tr : Trace} {s : State} (h : machine.Reach tr s) (hr : Responding tr)
    (he : (step s .poll).1 = .ended) :
    (sent tr).length = (Group.Spec.appended (others tr)).length ∧
      Group.Spec.closing (others tr) = some (.ok ()) := by
  rcases poll_answer h hr with ⟨h1, _⟩ | h1
  · rw [h1] at he; cases he
  · rw [he] at h1
    have hI := inv_reach h
    unfold due at h1
    split at h1
    · rename_i f hf
      rw [hI.list] at hf
      have hlt := hI.exist f (List.mem_of_getElem? hf)
      obtain ⟨_, _, h6⟩ := hI.frameAt (List.getElem?_eq_getElem hlt)
      rw [h6] at h1
      split at h1
      · cases h1
      · cases h1
      · split at h1 <;> cases h1
    · rename_i hn
      constructor
      · have h2 := List.getElem?_eq_none_iff.1 hn
        have h3 : (sent tr).length ≤ (Group.Spec.appended (others tr)).length := by
          refine Nat.le_of_not_lt fun hlt => ?_
          obtain ⟨f, hf, _⟩ := c75_sent h (Group.Spec.appended (others tr)).length _
            (List.getElem?_eq_getElem hlt)
          rw [List.getElem?_eq_none (Nat.le_refl _)] at hf
          cases hf
        omega
      · unfold Group.Spec.atEnd at h1
        split at h1
        · assumption
        · cases h1
        · split at h1 <;> cases h1

/-- The frames and the group used in the examples: one frame of two bytes, written and finished. -/
def exampleOps : List Op :=
  [.env (.consume 0), .respond 0, .poll, .env (.newFrame 2), .env (.appendFrame 0 0), .poll,
    .env (.frame 0 (.write 0 [1, 2])), .poll, .env (.frame 0 (.finish 0)), .poll,
    .env (.finish 0), .poll]

/-- A response that is polled often enough sends the frame and ends. -/
example : (machine.run exampleOps).1.map (·.2) =
    [.env (.handle 0) false, .ok, .pending, .env (.handle 0) false, .env .ok false, .busy,
      .env (.frame .ok) false, .pending, .env (.frame .ok) false, .data [1, 2],
      .env .ok false, .ended] := by decide +kernel

example : sent (machine.run exampleOps).1 = [[1, 2]] ∧ Responding (machine.run exampleOps).1 :=
  ⟨by decide +kernel, 0, .tail _ (.head _)⟩

/-- **C76**, what does hold: while the group and all its frames are complete, the response never
has to wait. -/
theorem c76_complete_partial {tr : Trace} {s : State} (h : machine.Reach tr s) (hr : Responding tr)
    (hg : Group.Spec.closing (others tr) ≠ none)
    (hf : ∀ f ∈ Group.Spec.appended (others tr),
      Frame.Spec.closing (Group.Spec.frameTrace f (others tr)) ≠ none) :
    (pollNow s).1 ≠ .pending := by
  rw [c75_poll h hr]
  unfold due
  split
  · rename_i f hx
    have := hf f (List.mem_of_getElem? hx)
    unfold Group.Spec.wholeFrame
    split
    · simp [asBody]
    · simp [asBody]
    · contradiction
  · unfold Group.Spec.atEnd
    split
    · simp [asBody]
    · simp [asBody]
    · contradiction

example : Group.Spec.closing (others (machine.run exampleOps).1) ≠ none ∧
    (∀ f ∈ Group.Spec.appended (others (machine.run exampleOps).1),
      Frame.Spec.closing (Group.Spec.frameTrace f (others (machine.run exampleOps).1)) ≠ none) ∧
    Responding (machine.run exampleOps).1 := by
  refine ⟨?_, ?_, 0, .tail _ (.head _)⟩
  · intro h
    have : (Group.Spec.closing (others (machine.run exampleOps).1)).isSome = true := by
      decide +kernel
    rw [h] at this; cases this
  · intro f hf h
    have e : Group.Spec.appended (others (machine.run exampleOps).1) = [0] := by decide +kernel
    rw [e] at hf
    have hf := List.mem_singleton.1 hf
    subst hf
    have : (Frame.Spec.closing (Group.Spec.frameTrace 0
      (others (machine.run exampleOps).1))).isSome = true := by decide +kernel
    rw [h] at this; cases this

/-- **C76**, violated: nothing anybody does to the group ever wakes the task of the response. -/
theorem c76_never_woken {tr : Trace} {s : State} (h : machine.Reach tr s) : ¬ Woken tr := by
  refine Machine.Reach.induct (M := machine) (P := fun tr _ => ¬ Woken tr) ?_ ?_ h
  · rintro ⟨op, o, hm⟩; cases hm
  · rintro tr s op hr ih ⟨gop, o, hm⟩
    rcases List.mem_append.1 hm with hm | hm
    · exact ih ⟨gop, o, hm⟩
    · have he := List.mem_singleton.1 hm
      injection he with h1 h2
      subst h1
      have hreg := (inv_reach hr).reg
      simp only [step] at h2
      split at h2
      · cases h2
      · rw [hreg] at h2
        simp at h2

/-- The schedule of the witness: the response waits, then the group gets a frame and ends. -/
def hangOps : List Op :=
  [.env (.consume 0), .respond 0, .poll, .env (.newFrame 1), .env (.frame 0 (.write 0 [7])),
    .env (.frame 0 (.finish 0)), .env (.appendFrame 0 0), .env (.finish 0)]

/-- **C76**, violated: the response has been told to wait, the whole group is there, and nobody has
woken the response, which would send the frame if it were polled. -/
theorem c76_hangs :
    ((machine.run hangOps).1.filter fun e => match e.1 with | .poll => true | _ => false).map (·.2) =
      [.pending] ∧
    ¬ Woken (machine.run hangOps).1 ∧
    (pollNow (machine.run hangOps).2).1 = .data [7] :=
  ⟨by decide +kernel, c76_never_woken (machine.reach_run hangOps), by decide +kernel⟩

end Verif.Props.WebBody
