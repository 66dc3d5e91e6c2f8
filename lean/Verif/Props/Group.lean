import Verif.Model.GroupLemmas

/-!
# Properties of groups: C21, C22

The vocabulary (`appended`, `closing`, `received`, `frameTrace`, …) is defined from the history
of calls and answers in `Verif/Model/GroupSpec.lean`.
-/

set_option autoImplicit false

namespace Verif.Props.Group

open Verif Verif.Session Verif.Model Verif.Model.Group Verif.Model.Group.Spec

/-! ## C22: a group's readers get every frame in order -/

/-- **C22.**  What a consumer has been given so far is, position by position, the list of the
frames appended to the group: the k-th delivery is a reader of the k-th frame, or all bytes of
the k-th frame. -/
theorem c22_received {tr : Trace} {s : State} (h : machine.Reach tr s) {c : Nat}
    (hc : ConsumerAlive tr c) (k : Nat) (d : Delivery) (hd : (received tr c)[k]? = some d) :
    ∃ f, (appended tr)[k]? = some f ∧ d.Correct tr f := by
  have hI := inv_reach h
  obtain ⟨⟨i, a⟩, hi⟩ := (hI.alive_iff c).1 hc
  rw [hI.agrees.list]
  exact (hI.serves.served c i a hi).correct k d hd

/-- **C22.**  The answer to `next_frame` after any history: a reader of the next frame that was
appended, if there is one; only otherwise the way the group was closed. -/
theorem c22_next_frame {tr : Trace} {s : State} (h : machine.Reach tr s) {c : Nat}
    (hc : ConsumerAlive tr c) :
    (∀ f, (appended tr)[(received tr c).length]? = some f →
      ∃ id, (step s (.nextFrame c)).1 = .reader f id) ∧
    ((appended tr)[(received tr c).length]? = none → (step s (.nextFrame c)).1 = atEnd tr) := by
  have hI := inv_reach h
  obtain ⟨⟨i, a⟩, hi⟩ := (hI.alive_iff c).1 hc
  have hs := hI.serves.served c i a hi
  have give : ∀ (n f j : Nat), (appended tr)[n]? = some f → ∃ id, (giveReader s c j f).1 = .reader f id := by
    intro n f j hf
    obtain ⟨fs, h1, _⟩ := hI.frame hf
    unfold giveReader
    rw [h1]
    exact ⟨_, rfl⟩
  cases a with
  | some g =>
    obtain ⟨h1, h2⟩ := hs.busy g rfl
    rw [← hI.agrees.list] at h2
    constructor
    · intro f hf
      rw [h2] at hf
      injection hf with hf
      subst hf
      simp only [step, hi]
      exact give _ _ _ h2
    · intro hn
      rw [h2] at hn
      cases hn
  | none =>
    have h1 := hs.idle rfl
    rw [← h1]
    constructor
    · intro f hf
      have hl := hf
      rw [hI.agrees.list] at hl
      simp only [step, hi, hl]
      exact give _ _ _ hf
    · intro hn
      rw [hI.agrees.list] at hn
      simp only [step, hi, hn]
      exact hI.agrees.atEnd

/-- **C22.**  The end of the group (clean, by abort or by abandonment) is reported only after
every appended frame was given to the consumer. -/
theorem c22_end_is_last {tr : Trace} {s : State} (h : machine.Reach tr s) {c : Nat}
    (hc : ConsumerAlive tr c)
    (he : ∀ f id, (step s (.nextFrame c)).1 ≠ .reader f id) :
    (received tr c).length = (appended tr).length ∧ (step s (.nextFrame c)).1 = atEnd tr := by
  obtain ⟨h1, h2⟩ := c22_next_frame h hc
  cases hn : (appended tr)[(received tr c).length]? with
  | some f =>
    obtain ⟨id, hid⟩ := h1 f hn
    exact absurd hid (he f id)
  | none =>
    refine ⟨?_, h2 hn⟩
    have hle := List.getElem?_eq_none_iff.1 hn
    have hI := inv_reach h
    obtain ⟨⟨i, a⟩, hi⟩ := (hI.alive_iff c).1 hc
    have hs := hI.serves.served c i a hi
    rw [hI.agrees.list] at hle ⊢
    have := hs.le
    cases a with
    | none => have := hs.idle rfl; omega
    | some g => have := (hs.busy g rfl).1; omega

open Classical in
/-- **C22.**  The readers handed out by the group start at the beginning of the frame and obey
C18: whatever happens in the group, `read` on a frame reader answers the next chunk written to
that frame that this reader has not been given. -/
theorem c22_frame_reader {tr : Trace} {s : State} (h : machine.Reach tr s) {n f : Nat}
    (hf : (appended tr)[n]? = some f) (r : Nat) :
    (step s (.frame f (.read r))).1 = .frame
      (if Frame.Spec.ConsumerAlive (frameTrace f tr) r then
        match (Frame.Spec.written (frameTrace f tr))[Frame.Spec.position (frameTrace f tr) r]? with
        | some b => .data b
        | none => Frame.Spec.atEnd (frameTrace f tr)
      else .invalid) := by
  obtain ⟨⟨size, fs⟩, h1, h2, h3⟩ := (inv_reach h).frame hf
  have e : (step s (.frame f (.read r))).1 = .frame (Frame.step size fs (.read r)).1 := by
    simp only [step, h1]
    rfl
  rw [e]
  exact congrArg Out.frame (Frame.read_of size h2 h3 r)

/-- A call on a consumer that was dropped or never existed has no answer; in Rust it cannot be
written. -/
theorem c22_invalid {tr : Trace} {s : State} (h : machine.Reach tr s) {c : Nat} :
    (step s (.nextFrame c)).1 = .invalid ↔ ¬ ConsumerAlive tr c := by
  constructor
  · intro he hc
    obtain ⟨h1, h2⟩ := c22_next_frame h hc
    cases hn : (appended tr)[(received tr c).length]? with
    | some f => obtain ⟨id, hid⟩ := h1 f hn; rw [hid] at he; cases he
    | none =>
      have := h2 hn
      rw [he] at this
      unfold Spec.atEnd at this
      split at this
      · cases this
      · cases this
      · split at this <;> cases this
  · intro hc
    cases hi : s.consumers.get c with
    | none => simp only [step, hi]
    | some i => exact absurd (((inv_reach h).alive_iff c).2 ⟨i, hi⟩) hc

/-- A concrete run: two frames, one finished, one reader that took a handle and was cloned. -/
def exampleOps : List Op :=
  [.consume 0, .newFrame 2, .appendFrame 0 0, .frame 0 (.write 0 [1, 2]), .nextFrame 0,
   .newFrame 1, .appendFrame 0 1, .cloneConsumer 0, .readFrameStart 1, .frame 1 (.write 0 [3]),
   .readFrame 1, .frame 1 (.finish 0), .finish 0]

example : ConsumerAlive (machine.run exampleOps).1 1 ∧
    appended (machine.run exampleOps).1 = [0, 1] ∧
    (step (machine.run exampleOps).2 (.readFrame 1)).1 = .data [3] ∧
    (step (machine.run exampleOps).2 (.nextFrame 0)).1 = .reader 1 0 ∧
    (step (machine.run exampleOps).2 (.frame 0 (.read 0))).1 = .frame (.data [1, 2]) := by
  refine ⟨⟨Or.inr ⟨0, ?_⟩, ?_⟩, rfl, rfl, rfl, rfl⟩
  · have e : (machine.run exampleOps).1[7]? = some (.cloneConsumer 0, .handle 1) := rfl
    exact List.mem_of_getElem? e
  · have e : (machine.run exampleOps).1 =
      [(.consume 0, .handle 0), (.newFrame 2, .handle 0), (.appendFrame 0 0, .ok),
       (.frame 0 (.write 0 [1, 2]), .frame .ok), (.nextFrame 0, .reader 0 0),
       (.newFrame 1, .handle 1), (.appendFrame 0 1, .ok), (.cloneConsumer 0, .handle 1),
       (.readFrameStart 1, .pending), (.frame 1 (.write 0 [3]), .frame .ok),
       (.readFrame 1, .pending), (.frame 1 (.finish 0), .frame .ok), (.finish 0, .ok)] := rfl
    rw [e]
    simp

/-! ## C21: reading whole frames is cancel-safe -/

/-- **C21.**  The answer to `read_frame` after any history, including any number of polls that
were cancelled at any point: the whole next frame once it is finished; its abort error; `Cancel`
if it was abandoned; the way the group was closed after the last frame. -/
theorem c21_read_frame {tr : Trace} {s : State} (h : machine.Reach tr s) {c : Nat}
    (hc : ConsumerAlive tr c) :
    (step s (.readFrame c)).1 =
      match (appended tr)[(received tr c).length]? with
      | some f => wholeFrame tr f
      | none => atEnd tr := by
  have hI := inv_reach h
  obtain ⟨⟨i, a⟩, hi⟩ := (hI.alive_iff c).1 hc
  have hs := hI.serves.served c i a hi
  have whole : ∀ (n f j : Nat), (appended tr)[n]? = some f → (readActive s c j f).1 = wholeFrame tr f := by
    intro n f j hf
    obtain ⟨⟨size, fs⟩, h1, h2, h3⟩ := hI.frame hf
    have hra := Frame.readAllAt_of h2 (Nat.zero_le _)
    unfold readActive wholeFrame
    rw [h1]
    simp only
    rw [hra]
    cases hcl : Frame.Spec.closing (frameTrace f tr) with
    | some r =>
      cases r with
      | ok u => simp
      | error e => simp [Frame.Spec.atEnd, hcl]
    | none =>
      simp only [Frame.Spec.atEnd, hcl]
      by_cases hab : Frame.Spec.Abandoned (frameTrace f tr)
      · simp [hab]
      · simp [hab]
  cases a with
  | some g =>
    obtain ⟨h1, h2⟩ := hs.busy g rfl
    rw [← hI.agrees.list] at h2
    rw [h2]
    simp only [step, hi]
    exact whole _ _ _ h2
  | none =>
    have h1 := hs.idle rfl
    rw [← h1]
    cases hn : (appended tr)[i]? with
    | some f =>
      have hl := hn
      rw [hI.agrees.list] at hl
      simp only [step, hi, hl]
      exact whole _ _ _ hn
    | none =>
      rw [hI.agrees.list] at hn
      simp only [step, hi, hn]
      exact hI.agrees.atEnd

/-- A cancelled poll: `read_frame` was polled, did not return, and its future was dropped. -/
def CancelledPoll (s : State) (op : Op) : Prop :=
  (∃ c, op = .readFrameStart c) ∨ (∃ c, op = .readFrame c ∧ (step s op).1 = .pending)

/-- **C21.**  A cancelled poll of any consumer changes no later answer: neither what consumers
have been given, nor what was appended and written, changes. -/
theorem c21_cancel_changes_nothing {tr : Trace} {s : State} (h : machine.Reach tr s) {op : Op}
    (hop : CancelledPoll s op) {c : Nat} (hc : ConsumerAlive tr c) :
    (step (step s op).2 (.readFrame c)).1 = (step s (.readFrame c)).1 := by
  have h' : machine.Reach (tr ++ [(op, (step s op).1)]) (step s op).2 := Machine.Reach.step op h
  have facts : ∀ e : Op × Out, (∃ c, e.1 = .readFrameStart c) ∨
      ((∃ c, e.1 = .readFrame c) ∧ e.2 = .pending) →
      (ConsumerAlive (tr ++ [e]) c ↔ ConsumerAlive tr c) ∧ appended (tr ++ [e]) = appended tr ∧
      received (tr ++ [e]) c = received tr c ∧ (∀ f, frameTrace f (tr ++ [e]) = frameTrace f tr) ∧
      closing (tr ++ [e]) = closing tr ∧ (Abandoned (tr ++ [e]) ↔ Abandoned tr) := by
    rintro ⟨op, out⟩ (⟨d, rfl⟩ | ⟨⟨d, rfl⟩, rfl⟩)
    · refine ⟨by simp [ConsumerAlive], by simp [appended], ?_, by simp [frameTrace],
        by simp [closing], by simp [Abandoned, ProducerMade, ProducerGone, FutureMade, FutureGone]⟩
      rw [received_snoc]; rfl
    · refine ⟨by simp [ConsumerAlive], by simp [appended], ?_, by simp [frameTrace],
        by simp [closing], by simp [Abandoned, ProducerMade, ProducerGone, FutureMade, FutureGone]⟩
      rw [received_snoc]; rfl
  obtain ⟨f1, f2, f3, f4, f5, f6⟩ := facts (op, (step s op).1) (by
    rcases hop with ⟨d, rfl⟩ | ⟨d, rfl, hp⟩
    · exact .inl ⟨d, rfl⟩
    · exact .inr ⟨⟨d, rfl⟩, hp⟩)
  rw [c21_read_frame h hc, c21_read_frame h' (f1.2 hc), f2, f3]
  split
  · unfold wholeFrame; rw [f4]
  · unfold atEnd
    rw [f5]
    cases closing tr with
    | some r => cases r <;> rfl
    | none => by_cases ha : Abandoned tr <;> simp [f6, ha]

example : CancelledPoll (machine.run (exampleOps.take 10)).2 (.readFrame 1) :=
  .inr ⟨1, rfl, rfl⟩

/-- **C21.**  Consequently a consumer that reads only whole frames has been given exactly the
first frames of the group, each whole. -/
theorem c21_whole_frames {tr : Trace} {s : State} (h : machine.Reach tr s) {c : Nat}
    (hc : ConsumerAlive tr c) (bs : List Bytes)
    (hr : received tr c = bs.map .whole) (k : Nat) (b : Bytes) (hb : bs[k]? = some b) :
    ∃ f, (appended tr)[k]? = some f ∧
      b = (Frame.Spec.written (frameTrace f tr)).flatten := by
  obtain ⟨f, h1, h2⟩ := c22_received h hc k (.whole b) (by rw [hr, List.getElem?_map, hb]; rfl)
  exact ⟨f, h1, h2.2⟩

/-- **C22.**  No frame is appended after the group was closed, so the end is final. -/
theorem c22_closed_is_final {tr : Trace} {s : State} (h : machine.Reach tr s)
    (hc : closing tr ≠ none) (op : Op) :
    appended (tr ++ [(op, (step s op).1)]) = appended tr ∧
      closing (tr ++ [(op, (step s op).1)]) ≠ none := by
  have ha := (inv_reach h).agrees
  have hs : s.closed.isSome := by
    rw [← ha.closed]
    cases hx : closing tr with
    | none => exact absurd hx hc
    | some _ => rfl
  constructor
  · rw [appended_snoc]
    cases op with
    | appendFrame p f =>
      simp only [step]
      repeat' split
      all_goals first
        | (simp [appended]; done)
        | simp_all
    | _ => simp [appended]
  · rw [closing_snoc]
    cases hx : closing [(op, (step s op).1)] with
    | none => exact hc
    | some _ => simp

theorem frame_made {tr : Trace} {s : State} (h : machine.Reach tr s) {size f : Nat}
    (hf : (Op.newFrame size, Out.handle f) ∈ tr) : f < s.frames.length := by
  revert hf
  refine Machine.Reach.induct (M := machine)
    (P := fun tr s => (Op.newFrame size, Out.handle f) ∈ tr → f < s.frames.length) ?_ ?_ h
  · intro hf; cases hf
  · intro tr s op _ ih hf
    rcases List.mem_append.1 hf with hf | hf
    · exact Nat.lt_of_lt_of_le (ih hf) (frames_length s op)
    · have he := List.mem_singleton.1 hf
      injection he with h1 h2
      subst h1
      simp only [step] at h2 ⊢
      injection h2 with h2
      simp [h2]

/-- **C22.**  A frame can be appended exactly as long as the group was not closed; afterwards
appending panics. -/
theorem c22_append {tr : Trace} {s : State} (h : machine.Reach tr s) {p f size : Nat}
    (hp : ProducerMade tr p ∧ ¬ ProducerGone tr p)
    (hf : (Op.newFrame size, Out.handle f) ∈ tr) :
    (step s (.appendFrame p f)).1 = if closing tr = none then .ok else .panic := by
  have ha := (inv_reach h).agrees
  have hl := (ha.producers.live p).2 hp
  have hlt := frame_made h hf
  obtain ⟨u, hu⟩ := Option.isSome_iff_exists.1 hl
  simp only [step, hu, List.getElem?_eq_getElem hlt, ha.closed]
  cases s.closed <;> rfl

/-- A run in which both cases occur: a clone of the producer is left after the group is finished. -/
example : (machine.step (machine.run [.newFrame 3, .cloneProducer 0]).2 (.appendFrame 1 0)).1 = .ok ∧
    (machine.step (machine.run [.newFrame 3, .cloneProducer 0, .finish 0]).2
      (.appendFrame 1 0)).1 = .panic := ⟨rfl, rfl⟩

/-! ## C73: unused notifications -/

open Classical in
/-- **C73.**  After any history, a live `unused()` future of a group is ready exactly if no consumer
exists. -/
theorem c73_group {tr : Trace} {s : State} (h : machine.Reach tr s) (f : Nat) :
    (step s (.pollUnused f)).1 =
      if FutureMade tr f ∧ ¬ FutureGone tr f then
        if ∃ c, ConsumerAlive tr c then .pending else .ok
      else .invalid := by
  have hl := (inv_reach h).agrees.futures.live f
  have hc : s.consumers.count = 0 ↔ ¬ ∃ c, ConsumerAlive tr c := by
    rw [Slots.count_eq_zero]
    constructor
    · rintro hn ⟨c, hc⟩
      obtain ⟨i, hi⟩ := ((inv_reach h).alive_iff c).1 hc
      rw [hn c] at hi
      cases hi
    · intro hn c
      cases hx : s.consumers.get c with
      | none => rfl
      | some i => exact absurd ⟨c, ((inv_reach h).alive_iff c).2 ⟨i, hx⟩⟩ hn
  simp only [step]
  cases hf : s.futures.get f with
  | none =>
    rw [hf] at hl
    show Out.invalid = _
    rw [if_neg (by rw [← hl]; simp)]
  | some w =>
    rw [hf] at hl
    show (if s.consumers.count = 0 then Out.ok else .pending) = _
    rw [if_pos (hl.1 rfl)]
    by_cases hx : ∃ c, ConsumerAlive tr c
    · rw [if_pos hx, if_neg (by rw [hc]; simpa using hx)]
    · rw [if_neg hx, if_pos (hc.2 hx)]

/-- A run in which the future exists: pending with a consumer, ready after it is dropped. -/
example : (machine.step (machine.run [.unused 0, .consume 0]).2 (.pollUnused 0)).1 = .pending ∧
    (machine.step (machine.run [.unused 0, .consume 0, .dropConsumer 0]).2
      (.pollUnused 0)).1 = .ok := ⟨rfl, rfl⟩

end Verif.Props.Group
