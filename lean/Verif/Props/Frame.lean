import Verif.Model.FrameLemmas

/-!
# Properties of frames: C18, C19, C20

The vocabulary (`written`, `closing`, `received`, `position`, …) is defined from the history of
calls and answers in `Verif/Model/FrameSpec.lean`.
-/

namespace Verif.Props.Frame

open Verif Verif.Session Verif.Model.Frame Verif.Model.Frame.Spec

/-! ## C18: a frame's readers get exactly the bytes written, in order -/

/-- **C18.**  After any history, what a consumer (with the consumers it was cloned from) has been
given is exactly an initial part of what was written, every chunk once and in order. -/
theorem c18_received {size : Nat} {tr : Trace} {s : State} (h : (machine size).Reach tr s) {c}
    (hc : ConsumerAlive tr c) : Covers (received tr c) ((written tr).take (position tr c)) :=
  received_of (agrees_reach h) (serves_reach h) hc

open Classical in
/-- **C18.**  The answer to `read` after any history: the next chunk that was written, if the
consumer has not been given it yet; only otherwise the way the frame was closed. -/
theorem c18_read {size : Nat} {tr : Trace} {s : State} (h : (machine size).Reach tr s) (c : Nat) :
    (step size s (.read c)).1 =
      if ConsumerAlive tr c then
        match (written tr)[position tr c]? with
        | some b => .data b
        | none => atEnd tr
      else .invalid :=
  read_of size (agrees_reach h) (serves_reach h) c

open Classical in
/-- **C18.**  The answer to `read_all` after any history: once the frame is finished, all the
chunks not given to this consumer yet. -/
theorem c18_readAll {size : Nat} {tr : Trace} {s : State} (h : (machine size).Reach tr s)
    (c : Nat) :
    (step size s (.readAll c)).1 =
      if ConsumerAlive tr c then
        match closing tr with
        | some (.ok _) => .data ((written tr).drop (position tr c)).flatten
        | _ => atEnd tr
      else .invalid :=
  readAll_of size (agrees_reach h) (serves_reach h) c

/-- **C18.**  The end is reported only after the frame is finished and the consumer was given
every chunk. -/
theorem c18_end_is_last {size : Nat} {tr : Trace} {s : State} (h : (machine size).Reach tr s) {c : Nat}
    (he : (step size s (.read c)).1 = .ended) :
    closing tr = some (.ok ()) ∧ Covers (received tr c) (written tr) := by
  rw [c18_read h] at he
  split at he
  · rename_i hc
    split at he
    · cases he
    · rename_i hn
      constructor
      · unfold atEnd at he
        split at he
        · assumption
        · cases he
        · split at he <;> cases he
      · have := c18_received h hc
        rwa [List.take_of_length_le (List.getElem?_eq_none_iff.1 hn)] at this
  · cases he

/-- **C18.**  Nothing is added to a frame after it was closed, so the end is final. -/
theorem c18_closed_is_final {size : Nat} {tr : Trace} {s : State} (h : (machine size).Reach tr s)
    (hc : closing tr ≠ none) (op : Op) :
    written (tr ++ [(op, (step size s op).1)]) = written tr ∧
      closing (tr ++ [(op, (step size s op).1)]) ≠ none := by
  have ha := agrees_reach h
  have ha' := ha.step size op
  have hs : s.closed.isSome := by
    rw [← ha.closed]
    cases hx : closing tr with
    | none => exact absurd hx hc
    | some _ => rfl
  obtain ⟨h1, h2⟩ := step_closed (size := size) op hs
  refine ⟨by rw [ha'.chunks, ha.chunks, h1], ?_⟩
  rw [ha'.closed]
  intro hx
  rw [hx] at h2
  cases h2

/-- A concrete run: two chunks, one consumer read one chunk and was cloned, the clone reads on. -/
def exampleOps : List Op :=
  [.write 0 [1, 2], .consume 0, .read 0, .write 0 [3], .cloneConsumer 0, .read 1, .finish 0]

example : ConsumerAlive ((machine 3).run exampleOps).1 1 ∧
    (machine 3).Reach ((machine 3).run exampleOps).1 ((machine 3).run exampleOps).2 ∧
    ((machine 3).step ((machine 3).run exampleOps).2 (.read 0)).1 = Out.data [3] ∧
    ((machine 3).step ((machine 3).run exampleOps).2 (.read 1)).1 = Out.ended := by
  refine ⟨⟨Or.inr ⟨0, ?_⟩, ?_⟩, (machine 3).reach_run _, rfl, rfl⟩
  · simp [exampleOps, Machine.run, Machine.runFrom, machine, init, step, Slots.get, Slots.put,
      Slots.add]
  · simp [exampleOps, Machine.run, Machine.runFrom, machine, init, step, Slots.get, Slots.put,
      Slots.add]

/-! ## C19: a cleanly finished frame has exactly its declared size -/

/-- The number of bytes in pieces. -/
def amount (ps : List Piece) : Nat := (ps.map fun p => p.bytes.length).sum

theorem amount_covers {ps cs} (h : Covers ps cs) : amount ps = cs.flatten.length := by
  induction h with
  | nil => rfl
  | one b _ ih => simp [amount, Piece.bytes] at ih ⊢; omega
  | all xs _ ih => simp [amount, Piece.bytes] at ih ⊢; omega

theorem exact_reach {size : Nat} {tr : Trace} {s : State} (h : (machine size).Reach tr s)
    (hn : ∀ p id, (Op.cloneProducer p, Out.handle id) ∉ tr) : Exact size s := by
  revert hn
  refine reach_induct (P := fun tr s => (∀ p id, (Op.cloneProducer p, Out.handle id) ∉ tr) →
    Exact size s) ?_ ?_ h
  · intro _
    exact exact_init size
  · intro tr s op _ ih hn
    refine (ih fun p id hx => hn p id (List.mem_append_left _ hx)).step op ?_
    rintro p id ⟨h1, h2⟩
    apply hn p id
    subst h1
    rw [h2]
    simp

/-- **C19**, partial: for frames whose producer is never cloned.  No consumer is ever given more
than the declared size; a consumer told that the frame is complete has been given exactly the
declared size; reading the rest completes exactly the declared size.

Missing: producers may be cloned (`FrameProducer: Clone`), and then the property is false, see
`c19_clone_oversize` and `c19_clone_undersize`. -/
theorem c19_exact_size_partial {size : Nat} {tr : Trace} {s : State} (h : (machine size).Reach tr s)
    (hn : ∀ p id, (Op.cloneProducer p, Out.handle id) ∉ tr) {c} (hc : ConsumerAlive tr c) :
    amount (received tr c) ≤ size ∧
    ((step size s (.read c)).1 = .ended → amount (received tr c) = size) ∧
    (∀ b, (step size s (.readAll c)).1 = .data b → amount (received tr c) + b.length = size) := by
  have hx := exact_reach h hn
  have ha := agrees_reach h
  have hcov := c18_received h hc
  have hsplit : (written tr).flatten.length =
      ((written tr).take (position tr c)).flatten.length +
        ((written tr).drop (position tr c)).flatten.length := by
    rw [← List.length_append, ← List.flatten_append, List.take_append_drop]
  have hb := hx.bound
  rw [← ha.chunks] at hb
  rw [amount_covers hcov]
  refine ⟨by omega, ?_, ?_⟩
  · intro he
    obtain ⟨h1, h2⟩ := c18_end_is_last h he
    rw [← amount_covers hcov, amount_covers h2, ha.chunks]
    exact hx.finished (by rw [← ha.closed, h1])
  · intro b hb
    rw [c18_readAll h, if_pos hc] at hb
    split at hb
    · rename_i u hcl
      injection hb with hb
      rw [← hb, ← hsplit, ha.chunks]
      exact hx.finished (by rw [← ha.closed, hcl])
    · unfold atEnd at hb
      split at hb
      · cases hb
      · cases hb
      · split at hb <;> cases hb

/-- The hypotheses of `c19_exact_size_partial` are met by the run above. -/
example : (∀ p id, (Op.cloneProducer p, Out.handle id) ∉ ((machine 3).run exampleOps).1) := by
  simp [exampleOps, Machine.run, Machine.runFrom, machine, init, step, Slots.get, Slots.put,
    Slots.add]

open Classical in
/-- **C19.**  A write is accepted exactly if the frame is open and the bytes offered through this
producer, these included, are at most the declared size.  With or without clones. -/
theorem c19_write {size : Nat} {tr : Trace} {s : State} (h : (machine size).Reach tr s) (p : Nat)
    (b : Bytes) :
    (step size s (.write p b)).1 =
      if ProducerMade tr p ∧ ¬ ProducerGone tr p then
        if offered tr p + b.length ≤ size ∧ closing tr = none then .ok else .panic
      else .invalid := by
  have ha := agrees_reach h
  have hl := ha.producers.live p
  simp only [step]
  cases hp : s.producers.get p with
  | none =>
    rw [hp] at hl
    rw [if_neg (by rw [← hl]; simp)]
  | some w =>
    rw [hp] at hl
    rw [if_pos (hl.1 rfl), ← offers_reach h p w hp, ha.closed]
    by_cases h1 : w + b.length ≤ size
    · cases h2 : s.closed with
      | none => simp [h1]
      | some r => simp [h1]
    · simp [h1]

open Classical in
/-- **C19.**  Finishing succeeds exactly if the bytes offered through this producer are the declared
size. -/
theorem c19_finish {size : Nat} {tr : Trace} {s : State} (h : (machine size).Reach tr s) (p : Nat) :
    (step size s (.finish p)).1 =
      if ProducerMade tr p ∧ ¬ ProducerGone tr p then
        if offered tr p = size then .ok else .panic
      else .invalid := by
  have hl := (agrees_reach h).producers.live p
  simp only [step]
  cases hp : s.producers.get p with
  | none =>
    rw [hp] at hl
    rw [if_neg (by rw [← hl]; simp)]
  | some w =>
    rw [hp] at hl
    rw [if_pos (hl.1 rfl), ← offers_reach h p w hp]
    simp only
    split <;> rfl

example : offered ((machine 3).run exampleOps).1 0 = 3 := rfl

/-- **C19 is violated with clones**: a frame of declared size 2 is delivered as complete with 4
bytes. -/
theorem c19_clone_oversize :
    ∃ tr s, (machine 2).Reach tr s ∧ amount (received tr 0) = 4 ∧
      (step 2 s (.read 0)).1 = .ended :=
  ⟨_, _, (machine 2).reach_run
    [.consume 0, .cloneProducer 0, .write 0 [1, 2], .write 1 [3, 4], .finish 0, .read 0, .read 0],
    rfl, rfl⟩

/-- **C19 is violated with clones**: a frame of declared size 2 is delivered as complete with no
bytes, after a write to the aborted frame panicked. -/
theorem c19_clone_undersize :
    ∃ tr s, (machine 2).Reach tr s ∧ amount (received tr 0) = 0 ∧
      (step 2 s (.read 0)).1 = .ended :=
  ⟨_, _, (machine 2).reach_run
    [.consume 0, .cloneProducer 0, .abort 0 .cancel, .write 1 [3, 4], .finish 1],
    rfl, rfl⟩

/-! ## C20: an unfinished frame is never delivered as complete -/

/-- **C20**, partial: as long as no handle has finished the frame, no consumer is told that it is
complete.  If it was aborted, `read` gives the remaining chunks and then the abort error, and
`read_all` gives the abort error; if it was abandoned the error is `Cancel`.

Missing: the claim for a frame that was aborted by one producer and then finished by a clone of
it, for which it is false, see `c20_finish_overrides_abort`. -/
theorem c20_unfinished_partial {size : Nat} {tr : Trace} {s : State} (h : (machine size).Reach tr s)
    (hn : ∀ p, (Op.finish p, Out.ok) ∉ tr) {c} (hc : ConsumerAlive tr c) :
    (step size s (.read c)).1 ≠ .ended ∧
    (∀ b, (step size s (.readAll c)).1 ≠ .data b) ∧
    (∀ err, (closing tr = some (.error err) ∨ closing tr = none ∧ Abandoned tr ∧ err = .cancel) →
      (step size s (.readAll c)).1 = .err err ∧
      (step size s (.read c)).1 =
        match (written tr)[position tr c]? with
        | some b => .data b
        | none => .err err) := by
  have hcl : closing tr ≠ some (.ok ()) := by
    intro hx
    unfold closing at hx
    have := List.mem_of_getLast? hx
    rw [List.mem_filterMap] at this
    obtain ⟨⟨op, out⟩, hm, he⟩ := this
    split at he
    · rename_i hh
      injection hh with h1 h2
      subst h1; subst h2
      exact hn _ hm
    · cases he
    · cases he
  refine ⟨fun hx => hcl (c18_end_is_last h hx).1, ?_, ?_⟩
  · intro b hx
    rw [c18_readAll h, if_pos hc] at hx
    split at hx
    · rename_i heq; exact hcl heq
    · unfold atEnd at hx
      split at hx
      · cases hx
      · cases hx
      · split at hx <;> cases hx
  · intro err he
    have hend : atEnd tr = .err err := by
      unfold atEnd
      rcases he with he | ⟨he, ha, rfl⟩
      · rw [he]
      · rw [he]; simp only; rw [if_pos ha]
    rw [c18_read h, c18_readAll h, if_pos hc, if_pos hc, hend]
    refine ⟨?_, rfl⟩
    split
    · rename_i heq; exact absurd heq hcl
    · rfl

/-- A concrete run: one chunk of two, then the producer is dropped. -/
def cutOps : List Op := [.consume 0, .write 0 [1], .dropProducer 0]

example : closing ((machine 2).run cutOps).1 = none ∧ Abandoned ((machine 2).run cutOps).1 ∧
    ConsumerAlive ((machine 2).run cutOps).1 0 := by
  have e : ((machine 2).run cutOps).1 =
      [(.consume 0, .handle 0), (.write 0 [1], .ok), (.dropProducer 0, .ok)] := rfl
  rw [e]
  refine ⟨rfl, ⟨?_, ?_⟩, ?_⟩
  · intro p hp
    simp [ProducerMade] at hp
    simp [ProducerGone, hp]
  · intro f hf
    simp [FutureMade] at hf
  · simp [ConsumerAlive]

/-- **C20 is violated with clones**: an aborted frame is delivered as complete because a clone
of the producer finishes it afterwards. -/
theorem c20_finish_overrides_abort :
    ∃ tr s, (machine 1).Reach tr s ∧ (Op.abort 1 .cancel, Out.ok) ∈ tr ∧
      (step 1 s (.readAll 0)).1 = .data [7] := by
  refine ⟨_, _, (machine 1).reach_run
    [.consume 0, .write 0 [7], .cloneProducer 0, .abort 1 .cancel, .finish 0], ?_, rfl⟩
  simp [Machine.run, Machine.runFrom, machine, init, step, Slots.get, Slots.put, Slots.add]

/-! ## C73: unused notifications -/

open Classical in
/-- **C73.**  After any history, a live `unused()` future of a frame is ready exactly if no consumer
exists. -/
theorem c73_frame {size : Nat} {tr : Trace} {s : State} (h : (machine size).Reach tr s) (f : Nat) :
    (step size s (.pollUnused f)).1 =
      if FutureMade tr f ∧ ¬ FutureGone tr f then
        if ∃ c, ConsumerAlive tr c then .pending else .ok
      else .invalid := by
  have hl := (agrees_reach h).futures.live f
  have hc : s.consumers.count = 0 ↔ ¬ ∃ c, ConsumerAlive tr c := by
    rw [Slots.count_eq_zero]
    constructor
    · rintro hn ⟨c, hc⟩
      obtain ⟨i, hi⟩ := ((serves_reach h).alive_iff c).1 hc
      rw [hn c] at hi
      cases hi
    · intro hn c
      cases hx : s.consumers.get c with
      | none => rfl
      | some i => exact absurd ⟨c, ((serves_reach h).alive_iff c).2 ⟨i, hx⟩⟩ hn
  simp only [step]
  cases hf : s.futures.get f with
  | none =>
    rw [hf] at hl
    show Out.invalid = _
    rw [if_neg (by rw [← hl]; simp)]
  | some w =>
    rw [hf] at hl
    show (if s.consumers.count = 0 then Out.ok else .pending) = _
    rw [if_pos (hl.1 rfl)]
    by_cases hx : ∃ c, ConsumerAlive tr c
    · rw [if_pos hx, if_neg (by rw [hc]; simpa using hx)]
    · rw [if_neg hx, if_pos (hc.2 hx)]

/-- A run in which the future exists: pending with a consumer, ready after it is dropped. -/
example : ((machine 3).step ((machine 3).run [.unused 0, .consume 0]).2 (.pollUnused 0)).1 = .pending ∧
    ((machine 3).step ((machine 3).run [.unused 0, .consume 0, .dropConsumer 0]).2
      (.pollUnused 0)).1 = .ok := ⟨rfl, rfl⟩

end Verif.Props.Frame
