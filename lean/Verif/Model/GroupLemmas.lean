import Verif.Model.GroupSpec
import Verif.Model.FrameLemmas

/-!
# Invariants of the group machine
-/

set_option autoImplicit false

namespace Verif.Model.Group

open Verif Verif.Session Verif.Model.Group.Spec

/-- Consumer `c` was created. -/
def ConsumerMade (tr : Trace) (c : Nat) : Prop :=
  (∃ p, (Op.consume p, Out.handle c) ∈ tr) ∨ (∃ d, (Op.cloneConsumer d, Out.handle c) ∈ tr)

/-- Consumer `c` was dropped. -/
def ConsumerGone (tr : Trace) (c : Nat) : Prop := (Op.dropConsumer c, Out.ok) ∈ tr

/-- The invariant about the shared state and the handle tables. -/
structure Agrees (tr : Trace) (s : State) : Prop where
  list : appended tr = s.list
  closed : closing tr = s.closed
  producers : s.producers.Tracks (ProducerMade tr) (ProducerGone tr)
  futures : s.futures.Tracks (FutureMade tr) (FutureGone tr)
  consumers : s.consumers.Tracks (ConsumerMade tr) (ConsumerGone tr)

theorem appended_snoc (tr : Trace) (e : Op × Out) :
    appended (tr ++ [e]) = appended tr ++ appended [e] := by
  simp [appended]

theorem closing_snoc (tr : Trace) (e : Op × Out) :
    closing (tr ++ [e]) = (closing [e]).or (closing tr) := by
  unfold closing
  rw [List.filterMap_append, List.getLast?_append]

theorem agrees_init : Agrees [] init := by
  constructor
  · rfl
  · rfl
  · constructor
    · intro i
      unfold init ProducerMade ProducerGone
      cases i <;> simp [Slots.get]
    · intro i
      unfold init ProducerMade ProducerGone
      simp
  · constructor
    · intro i; simp [init, FutureMade, Slots.get]
    · intro i; simp [FutureMade, FutureGone]
  · constructor
    · intro i; simp [init, ConsumerMade, Slots.get]
    · intro i; simp [ConsumerMade, ConsumerGone]

theorem Agrees.senders {tr s} (h : Agrees tr s) : s.senders = 0 ↔ Abandoned tr := by
  unfold State.senders Abandoned
  have e1 : s.producers.count = 0 ↔ ∀ p, ProducerMade tr p → ProducerGone tr p := by
    rw [Slots.count_eq_zero]
    refine forall_congr' fun p => ?_
    have := h.producers.live p
    cases hg : s.producers.get p <;> simp_all
  have e2 : s.futures.count = 0 ↔ ∀ f, FutureMade tr f → FutureGone tr f := by
    rw [Slots.count_eq_zero]
    refine forall_congr' fun p => ?_
    have := h.futures.live p
    cases hg : s.futures.get p <;> simp_all
  rw [← e1, ← e2]
  omega

theorem Agrees.atEnd {tr s} (h : Agrees tr s) : s.atEnd = Spec.atEnd tr := by
  unfold State.atEnd Spec.atEnd
  rw [h.closed]
  cases s.closed with
  | some r => cases r <;> rfl
  | none =>
    simp only
    by_cases ha : Abandoned tr
    · rw [if_pos (h.senders.2 ha), if_pos ha]
    · rw [if_neg (fun hx => ha (h.senders.1 hx)), if_neg ha]

/-- The events that change the shared state or a handle table. -/
def Plain (e : Op × Out) : Prop :=
  match e.1, e.2 with
  | .appendFrame _ _, .ok | .finish _, .ok | .abort _ _, .ok
  | .cloneProducer _, .handle _ | .dropProducer _, .ok | .unused _, .handle _
  | .dropUnused _, .ok | .consume _, .handle _ | .cloneConsumer _, .handle _
  | .dropConsumer _, .ok => False
  | _, _ => True

theorem Agrees.plain {tr s} {s' : State} {e : Op × Out} (h : Agrees tr s) (he : Plain e)
    (h1 : s'.list = s.list) (h2 : s'.closed = s.closed) (h3 : s'.producers = s.producers)
    (h4 : s'.futures = s.futures)
    (h5 : s'.consumers.Tracks (ConsumerMade tr) (ConsumerGone tr)) : Agrees (tr ++ [e]) s' := by
  obtain ⟨op, out⟩ := e
  unfold Plain at he
  constructor
  · rw [appended_snoc, h1, ← h.list]
    cases op <;> cases out <;> simp_all [appended]
  · rw [closing_snoc, h2, ← h.closed]
    cases op <;> cases out <;> simp_all [closing]
  · rw [h3]
    refine h.producers.congr (fun i => ?_) (fun i => ?_)
    · unfold ProducerMade
      cases op <;> cases out <;> simp_all
    · unfold ProducerGone
      cases op <;> cases out <;> simp_all
  · rw [h4]
    refine h.futures.congr (fun i => ?_) (fun i => ?_)
    · unfold FutureMade
      cases op <;> cases out <;> simp_all
    · unfold FutureGone
      cases op <;> cases out <;> simp_all
  · refine h5.congr (fun i => ?_) (fun i => ?_)
    · unfold ConsumerMade
      cases op <;> cases out <;> simp_all
    · unfold ConsumerGone
      cases op <;> cases out <;> simp_all

theorem Agrees.plain' {tr s} {e : Op × Out} (h : Agrees tr s) (he : Plain e) :
    Agrees (tr ++ [e]) s :=
  h.plain he rfl rfl rfl rfl h.consumers

theorem Agrees.put {tr s} (h : Agrees tr s) {c x} (hc : s.consumers.get c = some x) (v) :
    (s.consumers.put c (some v)).Tracks (ConsumerMade tr) (ConsumerGone tr) :=
  h.consumers.put_some v hc (fun _ => Iff.rfl) (fun _ => Iff.rfl)

theorem Agrees.readActive {tr s} (h : Agrees tr s) {op : Op} {c x i f}
    (hc : s.consumers.get c = some x) (hop : ∃ d, op = .readFrame d) :
    Agrees (tr ++ [(op, (readActive s c i f).1)]) (readActive s c i f).2 := by
  obtain ⟨d, rfl⟩ := hop
  unfold Group.readActive
  split
  · exact h.plain' trivial
  · split <;> exact h.plain trivial rfl rfl rfl rfl (h.put hc _)

theorem Agrees.giveReader {tr s} (h : Agrees tr s) {op : Op} {c x i f}
    (hc : s.consumers.get c = some x) (hop : ∃ d, op = .nextFrame d) :
    Agrees (tr ++ [(op, (giveReader s c i f).1)]) (giveReader s c i f).2 := by
  obtain ⟨d, rfl⟩ := hop
  unfold Group.giveReader
  split
  · exact h.plain' trivial
  · exact h.plain trivial rfl rfl rfl rfl (h.put hc _)

theorem Agrees.step {tr s} (h : Agrees tr s) (op : Op) :
    Agrees (tr ++ [(op, (step s op).1)]) (step s op).2 := by
  have tables : ∀ e : Op × Out,
      (∀ i, (ProducerMade (tr ++ [e]) i ↔ ProducerMade tr i) ∧
        (ProducerGone (tr ++ [e]) i ↔ ProducerGone tr i)) →
      s.producers.Tracks (ProducerMade (tr ++ [e])) (ProducerGone (tr ++ [e])) := fun e he =>
    h.producers.congr (fun i => (he i).1) (fun i => (he i).2)
  cases op with
  | newFrame size => exact h.plain trivial rfl rfl rfl rfl h.consumers
  | frame f op =>
    simp only [Group.step]
    split
    · exact h.plain' trivial
    · split
      · exact h.plain' trivial
      · exact h.plain trivial rfl rfl rfl rfl h.consumers
  | appendFrame p f =>
    simp only [Group.step]
    split
    · split
      · exact h.plain' trivial
      · constructor
        · rw [appended_snoc, h.list]; rfl
        · rw [closing_snoc]; simpa [closing] using h.closed
        · exact h.producers.congr (fun i => by simp [ProducerMade]) (fun i => by simp [ProducerGone])
        · exact h.futures.congr (fun i => by simp [FutureMade]) (fun i => by simp [FutureGone])
        · exact h.consumers.congr (fun i => by simp [ConsumerMade]) (fun i => by simp [ConsumerGone])
    · exact h.plain' trivial
  | finish p =>
    simp only [Group.step]
    split
    · exact h.plain' trivial
    · rename_i hw
      constructor
      · rw [appended_snoc]; simpa [appended] using h.list
      · rw [closing_snoc]; simp [closing]
      · exact h.producers.put_none hw (fun i => by simp [ProducerMade])
          (fun i => by simp [ProducerGone]; grind)
      · exact h.futures.congr (fun i => by simp [FutureMade]) (fun i => by simp [FutureGone])
      · exact h.consumers.congr (fun i => by simp [ConsumerMade]) (fun i => by simp [ConsumerGone])
  | abort p e =>
    simp only [Group.step]
    split
    · exact h.plain' trivial
    · rename_i hw
      constructor
      · rw [appended_snoc]; simpa [appended] using h.list
      · rw [closing_snoc]; simp [closing]
      · exact h.producers.put_none hw (fun i => by simp [ProducerMade])
          (fun i => by simp [ProducerGone]; grind)
      · exact h.futures.congr (fun i => by simp [FutureMade]) (fun i => by simp [FutureGone])
      · exact h.consumers.congr (fun i => by simp [ConsumerMade]) (fun i => by simp [ConsumerGone])
  | cloneProducer p =>
    simp only [Group.step]
    split
    · exact h.plain' trivial
    · constructor
      · rw [appended_snoc]; simpa [appended] using h.list
      · rw [closing_snoc]; simpa [closing] using h.closed
      · exact h.producers.add () (fun i => by simp [ProducerMade]; grind)
          (fun i => by simp [ProducerGone])
      · exact h.futures.congr (fun i => by simp [FutureMade]) (fun i => by simp [FutureGone])
      · exact h.consumers.congr (fun i => by simp [ConsumerMade]) (fun i => by simp [ConsumerGone])
  | dropProducer p =>
    simp only [Group.step]
    split
    · exact h.plain' trivial
    · rename_i hw
      constructor
      · rw [appended_snoc]; simpa [appended] using h.list
      · rw [closing_snoc]; simpa [closing] using h.closed
      · exact h.producers.put_none hw (fun i => by simp [ProducerMade])
          (fun i => by simp [ProducerGone]; grind)
      · exact h.futures.congr (fun i => by simp [FutureMade]) (fun i => by simp [FutureGone])
      · exact h.consumers.congr (fun i => by simp [ConsumerMade]) (fun i => by simp [ConsumerGone])
  | consume p =>
    simp only [Group.step]
    split
    · exact h.plain' trivial
    · constructor
      · rw [appended_snoc]; simpa [appended] using h.list
      · rw [closing_snoc]; simpa [closing] using h.closed
      · exact h.producers.congr (fun i => by simp [ProducerMade]) (fun i => by simp [ProducerGone])
      · exact h.futures.congr (fun i => by simp [FutureMade]) (fun i => by simp [FutureGone])
      · exact h.consumers.add _ (fun i => by simp [ConsumerMade]; grind)
          (fun i => by simp [ConsumerGone])
  | unused p =>
    simp only [Group.step]
    split
    · exact h.plain' trivial
    · constructor
      · rw [appended_snoc]; simpa [appended] using h.list
      · rw [closing_snoc]; simpa [closing] using h.closed
      · exact h.producers.congr (fun i => by simp [ProducerMade]) (fun i => by simp [ProducerGone])
      · exact h.futures.add () (fun i => by simp [FutureMade]; grind) (fun i => by simp [FutureGone])
      · exact h.consumers.congr (fun i => by simp [ConsumerMade]) (fun i => by simp [ConsumerGone])
  | pollUnused f =>
    simp only [Group.step]
    split <;> exact h.plain' trivial
  | dropUnused f =>
    simp only [Group.step]
    split
    · exact h.plain' trivial
    · rename_i hw
      constructor
      · rw [appended_snoc]; simpa [appended] using h.list
      · rw [closing_snoc]; simpa [closing] using h.closed
      · exact h.producers.congr (fun i => by simp [ProducerMade]) (fun i => by simp [ProducerGone])
      · exact h.futures.put_none hw (fun i => by simp [FutureMade]) (fun i => by simp [FutureGone])
      · exact h.consumers.congr (fun i => by simp [ConsumerMade]) (fun i => by simp [ConsumerGone])
  | cloneConsumer c =>
    simp only [Group.step]
    split
    · exact h.plain' trivial
    · constructor
      · rw [appended_snoc]; simpa [appended] using h.list
      · rw [closing_snoc]; simpa [closing] using h.closed
      · exact h.producers.congr (fun i => by simp [ProducerMade]) (fun i => by simp [ProducerGone])
      · exact h.futures.congr (fun i => by simp [FutureMade]) (fun i => by simp [FutureGone])
      · exact h.consumers.add _ (fun i => by simp [ConsumerMade]; grind)
          (fun i => by simp [ConsumerGone])
  | dropConsumer c =>
    simp only [Group.step]
    split
    · exact h.plain' trivial
    · rename_i hw
      constructor
      · rw [appended_snoc]; simpa [appended] using h.list
      · rw [closing_snoc]; simpa [closing] using h.closed
      · exact h.producers.congr (fun i => by simp [ProducerMade]) (fun i => by simp [ProducerGone])
      · exact h.futures.congr (fun i => by simp [FutureMade]) (fun i => by simp [FutureGone])
      · exact h.consumers.put_none hw (fun i => by simp [ConsumerMade])
          (fun i => by simp [ConsumerGone])
  | nextFrame c =>
    simp only [Group.step]
    split
    · exact h.plain' trivial
    · rename_i hc; exact h.giveReader hc ⟨_, rfl⟩
    · rename_i hc
      split
      · exact h.giveReader hc ⟨_, rfl⟩
      · exact h.plain' trivial
  | readFrameStart c =>
    simp only [Group.step]
    split
    · exact h.plain' trivial
    · exact h.plain' trivial
    · rename_i hc
      split
      · exact h.plain trivial rfl rfl rfl rfl (h.put hc _)
      · exact h.plain' trivial
  | readFrame c =>
    simp only [Group.step]
    split
    · exact h.plain' trivial
    · rename_i hc; exact h.readActive hc ⟨_, rfl⟩
    · rename_i hc
      split
      · exact h.readActive hc ⟨_, rfl⟩
      · exact h.plain' trivial

/-! ## The frames inside the group -/

theorem frameTrace_snoc (f : Nat) (tr : Trace) (e : Op × Out) :
    frameTrace f (tr ++ [e]) = frameTrace f tr ++ frameTrace f [e] := by
  simp [frameTrace]

/-- Every frame behaves as its own history says. -/
structure FramesAgree (tr : Trace) (s : State) : Prop where
  agrees : ∀ f size fs, s.frames[f]? = some (size, fs) →
    Frame.Agrees (frameTrace f tr) fs ∧ Frame.Serves (frameTrace f tr) fs
  none : ∀ f, s.frames.length ≤ f → frameTrace f tr = []

theorem framesAgree_init : FramesAgree [] init :=
  ⟨fun f size fs h => by simp [init] at h, fun _ _ => rfl⟩

theorem FramesAgree.same {tr s} {s' : State} {e : Op × Out} (h : FramesAgree tr s)
    (hs : s'.frames = s.frames) (he : ∀ f, frameTrace f [e] = []) : FramesAgree (tr ++ [e]) s' := by
  constructor
  · intro f size fs hf
    rw [hs] at hf
    rw [frameTrace_snoc, he, List.append_nil]
    exact h.agrees f size fs hf
  · intro f hf
    rw [hs] at hf
    rw [frameTrace_snoc, he, List.append_nil]
    exact h.none f hf

theorem FramesAgree.giveReader {tr s} (h : FramesAgree tr s) (d c i f : Nat) :
    FramesAgree (tr ++ [(.nextFrame d, (Group.giveReader s c i f).1)])
      (Group.giveReader s c i f).2 := by
  unfold Group.giveReader
  split
  · exact h.same rfl fun _ => rfl
  · rename_i size fs hf
    have hlt : f < s.frames.length := by
      rw [List.getElem?_eq_some_iff] at hf; exact hf.1
    obtain ⟨ha, hv⟩ := h.agrees f size fs hf
    constructor
    · intro g size' gs hg
      dsimp only at hg
      rw [List.getElem?_set] at hg
      rw [frameTrace_snoc]
      by_cases hfg : f = g
      · subst hfg
        rw [if_pos rfl, if_pos hlt] at hg
        injection hg with hg
        injection hg with hg1 hg2
        subst hg1; subst hg2
        have e : frameTrace f [(Op.nextFrame d, Out.reader f fs.consumers.length)] =
            [(.consume 0, .handle fs.consumers.length)] := by simp [frameTrace]
        rw [e]
        exact ⟨ha.addConsumer 0, hv.addConsumer 0⟩
      · rw [if_neg hfg] at hg
        have e : frameTrace g [(Op.nextFrame d, Out.reader f fs.consumers.length)] = [] := by
          simp [frameTrace, hfg]
        rw [e, List.append_nil]
        exact h.agrees g size' gs hg
    · intro g hg
      dsimp only at hg
      rw [List.length_set] at hg
      rw [frameTrace_snoc, h.none g hg]
      have : f ≠ g := by omega
      simp [frameTrace, this]

theorem FramesAgree.readActive {tr s} (h : FramesAgree tr s) (d c i f : Nat) :
    FramesAgree (tr ++ [(.readFrame d, (Group.readActive s c i f).1)])
      (Group.readActive s c i f).2 := by
  unfold Group.readActive
  split
  · exact h.same rfl fun _ => rfl
  · split <;> exact h.same rfl fun _ => rfl

theorem FramesAgree.step {tr s} (h : FramesAgree tr s) (op : Op) :
    FramesAgree (tr ++ [(op, (step s op).1)]) (step s op).2 := by
  cases op with
  | newFrame size =>
    simp only [Group.step]
    constructor
    · intro f size' fs hf
      rw [frameTrace_snoc]
      have e : frameTrace f [(Op.newFrame size, Out.handle s.frames.length)] = [] := rfl
      rw [e, List.append_nil]
      dsimp only at hf
      by_cases hlt : f < s.frames.length
      · rw [List.getElem?_append_left hlt] at hf
        exact h.agrees f size' fs hf
      · rw [List.getElem?_append_right (by omega)] at hf
        have hz : f - s.frames.length = 0 := by
          rw [List.getElem?_eq_some_iff] at hf
          obtain ⟨hl, _⟩ := hf
          simp at hl
          omega
        rw [hz] at hf
        simp at hf
        obtain ⟨_, rfl⟩ := hf
        rw [h.none f (by omega)]
        exact ⟨Frame.agrees_init, Frame.serves_init⟩
    · intro f hf
      rw [frameTrace_snoc]
      dsimp only at hf
      rw [List.length_append] at hf
      rw [h.none f (by simp at hf; omega)]
      rfl
  | frame f op =>
    simp only [Group.step]
    split
    · exact h.same rfl fun _ => rfl
    rename_i size fs hf
    split
    · exact h.same rfl fun _ => rfl
    · skip
      have hlt : f < s.frames.length := by
        rw [List.getElem?_eq_some_iff] at hf; exact hf.1
      obtain ⟨ha, hv⟩ := h.agrees f size fs hf
      constructor
      · intro g size' gs hg
        dsimp only at hg
        rw [List.getElem?_set] at hg
        rw [frameTrace_snoc]
        by_cases hfg : f = g
        · subst hfg
          rw [if_pos rfl, if_pos hlt] at hg
          injection hg with hg
          injection hg with hg1 hg2
          subst hg1; subst hg2
          have e : frameTrace f [(Op.frame f op, Out.frame (Frame.step size fs op).1)] =
              [(op, (Frame.step size fs op).1)] := by simp [frameTrace]
          rw [e]
          exact ⟨ha.step size op, hv.step size op⟩
        · rw [if_neg hfg] at hg
          have e : frameTrace g [(Op.frame f op, Out.frame (Frame.step size fs op).1)] = [] := by
            simp [frameTrace, hfg]
          rw [e, List.append_nil]
          exact h.agrees g size' gs hg
      · intro g hg
        dsimp only at hg
        rw [List.length_set] at hg
        rw [frameTrace_snoc, h.none g hg]
        have : f ≠ g := by omega
        simp [frameTrace, this]
  | nextFrame c =>
    simp only [Group.step]
    split
    · exact h.same rfl fun _ => rfl
    · exact h.giveReader _ _ _ _
    · split
      · exact h.giveReader _ _ _ _
      · refine h.same rfl fun f => ?_
        unfold State.atEnd
        repeat' (first | split | rfl)
  | readFrame c =>
    simp only [Group.step]
    split
    · exact h.same rfl fun _ => rfl
    · exact h.readActive _ _ _ _
    · split
      · exact h.readActive _ _ _ _
      · refine h.same rfl fun f => ?_
        unfold State.atEnd
        repeat' (first | split | rfl)
  | _ =>
    refine h.same ?_ fun g => ?_
    all_goals (simp only [Group.step]; repeat' (first | split | rfl))

/-! ## What consumers have been given -/

theorem received_snoc (tr : Trace) (e : Op × Out) (c : Nat) :
    received (tr ++ [e]) c = give (received tr) e c := by
  simp [received, List.foldl_append]

/-- What is known of a consumer that was given `got`. -/
structure Served (tr : Trace) (list : List Nat) (got : List Delivery) (i : Nat)
    (active : Option Nat) : Prop where
  le : i ≤ list.length
  idle : active = none → i = got.length
  busy : ∀ f, active = some f → i = got.length + 1 ∧ list[got.length]? = some f
  correct : ∀ (k : Nat) (d : Delivery), got[k]? = some d → ∃ f, list[k]? = some f ∧ d.Correct tr f

theorem written_prefix_closed {tr : Trace} {s : State} {f size fs} (h : FramesAgree tr s)
    (hf : s.frames[f]? = some (size, fs)) (op : Op)
    (hc : Frame.Spec.closing (frameTrace f tr) ≠ none) :
    Frame.Spec.written (frameTrace f (tr ++ [(op, (step s op).1)])) =
      Frame.Spec.written (frameTrace f tr) ∧
    Frame.Spec.closing (frameTrace f (tr ++ [(op, (step s op).1)])) ≠ none := by
  have h' := h.step op
  have ha := (h.agrees f size fs hf).1
  have key : ∃ fs', (step s op).2.frames[f]? = some (size, fs') ∧ fs'.chunks = fs.chunks ∧
      fs'.closed ≠ none := by
    rw [ha.closed] at hc
    have hlt : f < s.frames.length := by
      rw [List.getElem?_eq_some_iff] at hf; exact hf.1
    have same : ∀ s' : State, s'.frames = s.frames → ∃ fs', s'.frames[f]? = some (size, fs') ∧
        fs'.chunks = fs.chunks ∧ fs'.closed ≠ none := fun s' he => ⟨fs, by rw [he]; exact hf, rfl, hc⟩
    have gr : ∀ c i g, ∃ fs', (Group.giveReader s c i g).2.frames[f]? = some (size, fs') ∧
        fs'.chunks = fs.chunks ∧ fs'.closed ≠ none := by
      intro c i g
      unfold Group.giveReader
      split
      · exact same _ rfl
      · rename_i size' gs hg
        dsimp only
        rw [List.getElem?_set]
        by_cases hfg : g = f
        · subst hfg
          rw [if_pos rfl, if_pos hlt]
          rw [hf] at hg
          injection hg with hg
          injection hg with h1 h2
          subst h1; subst h2
          exact ⟨_, rfl, rfl, hc⟩
        · rw [if_neg hfg]
          exact ⟨fs, hf, rfl, hc⟩
    have ra : ∀ c i g, (Group.readActive s c i g).2.frames = s.frames := by
      intro c i g
      unfold Group.readActive
      repeat' (first | split | rfl)
    cases op with
    | newFrame n =>
      refine ⟨fs, ?_, rfl, hc⟩
      simp only [Group.step]
      rw [List.getElem?_append_left hlt, hf]
    | frame g op =>
      simp only [Group.step]
      split
      · exact same _ rfl
      rename_i size' gs hg
      split
      · exact same _ rfl
      · skip
        dsimp only
        rw [List.getElem?_set]
        by_cases hfg : g = f
        · subst hfg
          rw [if_pos rfl, if_pos hlt]
          rw [hf] at hg
          injection hg with hg
          injection hg with h1 h2
          subst h1; subst h2
          have hs : fs.closed.isSome := by
            cases hcl : fs.closed with
            | none => exact absurd hcl hc
            | some x => rfl
          obtain ⟨h1, h2⟩ := Frame.step_closed (size := size) op hs
          refine ⟨_, rfl, h1, fun hx => ?_⟩
          rw [hx] at h2
          cases h2
        · rw [if_neg hfg]
          exact ⟨fs, hf, rfl, hc⟩
    | nextFrame c =>
      simp only [Group.step]
      split
      · exact same _ rfl
      · exact gr _ _ _
      · split
        · exact gr _ _ _
        · exact same _ rfl
    | readFrame c =>
      simp only [Group.step]
      split
      · exact same _ rfl
      · exact same _ (ra _ _ _)
      · split
        · exact same _ (ra _ _ _)
        · exact same _ rfl
    | _ =>
      refine same _ ?_
      simp only [Group.step]
      repeat' (first | split | rfl)
  obtain ⟨fs', hf', h1, h2⟩ := key
  have ha' := (h'.agrees f size fs' hf').1
  exact ⟨by rw [ha'.chunks, ha.chunks, h1], by rw [ha'.closed]; exact h2⟩

/-- The invariant about consumers. -/
structure Serves (tr : Trace) (s : State) : Prop where
  exist : ∀ f ∈ s.list, f < s.frames.length
  served : ∀ c i a, s.consumers.get c = some (i, a) → Served tr s.list (received tr c) i a

theorem serves_init : Serves [] init := by
  constructor
  · intro f hf; simp [init] at hf
  · intro c i a h; simp [init, Slots.get] at h

theorem Served.mono {tr s} (hF : FramesAgree tr s) (hE : ∀ f ∈ s.list, f < s.frames.length)
    {got i a} (h : Served tr s.list got i a) (op : Op) {l' : List Nat}
    (hl : ∃ xs, l' = s.list ++ xs) :
    Served (tr ++ [(op, (step s op).1)]) l' got i a := by
  obtain ⟨xs, rfl⟩ := hl
  have ext : ∀ (k f : Nat), s.list[k]? = some f → (s.list ++ xs)[k]? = some f := by
    intro k f hk
    have hlt : k < s.list.length := by rw [List.getElem?_eq_some_iff] at hk; exact hk.1
    rw [List.getElem?_append_left hlt]
    exact hk
  constructor
  · rw [List.length_append]; have := h.le; omega
  · exact h.idle
  · intro f hf
    exact ⟨(h.busy f hf).1, ext _ _ (h.busy f hf).2⟩
  · intro k d hd
    obtain ⟨f, hk, hc⟩ := h.correct k d hd
    refine ⟨f, ext _ _ hk, ?_⟩
    cases d with
    | reader g => exact hc
    | whole b =>
      obtain ⟨h1, h2⟩ := hc
      have hf : f < s.frames.length := hE f (List.mem_of_getElem? hk)
      have hfr : s.frames[f]? = some (s.frames[f].1, s.frames[f].2) := by
        rw [List.getElem?_eq_getElem hf]
      obtain ⟨e1, e2⟩ := written_prefix_closed hF hfr op h1
      exact ⟨e2, by rw [e1]; exact h2⟩

theorem Served.push {tr list got i a} (h : Served tr list got i a) {d : Delivery} {f j : Nat}
    (hf : list[got.length]? = some f) (hd : d.Correct tr f) (hj : j = got.length + 1) :
    Served tr list (got ++ [d]) j none := by
  subst hj
  constructor
  · rw [List.getElem?_eq_some_iff] at hf; exact hf.1
  · intro _; simp
  · intro g hg; cases hg
  · intro k e hk
    by_cases hlt : k < got.length
    · rw [List.getElem?_append_left hlt] at hk
      exact h.correct k e hk
    · rw [List.getElem?_append_right (by omega)] at hk
      have hz : k - got.length = 0 := by
        rw [List.getElem?_eq_some_iff] at hk
        obtain ⟨hl, _⟩ := hk
        simp at hl; omega
      rw [hz] at hk
      simp at hk
      subst hk
      have : k = got.length := by omega
      subst this
      exact ⟨f, hf, hd⟩

theorem frames_length (s : State) (op : Op) : s.frames.length ≤ (step s op).2.frames.length := by
  have gr : ∀ c i f, (giveReader s c i f).2.frames.length = s.frames.length := by
    intro c i f
    unfold giveReader
    split
    · rfl
    · simp
  have ra : ∀ c i f, (readActive s c i f).2.frames.length = s.frames.length := by
    intro c i f
    unfold readActive
    repeat' (first | split | rfl)
  cases op with
  | newFrame n => simp [step]
  | frame f op =>
    simp only [step]
    split
    · exact Nat.le_refl _
    · split
      · exact Nat.le_refl _
      · simp
  | nextFrame c =>
    simp only [step]
    split
    · exact Nat.le_refl _
    · exact Nat.le_of_eq (gr _ _ _).symm
    · split
      · exact Nat.le_of_eq (gr _ _ _).symm
      · exact Nat.le_refl _
  | readFrame c =>
    simp only [step]
    split
    · exact Nat.le_refl _
    · exact Nat.le_of_eq (ra _ _ _).symm
    · split
      · exact Nat.le_of_eq (ra _ _ _).symm
      · exact Nat.le_refl _
  | _ =>
    simp only [step]
    repeat' (first | split | exact Nat.le_refl _)

/-- Steps that only extend the list of frames and change consumers as described. -/
theorem Serves.mk' {tr : Trace} {s : State} (hF : FramesAgree tr s) (h : Serves tr s) (op : Op)
    (hl : ∃ xs, (Group.step s op).2.list = s.list ++ xs ∧ ∀ f ∈ xs, f < s.frames.length)
    (hc : ∀ c i a, (Group.step s op).2.consumers.get c = some (i, a) →
      (s.consumers.get c = some (i, a) ∧
        give (received tr) (op, (Group.step s op).1) c = received tr c) ∨
      Served (tr ++ [(op, (Group.step s op).1)]) (Group.step s op).2.list
        (give (received tr) (op, (Group.step s op).1) c) i a) :
    Serves (tr ++ [(op, (Group.step s op).1)]) (Group.step s op).2 := by
  obtain ⟨xs, hl, hx⟩ := hl
  constructor
  · intro f hf
    rw [hl] at hf
    have := frames_length s op
    rcases List.mem_append.1 hf with hf | hf
    · have := h.exist f hf; omega
    · have := hx f hf; omega
  · intro c i a hg
    rw [received_snoc]
    rcases hc c i a hg with ⟨h1, h2⟩ | h1
    · rw [h2, hl]
      exact (h.served c i a h1).mono hF h.exist op ⟨xs, rfl⟩
    · exact h1

/-- Steps that change neither list nor consumers. -/
theorem Serves.keep {tr : Trace} {s : State} (hF : FramesAgree tr s) (h : Serves tr s) (op : Op)
    (hl : (Group.step s op).2.list = s.list)
    (hc : (Group.step s op).2.consumers = s.consumers)
    (hg : give (received tr) (op, (Group.step s op).1) = received tr) :
    Serves (tr ++ [(op, (Group.step s op).1)]) (Group.step s op).2 :=
  h.mk' hF op ⟨[], by rw [hl, List.append_nil], by simp⟩ fun c i a hx => .inl ⟨by rw [← hc]; exact hx,
    by rw [hg]⟩

theorem Serves.step {tr : Trace} {s : State} (hF : FramesAgree tr s) (h : Serves tr s) (op : Op) :
    Serves (tr ++ [(op, (step s op).1)]) (step s op).2 := by
  cases op with
  | newFrame size => exact h.keep hF _ rfl rfl rfl
  | frame f op =>
    apply h.keep hF
    all_goals (simp only [Group.step]; repeat' (first | split | rfl))
  | appendFrame p f =>
    apply h.mk' hF
    · simp only [Group.step]
      split
      · rename_i hf
        split
        · exact ⟨[], (List.append_nil _).symm, by simp⟩
        · refine ⟨[f], rfl, ?_⟩
          intro g hg
          rw [List.mem_singleton.1 hg]
          rw [List.getElem?_eq_some_iff] at hf
          exact hf.1
      · exact ⟨[], (List.append_nil _).symm, by simp⟩
    · intro c i a hc
      left
      refine ⟨?_, rfl⟩
      simp only [Group.step] at hc
      split at hc
      · split at hc <;> exact hc
      · exact hc
  | consume p =>
    cases hp : s.producers.get p with
    | none => apply h.keep hF <;> (simp only [Group.step, hp]; try rfl)
    | some u =>
      apply h.mk' hF
      · simp only [Group.step, hp]; exact ⟨[], (List.append_nil _).symm, by simp⟩
      · intro c i a hc
        simp only [Group.step, hp, give] at hc ⊢
        rw [Slots.get_add] at hc
        split at hc
        · rename_i he
          injection hc with hc
          injection hc with h1 h2
          subst h1; subst h2
          right
          rw [if_pos he]
          exact ⟨Nat.zero_le _, fun _ => rfl, (fun f hf => by cases hf), (fun k d hd => by simp at hd)⟩
        · rename_i he
          left
          rw [if_neg he]
          exact ⟨hc, rfl⟩
  | cloneConsumer d =>
    cases hp : s.consumers.get d with
    | none => apply h.keep hF <;> (simp only [Group.step, hp]; try rfl)
    | some x =>
      have hm := fun i a hx => (h.served d i a hx).mono hF h.exist (.cloneConsumer d)
        ⟨[], (List.append_nil _).symm⟩
      apply h.mk' hF
      · simp only [Group.step, hp]; exact ⟨[], (List.append_nil _).symm, by simp⟩
      · intro c i a hc
        simp only [Group.step, hp, give] at hc hm ⊢
        rw [Slots.get_add] at hc
        split at hc
        · rename_i he
          injection hc with hc
          right
          rw [if_pos he]
          exact hm i a (by rw [hc])
        · rename_i he
          left
          rw [if_neg he]
          exact ⟨hc, rfl⟩
  | dropConsumer d =>
    cases hp : s.consumers.get d with
    | none => apply h.keep hF <;> (simp only [Group.step, hp]; try rfl)
    | some x =>
      apply h.mk' hF
      · simp only [Group.step, hp]; exact ⟨[], (List.append_nil _).symm, by simp⟩
      · intro c i a hc
        simp only [Group.step, hp, give] at hc ⊢
        rw [Slots.get_put] at hc
        split at hc
        · split at hc <;> cases hc
        · exact .inl ⟨hc, trivial⟩
  | readFrameStart d =>
    cases hp : s.consumers.get d with
    | none => apply h.keep hF <;> (simp only [Group.step, hp]; try rfl)
    | some x =>
      obtain ⟨j, b⟩ := x
      cases b with
      | some f => apply h.keep hF <;> (simp only [Group.step, hp]; try rfl)
      | none =>
        cases hj : s.list[j]? with
        | none => apply h.keep hF <;> (simp only [Group.step, hp, hj]; try rfl)
        | some f =>
          have hm := (h.served d j none hp).mono hF h.exist (.readFrameStart d)
            ⟨[], (List.append_nil _).symm⟩
          apply h.mk' hF
          · simp only [Group.step, hp, hj]; exact ⟨[], (List.append_nil _).symm, by simp⟩
          · intro c i a hc
            simp only [Group.step, hp, hj, give] at hc hm ⊢
            rw [Slots.get_put] at hc
            split at hc
            · rename_i he
              subst he
              rw [if_pos (Slots.get_some_lt hp)] at hc
              injection hc with hc
              injection hc with h1 h2
              subst h1; subst h2
              right
              have hi := hm.idle rfl
              constructor
              · rw [List.getElem?_eq_some_iff] at hj; exact hj.1
              · intro hx; cases hx
              · intro g hg
                injection hg with hg
                subst hg
                exact ⟨by omega, by rw [← hi]; exact hj⟩
              · exact hm.correct
            · exact .inl ⟨hc, trivial⟩
  | nextFrame d =>
    cases hp : s.consumers.get d with
    | none => apply h.keep hF <;> (simp only [Group.step, hp]; try rfl)
    | some x =>
      obtain ⟨j, b⟩ := x
      have hs := h.served d j b hp
      have main : ∀ f j', s.list[(received tr d).length]? = some f →
          j' = (received tr d).length + 1 → Group.step s (.nextFrame d) = giveReader s d j' f →
          Serves (tr ++ [(.nextFrame d, (Group.step s (.nextFrame d)).1)])
            (Group.step s (.nextFrame d)).2 := by
        intro f j' hf hj' he
        have hm := hs.mono hF h.exist (.nextFrame d) ⟨[], (List.append_nil _).symm⟩
        have hlt := h.exist f (List.mem_of_getElem? hf)
        have hfr : s.frames[f]? = some s.frames[f] := List.getElem?_eq_getElem hlt
        obtain ⟨e1, e2⟩ : (∃ id, (giveReader s d j' f).1 = .reader f id) ∧
            ((giveReader s d j' f).2.list = s.list ∧
              (giveReader s d j' f).2.consumers = s.consumers.put d (some (j', none))) := by
          unfold giveReader
          rw [hfr]
          exact ⟨⟨_, rfl⟩, rfl, rfl⟩
        obtain ⟨id, e1⟩ := e1
        apply h.mk' hF
        · rw [he, e2.1]; exact ⟨[], (List.append_nil _).symm, by simp⟩
        · intro c i a hc
          rw [he] at hc hm ⊢
          rw [e2.2] at hc
          rw [e2.1]
          rw [e1] at hm ⊢
          simp only [give]
          rw [Slots.get_put] at hc
          split at hc
          · rename_i hdc
            subst hdc
            rw [if_pos (Slots.get_some_lt hp)] at hc
            injection hc with hc
            injection hc with h1 h2
            subst h1; subst h2
            right
            rw [if_pos rfl]
            exact hm.push hf rfl hj'
          · rename_i hdc
            left
            rw [if_neg fun hx => hdc hx.symm]
            exact ⟨hc, rfl⟩
      cases b with
      | some f =>
        obtain ⟨h1, h2⟩ := hs.busy f rfl
        refine main f j h2 h1 ?_
        simp only [Group.step, hp]
      | none =>
        cases hj : s.list[j]? with
        | none =>
          apply h.keep hF <;> simp only [Group.step, hp, hj]
          unfold State.atEnd
          repeat' (first | split | rfl)
        | some f =>
          have hi := hs.idle rfl
          refine main f (j + 1) (by rw [← hi]; exact hj) (by omega) ?_
          simp only [Group.step, hp, hj]
  | readFrame d =>
    cases hp : s.consumers.get d with
    | none => apply h.keep hF <;> (simp only [Group.step, hp]; try rfl)
    | some x =>
      obtain ⟨j, b⟩ := x
      have hs := h.served d j b hp
      have main : ∀ f j', s.list[(received tr d).length]? = some f →
          j' = (received tr d).length + 1 → Group.step s (.readFrame d) = readActive s d j' f →
          Serves (tr ++ [(.readFrame d, (Group.step s (.readFrame d)).1)])
            (Group.step s (.readFrame d)).2 := by
        intro f j' hf hj' he
        have hm := hs.mono hF h.exist (.readFrame d) ⟨[], (List.append_nil _).symm⟩
        have hlt := h.exist f (List.mem_of_getElem? hf)
        have hfr : s.frames[f]? = some (s.frames[f].1, s.frames[f].2) :=
          List.getElem?_eq_getElem hlt
        have ha := (hF.agrees f _ _ hfr).1
        have hra := Frame.readAllAt_of ha (Nat.zero_le _)
        by_cases hb : ∃ b, s.frames[f].2.readAllAt 0 = .data b
        · obtain ⟨b, hb⟩ := hb
          have e1 : readActive s d j' f =
              (.data b, { s with consumers := s.consumers.put d (some (j', none)) }) := by
            unfold readActive
            rw [hfr]
            simp only
            rw [hb]
          have hcl : Frame.Spec.closing (frameTrace f tr) ≠ none := by
            intro hx
            rw [hx] at hra
            simp only at hra
            rw [hb] at hra
            unfold Frame.Spec.atEnd at hra
            rw [hx] at hra
            simp only at hra
            split at hra <;> cases hra
          have hbw : b = (Frame.Spec.written (frameTrace f tr)).flatten := by
            rw [hb] at hra
            split at hra
            · injection hra
            · unfold Frame.Spec.atEnd at hra
              split at hra
              · cases hra
              · cases hra
              · split at hra <;> cases hra
          obtain ⟨k1, k2⟩ := written_prefix_closed hF hfr (.readFrame d) hcl
          apply h.mk' hF
          · rw [he, e1]; exact ⟨[], (List.append_nil _).symm, by simp⟩
          · intro c i a hc
            rw [he, e1] at hc hm k1 k2 ⊢
            simp only [give] at hc hm ⊢
            rw [Slots.get_put] at hc
            split at hc
            · rename_i hdc
              subst hdc
              rw [if_pos (Slots.get_some_lt hp)] at hc
              injection hc with hc
              injection hc with h1 h2
              subst h1; subst h2
              right
              rw [if_pos rfl]
              exact hm.push hf ⟨k2, by rw [k1]; exact hbw⟩ hj'
            · rename_i hdc
              left
              rw [if_neg fun hx => hdc hx.symm]
              exact ⟨hc, rfl⟩
        · obtain ⟨o, e1, e2⟩ : ∃ o, readActive s d j' f =
              (o, { s with consumers := s.consumers.put d (some (j', some f)) }) ∧
              ∀ b, o ≠ .data b := by
            unfold readActive
            rw [hfr]
            simp only
            split
            · rename_i b hx; exact absurd ⟨b, hx⟩ hb
            · exact ⟨_, rfl, by simp⟩
            · exact ⟨_, rfl, by simp⟩
            · exact ⟨_, rfl, by simp⟩
          apply h.mk' hF
          · rw [he, e1]; exact ⟨[], (List.append_nil _).symm, by simp⟩
          · intro c i a hc
            rw [he, e1] at hc hm ⊢
            have hg : give (received tr) (Op.readFrame d, o) = received tr := by
              cases o <;> first | rfl | (exact absurd rfl (e2 _))
            simp only [hg] at hc hm ⊢
            rw [Slots.get_put] at hc
            split at hc
            · rename_i hdc
              subst hdc
              rw [if_pos (Slots.get_some_lt hp)] at hc
              injection hc with hc
              injection hc with h1 h2
              subst h1; subst h2
              right
              constructor
              · rw [List.getElem?_eq_some_iff] at hf; have := hf.1; omega
              · intro hx; cases hx
              · intro g hg
                injection hg with hg
                subst hg
                exact ⟨hj', hf⟩
              · exact hm.correct
            · exact .inl ⟨hc, trivial⟩
      cases b with
      | some f =>
        obtain ⟨h1, h2⟩ := hs.busy f rfl
        refine main f j h2 h1 ?_
        simp only [Group.step, hp]
      | none =>
        cases hj : s.list[j]? with
        | none =>
          apply h.keep hF <;> simp only [Group.step, hp, hj]
          unfold State.atEnd
          repeat' (first | split | rfl)
        | some f =>
          have hi := hs.idle rfl
          refine main f (j + 1) (by rw [← hi]; exact hj) (by omega) ?_
          simp only [Group.step, hp, hj]
  | _ =>
    apply h.keep hF
    all_goals (simp only [Group.step]; repeat' (first | split | rfl))

/-! ## All invariants together, and the answers -/

/-- The complete invariant. -/
structure Inv (tr : Trace) (s : State) : Prop where
  agrees : Agrees tr s
  frames : FramesAgree tr s
  serves : Serves tr s

theorem inv_reach {tr : Trace} {s : State} (h : machine.Reach tr s) : Inv tr s :=
  Machine.Reach.induct (M := machine) (P := Inv) ⟨agrees_init, framesAgree_init, serves_init⟩
    (fun _ _ op _ ih => ⟨ih.agrees.step op, ih.frames.step op, ih.serves.step ih.frames op⟩) h

theorem Inv.alive_iff {tr : Trace} {s : State} (h : Inv tr s) (c : Nat) :
    ConsumerAlive tr c ↔ ∃ i, s.consumers.get c = some i := by
  have := h.agrees.consumers.live c
  unfold ConsumerMade ConsumerGone at this
  unfold ConsumerAlive
  rw [← this, Option.isSome_iff_exists]

theorem Inv.frame {tr : Trace} {s : State} (h : Inv tr s) {n f : Nat}
    (hf : (appended tr)[n]? = some f) :
    ∃ fs, s.frames[f]? = some fs ∧ Frame.Agrees (frameTrace f tr) fs.2 ∧
      Frame.Serves (frameTrace f tr) fs.2 := by
  rw [h.agrees.list] at hf
  have hlt := h.serves.exist f (List.mem_of_getElem? hf)
  exact ⟨_, List.getElem?_eq_getElem hlt, h.frames.agrees f _ _ (List.getElem?_eq_getElem hlt)⟩

end Verif.Model.Group
