import Verif.Model.FrameSpec

/-!
# Invariants of the frame machine
-/

namespace Verif.Model.Frame

open Verif Verif.Session Verif.Model.Frame.Spec

/-- Induction over executions of a frame. -/
theorem reach_induct {size : Nat} {P : Trace → State → Prop} (h0 : P [] init)
    (hs : ∀ tr s op, (machine size).Reach tr s → P tr s →
      P (tr ++ [(op, (step size s op).1)]) (step size s op).2)
    {tr : Trace} {s : State} (h : (machine size).Reach tr s) : P tr s :=
  Machine.Reach.induct (M := machine size) h0 hs h

/-- The part of the invariant about writing: the state agrees with the history. -/
structure Agrees (tr : Trace) (s : State) : Prop where
  chunks : written tr = s.chunks
  closed : closing tr = s.closed
  producers : s.producers.Tracks (ProducerMade tr) (ProducerGone tr)
  futures : s.futures.Tracks (FutureMade tr) (FutureGone tr)

theorem written_snoc (tr : Trace) (e : Op × Out) :
    written (tr ++ [e]) = written tr ++ written [e] := by
  simp [written]

theorem closing_snoc (tr : Trace) (e : Op × Out) :
    closing (tr ++ [e]) = (closing [e]).or (closing tr) := by
  unfold closing
  rw [List.filterMap_append, List.getLast?_append]

theorem agrees_init : Agrees [] init := by
  constructor
  · rfl
  · rfl
  · constructor
    · intro i
      unfold init ProducerMade ProducerGone
      cases i with
      | zero => simp [Slots.get_cons_zero]
      | succ i => simp [Slots.get]
    · intro i
      unfold init ProducerMade ProducerGone
      simp
  · constructor
    · intro i
      simp [init, FutureMade, Slots.get]
    · intro i
      simp [init, FutureMade, FutureGone]

theorem Agrees.senders {tr s} (h : Agrees tr s) : s.senders = 0 ↔ Abandoned tr := by
  unfold State.senders Abandoned
  have e1 : s.producers.count = 0 ↔ ∀ p, ProducerMade tr p → ProducerGone tr p := by
    rw [Slots.count_eq_zero]
    refine forall_congr' fun p => ?_
    have := h.producers.live p
    cases hg : s.producers.get p <;> simp_all
  have e2 : s.futures.count = 0 ↔ ∀ f, FutureMade tr f → FutureGone tr f := by
    rw [Slots.count_eq_zero]
    refine forall_congr' fun p => ?_
    have := h.futures.live p
    cases hg : s.futures.get p <;> simp_all
  rw [← e1, ← e2]
  omega

theorem Agrees.wait {tr s} (h : Agrees tr s) (hc : s.closed = none) : s.wait = atEnd tr := by
  unfold State.wait atEnd
  rw [h.closed, hc]
  simp only
  by_cases ha : Abandoned tr
  · rw [if_pos (h.senders.2 ha), if_pos ha]
  · rw [if_neg (fun hx => ha (h.senders.1 hx)), if_neg ha]

/-- Appending an event that concerns neither writing, closing nor senders. -/
theorem Agrees.other {tr s} {s' : State} {e : Op × Out} (h : Agrees tr s)
    (h1 : s'.chunks = s.chunks) (h2 : s'.closed = s.closed) (h3 : s'.producers = s.producers)
    (h4 : s'.futures = s.futures)
    (he : match e.1, e.2 with
      | .write _ _, .ok | .finish _, .ok | .finish _, .panic | .abort _ _, .ok
      | .cloneProducer _, .handle _ | .dropProducer _, .ok | .unused _, .handle _
      | .dropUnused _, .ok => False
      | _, _ => True) : Agrees (tr ++ [e]) s' := by
  obtain ⟨op, out⟩ := e
  constructor
  · rw [written_snoc, h1, ← h.chunks]
    cases op <;> cases out <;> simp_all [written]
  · rw [closing_snoc, h2, ← h.closed]
    cases op <;> cases out <;> simp_all [closing]
  · rw [h3]
    refine h.producers.congr (fun i => ?_) (fun i => ?_)
    · unfold ProducerMade
      cases op <;> cases out <;> simp_all
    · unfold ProducerGone
      cases op <;> cases out <;> simp_all
  · rw [h4]
    refine h.futures.congr (fun i => ?_) (fun i => ?_)
    · unfold FutureMade
      cases op <;> cases out <;> simp_all
    · unfold FutureGone
      cases op <;> cases out <;> simp_all

theorem Agrees.step {tr s} (size : Nat) (h : Agrees tr s) (op : Op) :
    Agrees (tr ++ [(op, (step size s op).1)]) (step size s op).2 := by
  cases op with
  | write p b =>
    simp only [Frame.step]
    split
    · exact h.other rfl rfl rfl rfl trivial
    · rename_i w hw
      have hp : (s.producers.put p (some (w + b.length))).Tracks (ProducerMade tr)
          (ProducerGone tr) :=
        h.producers.put_some _ hw (fun _ => Iff.rfl) (fun _ => Iff.rfl)
      have h' : Agrees tr { s with producers := s.producers.put p (some (w + b.length)) } :=
        ⟨h.chunks, h.closed, hp, h.futures⟩
      split
      · exact h'.other rfl rfl rfl rfl trivial
      · split
        · exact h'.other rfl rfl rfl rfl trivial
        · constructor
          · rw [written_snoc, h.chunks]; rfl
          · rw [closing_snoc]; simpa [closing] using h.closed
          · exact hp.congr (fun i => by simp [ProducerMade]) (fun i => by simp [ProducerGone])
          · exact h.futures.congr (fun i => by simp [FutureMade]) (fun i => by simp [FutureGone])
  | finish p =>
    simp only [Frame.step]
    split
    · exact h.other rfl rfl rfl rfl trivial
    · rename_i w hw
      split
      · constructor
        · rw [written_snoc]; simpa [written] using h.chunks
        · rw [closing_snoc]; simp [closing]
        · exact h.producers.put_none hw (fun i => by simp [ProducerMade])
            (fun i => by simp [ProducerGone]; grind)
        · exact h.futures.congr (fun i => by simp [FutureMade]) (fun i => by simp [FutureGone])
      · constructor
        · rw [written_snoc]; simpa [written] using h.chunks
        · rw [closing_snoc]; simpa [closing] using h.closed
        · exact h.producers.put_none hw (fun i => by simp [ProducerMade])
            (fun i => by simp [ProducerGone]; grind)
        · exact h.futures.congr (fun i => by simp [FutureMade]) (fun i => by simp [FutureGone])
  | abort p e =>
    simp only [Frame.step]
    split
    · exact h.other rfl rfl rfl rfl trivial
    · rename_i w hw
      constructor
      · rw [written_snoc]; simpa [written] using h.chunks
      · rw [closing_snoc]; simp [closing]
      · exact h.producers.put_none hw (fun i => by simp [ProducerMade])
          (fun i => by simp [ProducerGone]; grind)
      · exact h.futures.congr (fun i => by simp [FutureMade]) (fun i => by simp [FutureGone])
  | cloneProducer p =>
    simp only [Frame.step]
    split
    · exact h.other rfl rfl rfl rfl trivial
    · rename_i w hw
      constructor
      · rw [written_snoc]; simpa [written] using h.chunks
      · rw [closing_snoc]; simpa [closing] using h.closed
      · exact h.producers.add w (fun i => by simp [ProducerMade]; grind)
          (fun i => by simp [ProducerGone])
      · exact h.futures.congr (fun i => by simp [FutureMade]) (fun i => by simp [FutureGone])
  | dropProducer p =>
    simp only [Frame.step]
    split
    · exact h.other rfl rfl rfl rfl trivial
    · rename_i w hw
      constructor
      · rw [written_snoc]; simpa [written] using h.chunks
      · rw [closing_snoc]; simpa [closing] using h.closed
      · exact h.producers.put_none hw (fun i => by simp [ProducerMade])
          (fun i => by simp [ProducerGone]; grind)
      · exact h.futures.congr (fun i => by simp [FutureMade]) (fun i => by simp [FutureGone])
  | unused p =>
    simp only [Frame.step]
    split
    · exact h.other rfl rfl rfl rfl trivial
    · rename_i w hw
      constructor
      · rw [written_snoc]; simpa [written] using h.chunks
      · rw [closing_snoc]; simpa [closing] using h.closed
      · exact h.producers.congr (fun i => by simp [ProducerMade]) (fun i => by simp [ProducerGone])
      · exact h.futures.add () (fun i => by simp [FutureMade]; grind)
          (fun i => by simp [FutureGone])
  | dropUnused f =>
    simp only [Frame.step]
    split
    · exact h.other rfl rfl rfl rfl trivial
    · rename_i w hw
      constructor
      · rw [written_snoc]; simpa [written] using h.chunks
      · rw [closing_snoc]; simpa [closing] using h.closed
      · exact h.producers.congr (fun i => by simp [ProducerMade]) (fun i => by simp [ProducerGone])
      · exact h.futures.put_none hw (fun i => by simp [FutureMade])
          (fun i => by simp [FutureGone])
  | consume p =>
    simp only [Frame.step]
    split <;> exact h.other rfl rfl rfl rfl trivial
  | pollUnused f =>
    simp only [Frame.step]
    split <;> exact h.other rfl rfl rfl rfl trivial
  | cloneConsumer c =>
    simp only [Frame.step]
    split <;> exact h.other rfl rfl rfl rfl trivial
  | dropConsumer c =>
    simp only [Frame.step]
    split <;> exact h.other rfl rfl rfl rfl trivial
  | read c =>
    simp only [Frame.step]
    split
    · exact h.other rfl rfl rfl rfl trivial
    · split
      · exact h.other rfl rfl rfl rfl trivial
      · split <;> exact h.other rfl rfl rfl rfl trivial
  | readAll c =>
    simp only [Frame.step]
    split
    · exact h.other rfl rfl rfl rfl trivial
    · split <;> exact h.other rfl rfl rfl rfl trivial

theorem agrees_reach {size : Nat} {tr : Trace} {s : State} (h : (machine size).Reach tr s) : Agrees tr s :=
  reach_induct agrees_init (fun _ _ op _ ih => ih.step size op) h

/-- Nothing is written to a closed frame. -/
theorem step_closed {size : Nat} {s : State} (op : Op) (h : s.closed.isSome) :
    (step size s op).2.chunks = s.chunks ∧ (step size s op).2.closed.isSome := by
  cases op <;> simp only [step]
  all_goals (repeat' (first | split | exact ⟨rfl, h⟩ | exact ⟨rfl, rfl⟩))
  all_goals simp_all

/-! ## What was offered -/

theorem offered_snoc (tr : Trace) (e : Op × Out) (p : Nat) :
    offered (tr ++ [e]) p = offer (offered tr) e p := by
  simp [offered, List.foldl_append]

/-- `written` of a producer is what was offered through it. -/
def Offers (tr : Trace) (s : State) : Prop :=
  ∀ p w, s.producers.get p = some w → w = offered tr p

theorem Offers.step {tr s} (size : Nat) (h : Offers tr s) (op : Op) :
    Offers (tr ++ [(op, (step size s op).1)]) (step size s op).2 := by
  have keep : ∀ (op : Op) (out : Out) (s' : State), (∀ r, offer (offered tr) (op, out) r = offered tr r) →
      (∀ r w, s'.producers.get r = some w → s.producers.get r = some w) →
      Offers (tr ++ [(op, out)]) s' := by
    intro op out s' h1 h2 r w hr
    rw [offered_snoc, h1]
    exact h r w (h2 r w hr)
  have gone : ∀ (t : Slots Nat) p r (w : Nat), (t.put p none).get r = some w → t.get r = some w := by
    intro t p r w hr
    rw [Slots.get_put] at hr
    split at hr
    · split at hr <;> cases hr
    · exact hr
  cases op with
  | write p b =>
    have hw : ∀ (out : Out) (s' : State) (w : Nat), (out = .ok ∨ out = .panic) →
        s.producers.get p = some w → s'.producers = s.producers.put p (some (w + b.length)) →
        Offers (tr ++ [(.write p b, out)]) s' := by
      intro out s' w hout hp hs r v hr
      rw [hs, Slots.get_put] at hr
      rw [offered_snoc]
      have ho : offer (offered tr) (.write p b, out) r =
          if r = p then offered tr p + b.length else offered tr r := by
        rcases hout with rfl | rfl <;> rfl
      rw [ho]
      split at hr
      · rename_i hpr
        subst hpr
        rw [if_pos (Slots.get_some_lt hp)] at hr
        injection hr with hr
        rw [if_pos rfl, ← hr, h p w hp]
      · rename_i hpr
        rw [if_neg (Ne.symm hpr)]
        exact h r v hr
    simp only [Frame.step]
    split
    · exact keep _ _ _ (fun _ => rfl) fun _ _ h => h
    · rename_i w hp
      split
      · exact hw _ _ w (.inr rfl) hp rfl
      · split
        · exact hw _ _ w (.inr rfl) hp rfl
        · exact hw _ _ w (.inl rfl) hp rfl
  | cloneProducer q =>
    simp only [Frame.step]
    split
    · exact keep _ _ _ (fun _ => rfl) fun _ _ h => h
    · rename_i w hq
      intro r v hr
      rw [offered_snoc]
      show v = if r = s.producers.length then offered tr q else offered tr r
      simp only [Slots.get_add] at hr
      split at hr
      · rename_i hl
        injection hr with hr
        rw [if_pos hl, ← hr, h q w hq]
      · rename_i hl
        rw [if_neg hl]
        exact h r v hr
  | finish p =>
    simp only [Frame.step]
    split
    · exact keep _ _ _ (fun _ => rfl) fun _ _ h => h
    · split <;> exact keep _ _ _ (fun _ => rfl) fun _ _ h => gone _ _ _ _ h
  | abort p e =>
    simp only [Frame.step]
    split
    · exact keep _ _ _ (fun _ => rfl) fun _ _ h => h
    · exact keep _ _ _ (fun _ => rfl) fun _ _ h => gone _ _ _ _ h
  | dropProducer p =>
    simp only [Frame.step]
    split
    · exact keep _ _ _ (fun _ => rfl) fun _ _ h => h
    · exact keep _ _ _ (fun _ => rfl) fun _ _ h => gone _ _ _ _ h
  | _ =>
    simp only [Frame.step]
    repeat' split
    all_goals exact keep _ _ _ (fun _ => rfl) fun _ _ h => h

theorem offers_reach {size : Nat} {tr : Trace} {s : State} (h : (machine size).Reach tr s) :
    Offers tr s :=
  reach_induct (fun p w hp => by
      have : p = 0 := by
        have := Slots.get_some_lt hp
        simp [init] at this
        exact this
      subst this
      simp only [init, Slots.get_cons_zero, Option.some.injEq] at hp
      subst hp; rfl)
    (fun _ _ op _ ih => ih.step size op) h

/-! ## Consumers -/

theorem received_snoc (tr : Trace) (e : Op × Out) (c : Nat) :
    received (tr ++ [e]) c = give (received tr) e c := by
  simp [received, List.foldl_append]

/-- Consumer `c` was created. -/
def ConsumerMade (tr : Trace) (c : Nat) : Prop :=
  (∃ p, (Op.consume p, Out.handle c) ∈ tr) ∨ (∃ d, (Op.cloneConsumer d, Out.handle c) ∈ tr)

/-- Consumer `c` was dropped. -/
def ConsumerGone (tr : Trace) (c : Nat) : Prop := (Op.dropConsumer c, Out.ok) ∈ tr

/-- What is known of a consumer that was given `got` and has index `i`. -/
structure Served (got : List Piece) (s : State) (i : Nat) : Prop where
  covers : Covers got (s.chunks.take i)
  le : i ≤ s.chunks.length
  rest : (∃ b, Piece.all b ∈ got) → i = s.chunks.length ∧ s.closed.isSome
  steps : (¬ ∃ b, Piece.all b ∈ got) → got.length = i

theorem Served.mono {got s i} {s' : State} (h : Served got s i)
    (hc : s.closed.isSome → s'.chunks = s.chunks ∧ s'.closed.isSome)
    (hx : ∃ xs, s'.chunks = s.chunks ++ xs) : Served got s' i := by
  obtain ⟨xs, hx⟩ := hx
  constructor
  · rw [hx, List.take_append_of_le_length h.le]; exact h.covers
  · rw [hx, List.length_append]; have := h.le; omega
  · intro hr
    obtain ⟨h1, h2⟩ := h.rest hr
    obtain ⟨h3, h4⟩ := hc h2
    exact ⟨by rw [h3]; exact h1, h4⟩
  · exact h.steps

theorem Served.same {got s i} {s' : State} (h : Served got s i) (h1 : s'.chunks = s.chunks)
    (h2 : s'.closed = s.closed) : Served got s' i :=
  h.mono (fun hx => ⟨h1, by rw [h2]; exact hx⟩) ⟨[], by rw [h1]; simp⟩

theorem step_extends (size : Nat) (s : State) (op : Op) :
    ∃ xs, (step size s op).2.chunks = s.chunks ++ xs := by
  cases op <;> simp only [step]
  all_goals (repeat' (first | split | exact ⟨[], (List.append_nil _).symm⟩))
  exact ⟨_, rfl⟩

/-- The part of the invariant about consumers. -/
structure Serves (tr : Trace) (s : State) : Prop where
  table : s.consumers.Tracks (ConsumerMade tr) (ConsumerGone tr)
  served : ∀ c i, s.consumers.get c = some i → Served (received tr c) s i

theorem serves_init : Serves [] init := by
  constructor
  · constructor
    · intro i; simp [init, Slots.get, ConsumerMade]
    · intro i; simp [ConsumerMade, ConsumerGone]
  · intro c i h
    simp [init, Slots.get] at h

/-- The events that create or drop a consumer. -/
def ConsumerEvent (op : Op) (out : Out) : Prop :=
  match op, out with
  | .consume _, .handle _ | .cloneConsumer _, .handle _ | .dropConsumer _, .ok => True
  | _, _ => False

/-- An event that does not concern consumers. -/
theorem Serves.other {size tr s} (h : Serves tr s) (op : Op)
    (hs : (Frame.step size s op).2.consumers = s.consumers)
    (hg : give (received tr) (op, (Frame.step size s op).1) = received tr)
    (he : ¬ ConsumerEvent op (Frame.step size s op).1) :
    Serves (tr ++ [(op, (Frame.step size s op).1)]) (Frame.step size s op).2 := by
  constructor
  · rw [hs]
    generalize (Frame.step size s op).1 = out at he
    refine h.table.congr (fun i => ?_) (fun i => ?_)
    · unfold ConsumerMade; cases op <;> cases out <;> simp_all [ConsumerEvent]
    · unfold ConsumerGone; cases op <;> cases out <;> simp_all [ConsumerEvent]
  · intro c i hc
    rw [received_snoc, hg]
    rw [hs] at hc
    exact (h.served c i hc).mono (step_closed op) (step_extends size s op)

/-- A consumer made by somebody who holds a consumer that has not read anything: same as
`consume`, whether or not the producer still exists. -/
theorem Agrees.addConsumer {tr s} (h : Agrees tr s) (p : Nat) :
    Agrees (tr ++ [(.consume p, .handle s.consumers.length)])
      { s with consumers := s.consumers.add 0 } :=
  h.other rfl rfl rfl rfl trivial

theorem Serves.addConsumer {tr s} (h : Serves tr s) (p : Nat) :
    Serves (tr ++ [(.consume p, .handle s.consumers.length)])
      { s with consumers := s.consumers.add 0 } := by
  constructor
  · exact h.table.add 0 (fun i => by simp [ConsumerMade]; grind) (fun i => by simp [ConsumerGone])
  · intro c i hc
    rw [received_snoc]
    simp only [give]
    dsimp only at hc
    rw [Slots.get_add] at hc
    split at hc
    · rename_i he
      injection hc with hc
      subst hc
      rw [if_pos he]
      exact ⟨.nil, Nat.zero_le _, by simp, by simp⟩
    · rename_i he
      rw [if_neg he]
      exact (h.served c i hc).same rfl rfl

theorem Serves.step {tr s} (size : Nat) (h : Serves tr s) (op : Op) :
    Serves (tr ++ [(op, (step size s op).1)]) (step size s op).2 := by
  cases op with
  | write p b =>
    apply h.other
    all_goals (simp only [Frame.step]; repeat' (first | split | rfl | exact id))
  | finish p =>
    apply h.other
    all_goals (simp only [Frame.step]; repeat' (first | split | rfl | exact id))
  | abort p e =>
    apply h.other
    all_goals (simp only [Frame.step]; repeat' (first | split | rfl | exact id))
  | cloneProducer p =>
    apply h.other
    all_goals (simp only [Frame.step]; repeat' (first | split | rfl | exact id))
  | dropProducer p =>
    apply h.other
    all_goals (simp only [Frame.step]; repeat' (first | split | rfl | exact id))
  | unused p =>
    apply h.other
    all_goals (simp only [Frame.step]; repeat' (first | split | rfl | exact id))
  | dropUnused f =>
    apply h.other
    all_goals (simp only [Frame.step]; repeat' (first | split | rfl | exact id))
  | pollUnused f =>
    apply h.other
    all_goals (simp only [Frame.step]; repeat' (first | split | rfl | exact id))
  | consume p =>
    cases hp : s.producers.get p with
    | none =>
      apply h.other
      all_goals (simp only [Frame.step, hp] <;> first | rfl | exact id)
    | some w =>
      simp only [Frame.step, hp]
      exact h.addConsumer p
  | cloneConsumer d =>
    cases hd : s.consumers.get d with
    | none =>
      apply h.other
      all_goals (simp only [Frame.step, hd] <;> first | rfl | exact id)
    | some w =>
      simp only [Frame.step, hd]
      constructor
      · exact h.table.add w (fun i => by simp [ConsumerMade]; grind) (fun i => by simp [ConsumerGone])
      · intro c i hc
        rw [received_snoc]
        simp only [give]
        dsimp only at hc
        rw [Slots.get_add] at hc
        split at hc
        · rename_i he
          injection hc with hc
          subst hc
          rw [if_pos he]
          exact (h.served d w hd).same rfl rfl
        · rename_i he
          rw [if_neg he]
          exact (h.served c i hc).same rfl rfl
  | dropConsumer d =>
    cases hd : s.consumers.get d with
    | none =>
      apply h.other
      all_goals (simp only [Frame.step, hd] <;> first | rfl | exact id)
    | some w =>
      simp only [Frame.step, hd]
      constructor
      · exact h.table.put_none hd (fun i => by simp [ConsumerMade]) (fun i => by simp [ConsumerGone])
      · intro c i hc
        rw [received_snoc]
        simp only [give]
        dsimp only at hc
        rw [Slots.get_put] at hc
        split at hc
        · split at hc <;> cases hc
        · exact (h.served c i hc).same rfl rfl
  | read d =>
    cases hd : s.consumers.get d with
    | none =>
      apply h.other
      all_goals (simp only [Frame.step, hd] <;> first | rfl | exact id)
    | some w =>
      cases hw : s.chunks[w]? with
      | none =>
        apply h.other
        all_goals (simp only [Frame.step, hd, hw])
        · repeat' (first | split | rfl)
        · unfold State.wait; repeat' (first | split | rfl)
        · exact id
      | some b =>
        simp only [Frame.step, hd, hw]
        constructor
        · exact h.table.put_some _ hd (fun i => by simp [ConsumerMade])
            (fun i => by simp [ConsumerGone])
        · intro c i hc
          rw [received_snoc]
          simp only [give]
          dsimp only at hc
          rw [Slots.get_put] at hc
          split at hc
          · rename_i he
            subst he
            rw [if_pos (Slots.get_some_lt hd)] at hc
            injection hc with hc
            subst hc
            rw [if_pos rfl]
            have hs := h.served d w hd
            have hlt : w < s.chunks.length := by
              rw [List.getElem?_eq_some_iff] at hw; exact hw.1
            constructor
            · dsimp only
              rw [List.take_add_one, hw]
              exact .one b hs.covers
            · exact hlt
            · rintro ⟨x, hx⟩
              have : ∃ x, Piece.all x ∈ received tr d := by
                simp at hx; exact ⟨x, hx⟩
              have := (hs.rest this).1
              omega
            · intro hx
              have : ¬ ∃ x, Piece.all x ∈ received tr d := by
                simpa using hx
              have := hs.steps this
              simp [this]
          · rename_i he
            rw [if_neg (fun hx => he hx.symm)]
            exact (h.served c i hc).same rfl rfl
  | readAll d =>
    cases hd : s.consumers.get d with
    | none =>
      apply h.other
      all_goals (simp only [Frame.step, hd] <;> first | rfl | exact id)
    | some w =>
      by_cases hr : ∃ b, s.readAllAt w = .data b
      · obtain ⟨b, hb⟩ := hr
        simp only [Frame.step, hd, hb]
        constructor
        · exact h.table.put_some _ hd (fun i => by simp [ConsumerMade])
            (fun i => by simp [ConsumerGone])
        · intro c i hc
          rw [received_snoc]
          simp only [give]
          dsimp only at hc
          rw [Slots.get_put] at hc
          split at hc
          · rename_i he
            subst he
            rw [if_pos (Slots.get_some_lt hd)] at hc
            injection hc with hc
            subst hc
            rw [if_pos rfl]
            have hs := h.served d w hd
            unfold State.readAllAt at hb
            split at hb
            · cases hb
            · rename_i u hcl
              split at hb
              · injection hb with hb
                subst hb
                constructor
                · dsimp only
                  rw [List.take_length]
                  have := Covers.all (s.chunks.drop w) hs.covers
                  rwa [List.take_append_drop] at this
                · exact Nat.le_refl _
                · intro _
                  exact ⟨rfl, by dsimp only; rw [hcl]; rfl⟩
                · intro hx
                  exact absurd ⟨_, List.mem_append_right _ (List.mem_singleton.2 rfl)⟩ hx
              · cases hb
            · unfold State.wait at hb
              split at hb <;> cases hb
          · rename_i he
            rw [if_neg (fun hx => he hx.symm)]
            exact (h.served c i hc).same rfl rfl
      · have e1 : Frame.step size s (.readAll d) = (s.readAllAt w, s) := by
          simp only [Frame.step, hd]
          split
          · rename_i b hb; exact absurd ⟨b, hb⟩ hr
          · rfl
        apply h.other
        · rw [e1]
        · rw [e1]
          dsimp only
          unfold give
          split <;> simp_all
        · rw [e1]
          exact id

theorem serves_reach {size : Nat} {tr : Trace} {s : State} (h : (machine size).Reach tr s) : Serves tr s :=
  reach_induct serves_init (fun _ _ op _ ih => ih.step size op) h

theorem position_eq {tr s} (ha : Agrees tr s) (hs : Serves tr s) {c i}
    (hc : s.consumers.get c = some i) : position tr c = i := by
  have h := hs.served c i hc
  unfold position ReadRest
  by_cases hr : ∃ b, Piece.all b ∈ received tr c
  · rw [if_pos hr, ha.chunks]; exact (h.rest hr).1.symm
  · rw [if_neg hr]; exact h.steps hr

theorem Serves.alive_iff {tr s} (h : Serves tr s) (c : Nat) :
    ConsumerAlive tr c ↔ ∃ i, s.consumers.get c = some i := by
  have := h.table.live c
  unfold ConsumerMade ConsumerGone at this
  unfold ConsumerAlive
  rw [← this, Option.isSome_iff_exists]

theorem received_of {tr s} (ha : Agrees tr s) (hs : Serves tr s) {c} (hc : ConsumerAlive tr c) :
    Covers (received tr c) ((written tr).take (position tr c)) := by
  obtain ⟨i, hi⟩ := (hs.alive_iff c).1 hc
  rw [position_eq ha hs hi, ha.chunks]
  exact (hs.served c i hi).covers

open Classical in
theorem read_of {tr s} (size : Nat) (ha : Agrees tr s) (hs : Serves tr s) (c : Nat) :
    (step size s (.read c)).1 =
      if ConsumerAlive tr c then
        match (written tr)[position tr c]? with
        | some b => .data b
        | none => atEnd tr
      else .invalid := by
  cases hi : s.consumers.get c with
  | none =>
    rw [if_neg (fun hx => by
      obtain ⟨i, hx⟩ := (hs.alive_iff c).1 hx
      rw [hi] at hx; cases hx)]
    simp only [step, hi]
  | some i =>
    rw [if_pos ((hs.alive_iff c).2 ⟨i, hi⟩), position_eq ha hs hi, ha.chunks]
    simp only [step, hi]
    cases hb : s.chunks[i]? with
    | some b => rfl
    | none =>
      simp only
      split
      · rename_i hcl; unfold atEnd; rw [ha.closed, hcl]
      · rename_i hcl; unfold atEnd; rw [ha.closed, hcl]
      · rename_i hcl; exact ha.wait hcl

theorem readAllAt_of {tr s} (ha : Agrees tr s) {i : Nat} (hle : i ≤ s.chunks.length) :
    s.readAllAt i =
      match closing tr with
      | some (.ok _) => .data ((written tr).drop i).flatten
      | _ => atEnd tr := by
  unfold State.readAllAt
  rw [ha.closed, ha.chunks]
  split
  · rename_i hcl; rw [hcl]; unfold atEnd; rw [ha.closed, hcl]
  · rename_i hcl; rw [hcl, if_pos hle]
  · rename_i hcl; rw [hcl]; exact ha.wait hcl

open Classical in
theorem readAll_of {tr s} (size : Nat) (ha : Agrees tr s) (hs : Serves tr s) (c : Nat) :
    (step size s (.readAll c)).1 =
      if ConsumerAlive tr c then
        match closing tr with
        | some (.ok _) => .data ((written tr).drop (position tr c)).flatten
        | _ => atEnd tr
      else .invalid := by
  cases hi : s.consumers.get c with
  | none =>
    rw [if_neg (fun hx => by
      obtain ⟨i, hx⟩ := (hs.alive_iff c).1 hx
      rw [hi] at hx; cases hx)]
    simp only [step, hi]
  | some i =>
    rw [if_pos ((hs.alive_iff c).2 ⟨i, hi⟩), position_eq ha hs hi]
    have e1 : (step size s (.readAll c)).1 = s.readAllAt i := by
      simp only [step, hi]
      split
      · rename_i hb; exact hb.symm
      · rfl
    rw [e1]
    exact readAllAt_of ha (hs.served c i hi).le

/-! ## Exact sizes -/

/-- Without producer clones, the single producer's counter is exact. -/
structure Exact (size : Nat) (s : State) : Prop where
  single : s.producers.length = 1
  bound : s.chunks.flatten.length ≤ size
  counter : ∀ p w, s.producers.get p = some w → w = s.chunks.flatten.length ∨ size < w
  finished : s.closed = some (.ok ()) → s.chunks.flatten.length = size
  open_ : ∀ p w, s.producers.get p = some w → s.closed = none

theorem exact_init (size : Nat) : Exact size init := by
  constructor
  · rfl
  · simp [init]
  · intro p w hp
    cases p <;> simp [init, Slots.get] at hp ⊢
    exact .inl hp.symm
  · intro hx; cases hx
  · intro _ _ _; rfl

theorem Exact.step {size : Nat} {s : State} (ih : Exact size s) (op : Op)
    (hn' : ∀ p id, ¬ (op = .cloneProducer p ∧ (step size s op).1 = .handle id)) :
    Exact size (step size s op).2 := by
  have hz : ∀ p w, s.producers.get p = some w → p = 0 := by
    intro p w hp
    have := Slots.get_some_lt hp
    have := ih.single
    omega
  have same : ∀ s' : State, s'.producers = s.producers → s'.chunks = s.chunks →
      s'.closed = s.closed → Exact size s' := by
    intro s' h1 h2 h3
    constructor
    · rw [h1]; exact ih.single
    · rw [h2]; exact ih.bound
    · rw [h1, h2]; exact ih.counter
    · rw [h2, h3]; exact ih.finished
    · rw [h1, h3]; exact ih.open_
  have gone : ∀ (s' : State) (p w : Nat), s.producers.get p = some w →
      s'.producers = s.producers.put p none → s'.chunks = s.chunks →
      (s'.closed = some (.ok ()) → s'.chunks.flatten.length = size) → Exact size s' := by
    intro s' p w hp h1 h2 h3
    have hnone : ∀ q v, s'.producers.get q ≠ some v := by
      intro q v hq
      rw [h1, Slots.get_put] at hq
      split at hq
      · split at hq <;> cases hq
      · rename_i hne
        exact hne ((hz p w hp).trans (hz q v hq).symm)
    constructor
    · rw [h1, Slots.length_put]; exact ih.single
    · rw [h2]; exact ih.bound
    · intro q v hq; exact absurd hq (hnone q v)
    · exact h3
    · intro q v hq; exact absurd hq (hnone q v)
  cases op with
  | write p b =>
    simp only [Frame.step]
    split
    · exact ih
    · rename_i w hw
      have hp := hz p w hw
      subst hp
      have get_of : ∀ q v, (s.producers.put 0 (some (w + b.length))).get q = some v →
          v = w + b.length := by
        intro q v hq
        rw [Slots.get_put] at hq
        split at hq
        · rw [if_pos (Slots.get_some_lt hw)] at hq
          injection hq with hq
          exact hq.symm
        · rename_i hne
          exact absurd (hz q v hq).symm hne
      split
      · rename_i hgt
        constructor
        · simp [ih.single]
        · exact ih.bound
        · intro q v hq
          have := get_of q v hq
          omega
        · exact ih.finished
        · intro q v hq
          exact ih.open_ 0 w hw
      · rename_i hle
        split
        · rename_i hcl
          have := ih.open_ 0 w hw
          rw [this] at hcl
          cases hcl
        · have hw' := ih.counter 0 w hw
          have hlen : (s.chunks ++ [b]).flatten.length = s.chunks.flatten.length + b.length := by
            simp
          constructor
          · simp [ih.single]
          · dsimp only; rw [hlen]; have := ih.bound; omega
          · intro q v hq
            have := get_of q v hq
            dsimp only
            rw [hlen]
            omega
          · intro hx
            dsimp only at hx
            rw [ih.open_ 0 w hw] at hx
            cases hx
          · intro q v hq
            exact ih.open_ 0 w hw
  | finish p =>
    simp only [Frame.step]
    split
    · exact ih
    · rename_i w hw
      split
      · rename_i he
        refine gone _ p w hw rfl rfl fun _ => ?_
        dsimp only
        have := ih.counter p w hw
        omega
      · refine gone _ p w hw rfl rfl fun hx => ih.finished hx
  | abort p e =>
    simp only [Frame.step]
    split
    · exact ih
    · rename_i w hw
      exact gone _ p w hw rfl rfl fun hx => by cases hx
  | cloneProducer p =>
    simp only [Frame.step] at hn' ⊢
    split
    · exact ih
    · rename_i w hw
      rw [hw] at hn'
      exact absurd ⟨rfl, rfl⟩ (hn' p _)
  | dropProducer p =>
    simp only [Frame.step]
    split
    · exact ih
    · rename_i w hw
      exact gone _ p w hw rfl rfl ih.finished
  | _ =>
    refine same _ ?_ ?_ ?_
    all_goals (simp only [Frame.step]; repeat' (first | split | rfl))

end Verif.Model.Frame
