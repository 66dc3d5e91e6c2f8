import Verif.Js.Group

/-!
# Invariant of groups in the browser
-/

set_option autoImplicit false

namespace Verif.Js.Group

open Verif

theorem written_snoc (tr : Trace) (op : Op) (o : Out) : written (tr ++ [(op, o)]) =
    written tr ++ (match op, o with | .write b, .ok => [b] | _, _ => []) := by
  unfold written
  rw [List.filterMap_append]
  congr 1
  cases op <;> cases o <;> rfl

theorem answers_snoc (tr : Trace) (e : Op × Out) (c : Nat) :
    answers (tr ++ [e]) c = answers tr c ++ (answer c e).toList := by
  unfold answers
  rw [List.filterMap_append]
  cases h : answer c e <;> simp [h]

theorem ending_snoc (tr : Trace) (op : Op) (o : Out) : ending (tr ++ [(op, o)]) =
    (ending tr).or (if op = .close ∨ op = .abort then some op else none) := by
  unfold ending
  rw [List.map_append, List.find?_append]
  congr 1
  by_cases h : op = .close ∨ op = .abort <;> simp [h]

theorem closed_snoc (tr : Trace) (op : Op) (o : Out) (c : Nat) : Closed (tr ++ [(op, o)]) c ↔
    Closed tr c ∨ ∃ x, op = .closeHandle c x ∧ o = .ok := by
  unfold Closed
  constructor
  · rintro ⟨x, hx⟩
    rcases List.mem_append.mp hx with hx | hx
    · exact .inl ⟨x, hx⟩
    · simp only [List.mem_singleton, Prod.mk.injEq] at hx
      exact .inr ⟨x, hx.1.symm, hx.2.symm⟩
  · rintro (⟨x, hx⟩ | ⟨x, rfl, rfl⟩)
    · exact ⟨x, List.mem_append_left _ hx⟩
    · exact ⟨x, by simp⟩

/-- How a status is told from the history. -/
def Status.op? : Status → Option Op
  | .live => none
  | .closed => some .close
  | .aborted => some .abort

/-- What a pending call stands for. -/
def CallOk (frames : List Bytes) (status : Status) (h : Handle) : Prop :=
  match h.call with
  | .idle => True
  | .waiting => h.index = frames.length ∧ status = .live ∧ h.closed = false
  | .ready (.value fs) => fs <+: frames ∧ h.index < fs.length
  | .ready .undefined => h.closed = true ∨ (status = .closed ∧ h.index = frames.length)
  | .ready .rejected => status = .aborted ∧ h.index = frames.length

/-- What holds of a consumer that was given the answers `ans`. -/
structure HInv (frames : List Bytes) (status : Status) (ans : List Out) (cl : Prop) (h : Handle) :
    Prop where
  index : h.index ≤ frames.length
  got : ans.filterMap Out.frame? = frames.take h.index
  closed : h.closed = true ↔ cl
  call : CallOk frames status h
  waits : ans.getLast? = some .pending ↔ h.call ≠ .idle

structure Inv (tr : Trace) (s : State) : Prop where
  frames : s.frames = written tr
  status : ending tr = s.status.op?
  handle : ∀ c h, s.handles[c]? = some h →
    HInv s.frames s.status (answers tr c) (Closed tr c) h
  fresh : ∀ c, s.handles.length ≤ c → answers tr c = [] ∧ ¬ Closed tr c

theorem inv_init : Inv [] init :=
  ⟨rfl, rfl, fun c h hc => by simp [init] at hc, fun c _ => ⟨rfl, by rintro ⟨x, hx⟩; cases hx⟩⟩

/-! ## One consumer -/

/-- What a step may do to a consumer: the answer, if it is one, and the new state. -/
theorem look_inv {frames fs : List Bytes} {status : Status} {ans : List Out} {cl : Prop} {h : Handle}
    (i : HInv frames status ans cl h) (hf : fs <+: frames)
    (hn : h.index < fs.length ∨ (fs = frames ∧ h.closed = false)) :
    HInv frames status (ans ++ [(look status fs h).1]) cl (look status fs h).2 ∧
    (look status fs h).1 ≠ .invalid := by
  unfold look
  cases hb : fs[h.index]? with
  | some b =>
    have hlt : h.index < fs.length := (List.getElem?_eq_some_iff.mp hb).1
    have hle := hf.length_le
    have hb' : frames[h.index]? = some b := by
      obtain ⟨t, rfl⟩ := hf
      rw [List.getElem?_append_left hlt]
      exact hb
    refine ⟨⟨by dsimp only; omega, ?_, i.closed, trivial, by simp⟩, by simp⟩
    rw [List.filterMap_append, i.got]
    dsimp only
    rw [List.take_add_one, hb']
    rfl
  | none =>
    have hge : fs.length ≤ h.index := List.getElem?_eq_none_iff.mp hb
    rcases hn with hn | ⟨rfl, hc⟩
    · omega
    · have hi : h.index = fs.length := by have := i.index; omega
      refine ⟨⟨i.index, ?_, i.closed, ?_, ?_⟩, by simp⟩
      · rw [List.filterMap_append, i.got]
        simp [Out.frame?]
      · unfold CallOk wait
        rw [hc]
        cases status
        · exact ⟨hi, rfl, rfl⟩
        · exact .inr ⟨rfl, hi⟩
        · exact ⟨rfl, hi⟩
      · dsimp only
        cases status <;> simp [wait, hc]

/-- A consumer step that gave the answer `o`. -/
def Answered (frames : List Bytes) (status : Status) (ans : List Out) (cl : Prop) (r : Out × Handle) :
    Prop :=
  HInv frames status (ans ++ if r.1 = .invalid then [] else [r.1]) cl r.2

theorem nextFrame_inv {s : State} {ans : List Out} {cl : Prop} {h : Handle}
    (i : HInv s.frames s.status ans cl h) :
    Answered s.frames s.status ans cl
      (if h.call = .idle then nextFrame s h else (.invalid, h)) := by
  unfold Answered
  by_cases hi : h.call = .idle
  · rw [if_pos hi]
    unfold nextFrame
    by_cases hc : h.closed = true
    · rw [if_pos hc]
      refine ⟨i.index, ?_, i.closed, i.call, ?_⟩
      · simp [List.filterMap_append, i.got, Out.frame?]
      · simp [hi]
    · rw [if_neg hc]
      have := look_inv i (List.prefix_refl _) (.inr ⟨rfl, by simpa using hc⟩)
      rw [if_neg this.2]
      exact this.1
  · rw [if_neg hi]
    simpa using i

theorem resume_inv {s : State} {ans : List Out} {cl : Prop} {h : Handle}
    (i : HInv s.frames s.status ans cl h) : Answered s.frames s.status ans cl (resume s h) := by
  unfold Answered
  have hc := i.call
  unfold CallOk at hc
  unfold resume
  rcases hcall : h.call with _ | _ | ⟨fs | _ | _⟩ <;> rw [hcall] at hc
  · simpa using i
  · simpa using i
  · dsimp only at hc ⊢
    have hl := look_inv i hc.1 (.inl hc.2)
    rw [if_neg hl.2]
    exact hl.1
  · refine ⟨i.index, ?_, i.closed, trivial, ?_⟩
    · simp [List.filterMap_append, i.got, Out.frame?]
    · simp
  · refine ⟨i.index, ?_, i.closed, trivial, ?_⟩
    · simp [List.filterMap_append, i.got, Out.frame?]
    · simp

theorem cancel_inv {frames : List Bytes} {status : Status} {ans : List Out} {cl : Prop} {h : Handle}
    (i : HInv frames status ans cl h) (x : Bool) :
    HInv frames status ans True { h with closed := true, call := h.call.cancel x } := by
  refine ⟨i.index, i.got, by simp, ?_, ?_⟩
  · have hc := i.call
    unfold CallOk at hc ⊢
    rcases hcall : h.call with _ | _ | ⟨fs | _ | _⟩ <;> rw [hcall] at hc <;> cases x <;>
      simp_all [Call.cancel]
  · rw [i.waits]
    rcases hcall : h.call with _ | _ | ⟨fs | _ | _⟩ <;> simp [Call.cancel]

/-! ## The group -/

theorem settle_write {frames : List Bytes} {ans : List Out} {cl : Prop} {h : Handle} (b : Bytes)
    (i : HInv frames .live ans cl h) :
    HInv (frames ++ [b]) .live ans cl
      { h with call := h.call.settle (.value (frames ++ [b])) } := by
  have hi := i.index
  refine ⟨by simp; omega, ?_, i.closed, ?_, ?_⟩
  · rw [i.got]
    dsimp only
    rw [List.take_append_of_le_length hi]
  · have hc := i.call
    unfold CallOk at hc ⊢
    rcases hcall : h.call with _ | _ | ⟨fs | _ | _⟩ <;> rw [hcall] at hc <;>
      simp_all [Call.settle]
    exact hc.1.trans (List.prefix_append _ _)
  · rw [i.waits]
    rcases hcall : h.call with _ | _ | ⟨fs | _ | _⟩ <;> simp [Call.settle]

theorem settle_close {frames : List Bytes} {ans : List Out} {cl : Prop} {h : Handle}
    (i : HInv frames .live ans cl h) :
    HInv frames .closed ans cl { h with call := h.call.settle .undefined } := by
  refine ⟨i.index, i.got, i.closed, ?_, ?_⟩
  · have hc := i.call
    unfold CallOk at hc ⊢
    rcases hcall : h.call with _ | _ | ⟨fs | _ | _⟩ <;> rw [hcall] at hc <;>
      simp_all [Call.settle]
  · rw [i.waits]
    rcases hcall : h.call with _ | _ | ⟨fs | _ | _⟩ <;> simp [Call.settle]

theorem settle_abort {frames : List Bytes} {ans : List Out} {cl : Prop} {h : Handle}
    (i : HInv frames .live ans cl h) :
    HInv frames .aborted ans cl { h with call := h.call.settle .rejected } := by
  refine ⟨i.index, i.got, i.closed, ?_, ?_⟩
  · have hc := i.call
    unfold CallOk at hc ⊢
    rcases hcall : h.call with _ | _ | ⟨fs | _ | _⟩ <;> rw [hcall] at hc <;>
      simp_all [Call.settle]
  · rw [i.waits]
    rcases hcall : h.call with _ | _ | ⟨fs | _ | _⟩ <;> simp [Call.settle]

/-- A step of the producer answers no consumer. -/
theorem producer_snoc (tr : Trace) (op : Op) (o : Out) (c : Nat)
    (hop : (∃ b, op = .write b) ∨ op = .close ∨ op = .abort ∨ op = .consume) :
    answers (tr ++ [(op, o)]) c = answers tr c ∧ (Closed (tr ++ [(op, o)]) c ↔ Closed tr c) := by
  rw [answers_snoc, closed_snoc]
  rcases hop with ⟨b, rfl⟩ | rfl | rfl | rfl <;> simp [answer]

theorem settleAll_get {hs : List Handle} {x : Settled (List Bytes)} {c : Nat} {h : Handle}
    (hc : (settleAll hs x)[c]? = some h) :
    ∃ h', hs[c]? = some h' ∧ h = { h' with call := h'.call.settle x } := by
  unfold settleAll at hc
  rw [List.getElem?_map] at hc
  cases hh : hs[c]? with
  | none => simp [hh] at hc
  | some h' =>
    rw [hh] at hc
    exact ⟨h', rfl, by simpa using hc.symm⟩

/-- A step on the consumer `c`. -/
theorem onHandle_inv {tr : Trace} {s : State} (i : Inv tr s) (op : Op) (c : Nat)
    (f : Handle → Out × Handle)
    (hop : op = .nextFrame c ∨ op = .resume c ∨ ∃ x, op = .closeHandle c x)
    (hf : ∀ h, s.handles[c]? = some h → HInv s.frames s.status
      (answers (tr ++ [(op, (f h).1)]) c) (Closed (tr ++ [(op, (f h).1)]) c) (f h).2) :
    Inv (tr ++ [(op, (onHandle s c f).1)]) (onHandle s c f).2 := by
  have hother : ∀ (o : Out) (d : Nat), d ≠ c → answers (tr ++ [(op, o)]) d = answers tr d ∧
      (Closed (tr ++ [(op, o)]) d ↔ Closed tr d) := by
    intro o d hd
    rw [answers_snoc, closed_snoc]
    have hd' : c ≠ d := fun e => hd e.symm
    rcases hop with rfl | rfl | ⟨x, rfl⟩ <;> simp [answer, hd']
  have hw : ∀ o, written (tr ++ [(op, o)]) = written tr := by
    intro o
    rw [written_snoc]
    rcases hop with rfl | rfl | ⟨x, rfl⟩ <;> simp
  have he : ∀ o, ending (tr ++ [(op, o)]) = ending tr := by
    intro o
    rw [ending_snoc]
    rcases hop with rfl | rfl | ⟨x, rfl⟩ <;> simp
  unfold onHandle
  cases hc : s.handles[c]? with
  | none =>
    have hsame : ∀ d, answers (tr ++ [(op, .invalid)]) d = answers tr d ∧
        (Closed (tr ++ [(op, .invalid)]) d ↔ Closed tr d) := by
      intro d
      rw [answers_snoc, closed_snoc]
      rcases hop with rfl | rfl | ⟨x, rfl⟩ <;> simp [answer]
    refine ⟨by rw [hw]; exact i.frames, by rw [he]; exact i.status, ?_, ?_⟩
    · intro d h hd
      rw [(hsame d).1]
      have := i.handle d h hd
      exact ⟨this.index, this.got, this.closed.trans (hsame d).2.symm, this.call, this.waits⟩
    · intro d hd
      rw [(hsame d).1, (hsame d).2]
      exact i.fresh d hd
  | some h =>
    have hlt : c < s.handles.length := (List.getElem?_eq_some_iff.mp hc).1
    refine ⟨by rw [hw]; exact i.frames, by rw [he]; exact i.status, ?_, ?_⟩
    · intro d h' hd
      dsimp only at hd ⊢
      by_cases hdc : d = c
      · subst hdc
        rw [List.getElem?_set_self hlt] at hd
        cases hd
        exact hf h hc
      · rw [List.getElem?_set_ne (fun e => hdc e.symm)] at hd
        obtain ⟨h1, h2⟩ := hother (f h).1 d hdc
        have := i.handle d h' hd
        rw [h1]
        exact ⟨this.index, this.got, this.closed.trans h2.symm, this.call, this.waits⟩
    · intro d hd
      dsimp only at hd ⊢
      rw [List.length_set] at hd
      obtain ⟨h1, h2⟩ := hother (f h).1 d (by omega)
      rw [h1, h2]
      exact i.fresh d hd

theorem step_inv {tr : Trace} {s : State} (i : Inv tr s) (op : Op) :
    Inv (tr ++ [(op, (step s op).1)]) (step s op).2 := by
  have hprod : ∀ (op : Op) (o : Out) (s' : State),
      ((∃ b, op = .write b) ∨ op = .close ∨ op = .abort ∨ op = .consume) →
      s'.frames = written (tr ++ [(op, o)]) → ending (tr ++ [(op, o)]) = s'.status.op? →
      (∀ c h, s'.handles[c]? = some h → HInv s'.frames s'.status (answers tr c) (Closed tr c) h) →
      s.handles.length ≤ s'.handles.length → Inv (tr ++ [(op, o)]) s' := by
    intro op o s' hop h1 h2 h3 h4
    refine ⟨h1, h2, fun c h hc => ?_, fun c hc => ?_⟩
    · obtain ⟨e1, e2⟩ := producer_snoc tr op o c hop
      have := h3 c h hc
      rw [e1]
      exact ⟨this.index, this.got, this.closed.trans e2.symm, this.call, this.waits⟩
    · obtain ⟨e1, e2⟩ := producer_snoc tr op o c hop
      rw [e1, e2]
      exact i.fresh c (by omega)
  have hst := i.status
  cases op with
  | write b =>
    rw [step]
    by_cases hl : s.status = .live
    · rw [if_pos hl]
      refine hprod _ _ _ (.inl ⟨b, rfl⟩) ?_ ?_ ?_ (by simp [settleAll])
      · rw [written_snoc, i.frames]
      · rw [ending_snoc, hst]
        cases s.status <;> simp [Status.op?]
      · intro c h hc
        obtain ⟨h', hc', rfl⟩ := settleAll_get hc
        have := i.handle c h' hc'
        dsimp only
        rw [hl] at this ⊢
        exact settle_write b this
    · rw [if_neg hl]
      refine hprod _ _ _ (.inl ⟨b, rfl⟩) ?_ ?_ i.handle (Nat.le_refl _)
      · rw [written_snoc, i.frames]
        simp
      · rw [ending_snoc, hst]
        cases s.status <;> simp [Status.op?]
  | close =>
    rw [step]
    by_cases hl : s.status = .live
    · rw [if_pos hl]
      refine hprod _ _ _ (.inr (.inl rfl)) ?_ ?_ ?_ (by simp [settleAll])
      · rw [written_snoc, i.frames]
        simp
      · rw [ending_snoc, hst, hl]
        simp [Status.op?]
      · intro c h hc
        obtain ⟨h', hc', rfl⟩ := settleAll_get hc
        have := i.handle c h' hc'
        rw [hl] at this
        exact settle_close this
    · rw [if_neg hl]
      refine hprod _ _ _ (.inr (.inl rfl)) ?_ ?_ i.handle (Nat.le_refl _)
      · rw [written_snoc, i.frames]
        simp
      · rw [ending_snoc, hst]
        cases hs : s.status <;> simp_all [Status.op?]
  | abort =>
    rw [step]
    by_cases hl : s.status = .live
    · rw [if_pos hl]
      refine hprod _ _ _ (.inr (.inr (.inl rfl))) ?_ ?_ ?_ (by simp [settleAll])
      · rw [written_snoc, i.frames]
        simp
      · rw [ending_snoc, hst, hl]
        simp [Status.op?]
      · intro c h hc
        obtain ⟨h', hc', rfl⟩ := settleAll_get hc
        have := i.handle c h' hc'
        rw [hl] at this
        exact settle_abort this
    · rw [if_neg hl]
      refine hprod _ _ _ (.inr (.inr (.inl rfl))) ?_ ?_ i.handle (Nat.le_refl _)
      · rw [written_snoc, i.frames]
        simp
      · rw [ending_snoc, hst]
        cases hs : s.status <;> simp_all [Status.op?]
  | consume =>
    rw [step]
    refine hprod _ _ _ (.inr (.inr (.inr rfl))) ?_ ?_ ?_ (by simp)
    · rw [written_snoc, i.frames]
      simp
    · rw [ending_snoc, hst]
      cases s.status <;> simp [Status.op?]
    · intro c h hc
      dsimp only at hc ⊢
      rcases Nat.lt_trichotomy c s.handles.length with hlt | rfl | hgt
      · rw [List.getElem?_append_left hlt] at hc
        exact i.handle c h hc
      · obtain ⟨f1, f2⟩ := i.fresh s.handles.length (Nat.le_refl _)
        simp only [List.getElem?_concat_length, Option.some.injEq] at hc
        subst hc
        rw [f1]
        exact ⟨Nat.zero_le _, by simp, by simpa using f2, trivial, by simp⟩
      · rw [List.getElem?_eq_none (by simp; omega)] at hc
        cases hc
  | nextFrame c =>
    rw [step]
    refine onHandle_inv i _ c _ (.inl rfl) fun h hc => ?_
    have := nextFrame_inv (i.handle c h hc)
    unfold Answered at this
    rw [answers_snoc]
    refine ⟨this.index, ?_, ?_, this.call, ?_⟩
    · rw [← this.got]
      congr 2
      simp only [answer, true_and]
      split <;> split <;> simp_all
    · rw [this.closed, closed_snoc]
      simp
    · rw [← this.waits]
      simp only [answer, true_and]
      split <;> split <;> simp_all
  | resume c =>
    rw [step]
    refine onHandle_inv i _ c _ (.inr (.inl rfl)) fun h hc => ?_
    have := resume_inv (i.handle c h hc)
    unfold Answered at this
    have e : (answer c (Op.resume c, (resume s h).1)).toList =
        if (resume s h).1 = .invalid then [] else [(resume s h).1] := by
      simp only [answer, true_and]
      by_cases hi : (resume s h).1 = .invalid <;> simp [hi]
    rw [answers_snoc, e]
    exact ⟨this.index, this.got, by rw [this.closed, closed_snoc]; simp, this.call, this.waits⟩
  | closeHandle c x =>
    rw [step]
    refine onHandle_inv i _ c _ (.inr (.inr ⟨x, rfl⟩)) fun h hc => ?_
    have := cancel_inv (i.handle c h hc) x
    rw [answers_snoc]
    refine ⟨this.index, by simpa [answer] using this.got, ?_, this.call, by
      simpa [answer] using this.waits⟩
    rw [closed_snoc]
    simp

theorem inv_reach {tr : Trace} {s : State} (h : machine.Reach tr s) : Inv tr s :=
  Machine.Reach.induct (M := machine) (P := fun tr s => Inv tr s) inv_init
    (fun _ _ op _ i => step_inv i op) h

end Verif.Js.Group
