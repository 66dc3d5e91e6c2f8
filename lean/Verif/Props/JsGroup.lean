import Verif.Js.GroupLemmas

/-!
# Property C93: groups in the browser
-/

set_option autoImplicit false

namespace Verif.Props.JsGroup

open Verif Verif.Js.Group

/-- The consumer exists: `consume` or `clone` returned it. -/
def Exists (tr : Trace) (c : Nat) : Prop := (.consume, .handle c) ∈ tr

/-- A call of `nextFrame` of `c`, or the continuation of one. -/
def Reads (op : Op) (c : Nat) : Prop := op = .nextFrame c ∨ op = .resume c

theorem exists_iff {tr : Trace} {s : State} (h : machine.Reach tr s) (c : Nat) :
    Exists tr c ↔ c < s.handles.length := by
  refine Machine.Reach.induct (M := machine)
    (P := fun tr s => Exists tr c ↔ c < s.handles.length) ?_ ?_ h
  · exact ⟨fun h => (by cases h), fun h => absurd h (Nat.not_lt_zero _)⟩
  · intro tr s op _ ih
    unfold Exists at ih ⊢
    rw [List.mem_append, ih, List.mem_singleton, Prod.mk.injEq]
    show _ ↔ c < (step s op).2.handles.length
    have hon : ∀ d f, (onHandle s d f).2.handles.length = s.handles.length := by
      intro d f
      unfold onHandle
      cases s.handles[d]? <;> simp
    cases op with
    | consume =>
      simp only [machine, step, List.length_append, List.length_cons, List.length_nil, true_and,
        Out.handle.injEq]
      omega
    | write b => by_cases hl : s.status = .live <;> simp [step, hl, settleAll]
    | close => by_cases hl : s.status = .live <;> simp [step, hl, settleAll]
    | abort => by_cases hl : s.status = .live <;> simp [step, hl, settleAll]
    | nextFrame d => simp [step, hon]
    | resume d => simp [step, hon]
    | closeHandle d x => simp [step, hon]

theorem handle_of {tr : Trace} {s : State} (h : machine.Reach tr s) {c : Nat} (hc : Exists tr c) :
    ∃ x, s.handles[c]? = some x ∧ HInv s.frames s.status (answers tr c) (Closed tr c) x := by
  have hlt := (exists_iff h c).mp hc
  exact ⟨s.handles[c], List.getElem?_eq_getElem hlt,
    (inv_reach h).handle c _ (List.getElem?_eq_getElem hlt)⟩

theorem got_eq {tr : Trace} {s : State} (h : machine.Reach tr s) {c : Nat} {x : Handle}
    (i : HInv s.frames s.status (answers tr c) (Closed tr c) x) :
    got tr c = (written tr).take x.index := by
  rw [← (inv_reach h).frames]
  exact i.got

/-- **C93.**  A consumer is given the frames of the group in order, from the first one on, each
once and none left out. -/
theorem c93_prefix {tr : Trace} {s : State} (h : machine.Reach tr s) (c : Nat) :
    got tr c <+: written tr := by
  by_cases hc : c < s.handles.length
  · rw [got_eq h ((inv_reach h).handle c _ (List.getElem?_eq_getElem hc))]
    exact List.take_prefix _ _
  · unfold got
    rw [((inv_reach h).fresh c (by omega)).1]
    exact List.nil_prefix

theorem all_read {tr : Trace} {s : State} (h : machine.Reach tr s) {c : Nat} {x : Handle}
    (i : HInv s.frames s.status (answers tr c) (Closed tr c) x) (hx : x.index = s.frames.length) :
    got tr c = written tr := by
  rw [got_eq h i, hx, (inv_reach h).frames, List.take_length]

theorem status_of {tr : Trace} {s : State} (h : machine.Reach tr s) {t : Status}
    (ht : s.status = t) : ending tr = t.op? := by
  rw [(inv_reach h).status, ht]

theorem onHandle_out {s : State} {c : Nat} {x : Handle} (hx : s.handles[c]? = some x)
    (f : Handle → Out × Handle) : (onHandle s c f).1 = (f x).1 := by
  unfold onHandle
  rw [hx]

theorem look_out (status : Status) (fs : List Bytes) (x : Handle) :
    (look status fs x).1 = match fs[x.index]? with | some b => .frame b | none => .pending := by
  unfold look
  cases fs[x.index]? <;> rfl

/-- What a read answers. -/
theorem read_out {tr : Trace} {s : State} (h : machine.Reach tr s) {c : Nat} {op : Op}
    (hop : Reads op c) (hv : (step s op).1 ≠ .invalid) :
    ∃ x, HInv s.frames s.status (answers tr c) (Closed tr c) x ∧
      ((step s op).1 = .undefined →
        Closed tr c ∨ (s.status = .closed ∧ x.index = s.frames.length)) ∧
      ((step s op).1 = .rejected → s.status = .aborted ∧ x.index = s.frames.length) := by
  have hx : ∃ x, s.handles[c]? = some x := by
    cases hx : s.handles[c]? with
    | some x => exact ⟨x, rfl⟩
    | none => rcases hop with rfl | rfl <;> simp [step, onHandle, hx] at hv
  obtain ⟨x, hx⟩ := hx
  have i := (inv_reach h).handle c x hx
  have hc := i.call
  unfold CallOk at hc
  refine ⟨x, i, ?_⟩
  rcases hop with rfl | rfl
  · rw [step, onHandle_out hx] at hv ⊢
    by_cases hi : x.call = .idle
    · simp only [hi, if_true] at hv ⊢
      unfold nextFrame
      by_cases hcl : x.closed = true
      · simp only [hcl, if_true]
        exact ⟨fun _ => .inl (i.closed.mp hcl), fun h => (by cases h)⟩
      · simp only [hcl]
        rw [if_neg (by simp), look_out]
        cases s.frames[x.index]? <;> simp
    · simp [hi] at hv
  · rw [step, onHandle_out hx] at hv ⊢
    unfold resume at hv ⊢
    rcases hcall : x.call with _ | _ | ⟨fs | _ | _⟩ <;> rw [hcall] at hc <;>
      simp only [hcall] at hv ⊢
    · exact absurd rfl hv
    · exact absurd rfl hv
    · rw [look_out]
      cases fs[x.index]? <;> simp
    · refine ⟨fun _ => ?_, fun h => (by cases h)⟩
      exact hc.imp_left i.closed.mp
    · exact ⟨fun h => (by cases h), fun _ => hc⟩

/-- The end is not reported early: `undefined` means that this consumer was closed, or that the
group was closed and the consumer has all of its frames. -/
theorem c93_end {tr : Trace} {s : State} (h : machine.Reach tr s) (c : Nat) (op : Op)
    (hop : Reads op c) (ho : (step s op).1 = .undefined) :
    Closed tr c ∨ (ending tr = some .close ∧ got tr c = written tr) := by
  obtain ⟨x, i, h1, -⟩ := read_out h hop (by rw [ho]; simp)
  exact (h1 ho).imp_right fun ⟨a, b⟩ => ⟨status_of h a, all_read h i b⟩

/-- An exception means that the group was aborted, and the consumer has all frames from before. -/
theorem c93_rejected {tr : Trace} {s : State} (h : machine.Reach tr s) (c : Nat) (op : Op)
    (hop : Reads op c) (ho : (step s op).1 = .rejected) :
    ending tr = some .abort ∧ got tr c = written tr := by
  obtain ⟨x, i, -, h2⟩ := read_out h hop (by rw [ho]; simp)
  obtain ⟨a, b⟩ := h2 ho
  exact ⟨status_of h a, all_read h i b⟩

/-- A frame that is there is returned at once, also after the group was closed or aborted. -/
theorem c93_available {tr : Trace} {s : State} (h : machine.Reach tr s) (c : Nat)
    (hc : Exists tr c) (hcl : ¬ Closed tr c) (hw : ¬ Waits tr c) (b : Bytes)
    (hb : (written tr)[(got tr c).length]? = some b) : (step s (.nextFrame c)).1 = .frame b := by
  obtain ⟨x, hx, i⟩ := handle_of h hc
  have hi : x.call = .idle := Classical.byContradiction fun hn => hw (i.waits.mpr hn)
  have hcl' : x.closed = false := by
    cases hxc : x.closed with
    | false => rfl
    | true => exact absurd (i.closed.mp hxc) hcl
  have hl : (got tr c).length = x.index := by
    rw [got_eq h i, List.length_take, ← (inv_reach h).frames]
    have := i.index
    omega
  rw [hl, ← (inv_reach h).frames] at hb
  rw [step, onHandle_out hx, if_pos hi, nextFrame, hcl', if_neg (by simp), look_out, hb]

/-- A closed reader is given nothing more. -/
theorem c93_closed {tr : Trace} {s : State} (h : machine.Reach tr s) (c : Nat)
    (hcl : Closed tr c) (hw : ¬ Waits tr c) : (step s (.nextFrame c)).1 = .undefined := by
  have hlt : c < s.handles.length := Classical.byContradiction fun hn =>
    ((inv_reach h).fresh c (by omega)).2 hcl
  obtain ⟨x, hx⟩ : ∃ x, s.handles[c]? = some x := ⟨_, List.getElem?_eq_getElem hlt⟩
  have i := (inv_reach h).handle c x hx
  have hi : x.call = .idle := Classical.byContradiction fun hn => hw (i.waits.mpr hn)
  rw [step, onHandle_out hx, if_pos hi, nextFrame, i.closed.mpr hcl, if_pos rfl]

/-- No call is forgotten: a pending call that cannot continue has been given all frames, and
neither the group nor the consumer was closed. -/
theorem c93_waiting {tr : Trace} {s : State} (h : machine.Reach tr s) (c : Nat)
    (hw : Waits tr c) (hr : (step s (.resume c)).1 = .invalid) :
    got tr c = written tr ∧ ending tr = none ∧ ¬ Closed tr c := by
  have hlt : c < s.handles.length := Classical.byContradiction fun hn => by
    have := ((inv_reach h).fresh c (by omega)).1
    unfold Waits at hw
    rw [this] at hw
    cases hw
  obtain ⟨x, hx⟩ : ∃ x, s.handles[c]? = some x := ⟨_, List.getElem?_eq_getElem hlt⟩
  have i := (inv_reach h).handle c x hx
  have hcall := i.waits.mp hw
  have hc := i.call
  rw [step, onHandle_out hx] at hr
  unfold CallOk at hc
  unfold resume at hr
  rcases hxc : x.call with _ | _ | ⟨fs | _ | _⟩ <;> rw [hxc] at hc <;> simp only [hxc] at hr
  · exact absurd hxc hcall
  · refine ⟨all_read h i hc.1, status_of h hc.2.1, fun hcl => ?_⟩
    rw [i.closed.mpr hcl] at hc
    exact absurd hc.2.2 (by simp)
  · rw [look_out] at hr
    cases hf : fs[x.index]? <;> rw [hf] at hr <;> cases hr
  · cases hr
  · cases hr

/-- And a call that can continue returns: it does not wait again. -/
theorem c93_resumed {tr : Trace} {s : State} (h : machine.Reach tr s) (c : Nat) :
    (step s (.resume c)).1 ≠ .pending := by
  cases hx : s.handles[c]? with
  | none => simp [step, onHandle, hx]
  | some x =>
    have hc := ((inv_reach h).handle c x hx).call
    unfold CallOk at hc
    rw [step, onHandle_out hx]
    unfold resume
    rcases hxc : x.call with _ | _ | ⟨fs | _ | _⟩ <;> rw [hxc] at hc <;> simp only [] <;> try simp
    rw [look_out, List.getElem?_eq_getElem hc.2]
    simp

/-- Frames are taken exactly until the group is closed or aborted. -/
theorem c93_write {tr : Trace} {s : State} (h : machine.Reach tr s) (b : Bytes) :
    (step s (.write b)).1 = (if ending tr = none then .ok else .threw) := by
  rw [(inv_reach h).status]
  cases hs : s.status <;> simp [step, hs, Status.op?]

/-- Two consumers, one waiting and one behind; an end with frames left. -/
example : (machine.run [.consume, .write [1], .nextFrame 0, .nextFrame 0, .write [2], .write [3],
      .consume, .resume 0, .close, .nextFrame 0, .nextFrame 0, .resume 0, .nextFrame 1]).1.map (·.2) =
    [.handle 0, .ok, .frame [1], .pending, .ok, .ok, .handle 1, .frame [2], .ok, .frame [3], .pending,
      .undefined, .frame [1]] := by decide +kernel

/-- Closing the consumer may overtake a frame. -/
example : (machine.run [.consume, .nextFrame 0, .write [1], .closeHandle 0 true, .resume 0]).1.map
      (·.2) = [.handle 0, .pending, .ok, .ok, .undefined] ∧
    (machine.run [.consume, .nextFrame 0, .write [1], .closeHandle 0 false, .resume 0]).1.map
      (·.2) = [.handle 0, .pending, .ok, .ok, .frame [1]] := by
  constructor <;> decide +kernel

/-- An aborted group, and a call waiting in a live one. -/
example : (machine.run [.consume, .nextFrame 0, .abort, .write [1], .resume 0]).1.map (·.2) =
      [.handle 0, .pending, .ok, .threw, .rejected] ∧
    (let r := machine.run [.consume, .write [1], .nextFrame 0, .nextFrame 0]
     Waits r.1 0 ∧ (step r.2 (.resume 0)).1 = .invalid) := by
  constructor
  · decide +kernel
  · exact ⟨rfl, rfl⟩

end Verif.Props.JsGroup
