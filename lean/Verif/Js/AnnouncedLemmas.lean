import Verif.Js.Announced

/-!
# Invariant of the queue of announcements in the browser
-/

set_option autoImplicit false

namespace Verif.Js.Announced

open Verif
open Verif.Js.Group (Status Settled Call wait)

theorem written_snoc (tr : Trace) (op : Op) (o : Out) : written (tr ++ [(op, o)]) =
    written tr ++ (match op, o with | .write b, .ok => [b] | _, _ => []) := by
  unfold written
  rw [List.filterMap_append]
  congr 1
  cases op <;> cases o <;> rfl

theorem answers_snoc (tr : Trace) (e : Op × Out) (c : Nat) :
    answers (tr ++ [e]) c = answers tr c ++ (answer c e).toList := by
  unfold answers
  rw [List.filterMap_append]
  cases h : answer c e <;> simp [h]

theorem ending_snoc (tr : Trace) (op : Op) (o : Out) : ending (tr ++ [(op, o)]) =
    (ending tr).or (if op = .close ∨ op = .abort then some op else none) := by
  unfold ending
  rw [List.map_append, List.find?_append]
  congr 1
  by_cases h : op = .close ∨ op = .abort <;> simp [h]

theorem prefixes_snoc (tr : Trace) (op : Op) (o : Out) : prefixes (tr ++ [(op, o)]) =
    (match op, o with
      | .consume pre, .handle _ => prefixes tr ++ [pre]
      | .clone c, .handle _ => prefixes tr ++ [(prefixes tr)[c]?.getD []]
      | _, _ => prefixes tr) := by
  unfold prefixes
  rw [List.foldl_append, List.foldl_cons, List.foldl_nil]
  cases op <;> cases o <;> rfl

theorem closed_snoc (tr : Trace) (op : Op) (o : Out) (c : Nat) : Closed (tr ++ [(op, o)]) c ↔
    Closed tr c ∨ ∃ x, op = .closeHandle c x ∧ o = .ok := by
  unfold Closed
  constructor
  · rintro ⟨x, hx⟩
    rcases List.mem_append.mp hx with hx | hx
    · exact .inl ⟨x, hx⟩
    · simp only [List.mem_singleton, Prod.mk.injEq] at hx
      exact .inr ⟨x, hx.1.symm, hx.2.symm⟩
  · rintro (⟨x, hx⟩ | ⟨x, rfl, rfl⟩)
    · exact ⟨x, List.mem_append_left _ hx⟩
    · exact ⟨x, by simp⟩

/-! ## Prefixes -/

theorem suffixOf_eq (pre path : Str) :
    suffixOf pre path = if pre.isPrefixOf path then some (path.drop pre.length) else none := by
  induction pre generalizing path with
  | nil => simp [suffixOf]
  | cons x pre ih =>
    cases path with
    | nil => simp [suffixOf]
    | cons y path =>
      rw [suffixOf, ih]
      by_cases hxy : x = y <;> simp [hxy]

theorem suffixOf_iff (pre path rest : Str) : suffixOf pre path = some rest ↔ path = pre ++ rest := by
  rw [suffixOf_eq]
  by_cases h : pre.isPrefixOf path
  · rw [if_pos h]
    obtain ⟨t, rfl⟩ := List.isPrefixOf_iff_prefix.mp h
    simp
  · rw [if_neg h]
    simp only [reduceCtorEq, false_iff]
    rintro rfl
    exact h (List.isPrefixOf_iff_prefix.mpr (List.prefix_append _ _))

theorem strip_eq (pre : Str) (a : Announce) : strip pre a = told pre a := by
  unfold strip told
  rw [suffixOf_eq]
  by_cases h : pre.isPrefixOf a.path <;> simp [h]

theorem due_append (pre : Str) (as bs : List Announce) : due pre (as ++ bs) = due pre as ++ due pre bs :=
  List.filterMap_append ..

/-- What the inner loop finds. -/
theorem scan_eq (pre : Str) (i : Nat) (as : List Announce) :
    (∃ k b, scan pre i as = (some b, i + k + 1) ∧ k < as.length ∧
      due pre (as.take (k + 1)) = [b]) ∨
    (scan pre i as = (none, i + as.length) ∧ due pre as = []) := by
  induction as generalizing i with
  | nil => exact .inr ⟨rfl, rfl⟩
  | cons a as ih =>
    unfold scan
    rw [strip_eq]
    cases ha : told pre a with
    | some b => exact .inl ⟨0, b, by simp, by simp, by simp [due, ha]⟩
    | none =>
      rcases ih (i + 1) with ⟨k, b, h1, h2, h3⟩ | ⟨h1, h2⟩
      · refine .inl ⟨k + 1, b, ?_, by simp; omega, ?_⟩
        · dsimp only
          rw [h1]
          congr 1
          omega
        · rw [List.take_succ_cons]
          unfold due at h3 ⊢
          rw [List.filterMap_cons_none ha]
          exact h3
      · refine .inr ⟨?_, ?_⟩
        · dsimp only
          rw [h1, List.length_cons]
          congr 1
          omega
        · unfold due at h2 ⊢
          rw [List.filterMap_cons_none ha]
          exact h2

/-! ## The invariant -/

/-- How a status is told from the history. -/
def statusOp : Status → Option Op
  | .live => none
  | .closed => some .close
  | .aborted => some .abort

/-- What a pending call stands for. -/
def CallOk (queue : List Announce) (status : Status) (h : Handle) : Prop :=
  match h.call with
  | .idle => True
  | .waiting => h.index = queue.length ∧ status = .live ∧ h.closed = false
  | .ready (.value _) => h.index < queue.length
  | .ready .undefined => h.closed = true ∨ (status = .closed ∧ h.index = queue.length)
  | .ready .rejected => status = .aborted ∧ h.index = queue.length

/-- What holds of a consumer that was given the answers `ans`. -/
structure HInv (queue : List Announce) (status : Status) (ans : List Out) (cl : Prop) (h : Handle) :
    Prop where
  index : h.index ≤ queue.length
  got : ans.filterMap Out.announce? = due h.pre (queue.take h.index)
  closed : h.closed = true ↔ cl
  call : CallOk queue status h
  waits : ans.getLast? = some .pending ↔ h.call ≠ .idle

structure Inv (tr : Trace) (s : State) : Prop where
  queue : s.queue = written tr
  status : ending tr = statusOp s.status
  pres : prefixes tr = s.handles.map (·.pre)
  handle : ∀ c h, s.handles[c]? = some h →
    HInv s.queue s.status (answers tr c) (Closed tr c) h
  fresh : ∀ c, s.handles.length ≤ c → answers tr c = [] ∧ ¬ Closed tr c

theorem inv_init : Inv [] init :=
  ⟨rfl, rfl, rfl, fun c h hc => by simp [init] at hc,
    fun c _ => ⟨rfl, by rintro ⟨x, hx⟩; cases hx⟩⟩

/-! ## One consumer -/

theorem take_add {α : Type} (l : List α) (i k : Nat) :
    l.take (i + k) = l.take i ++ (l.drop i).take k := by
  rw [List.take_add]

/-- What `look` does. -/
theorem look_cases (s : State) (h : Handle) (hi : h.index ≤ s.queue.length) :
    (∃ b i, look s h = (.announce b, { h with index := i, call := .idle }) ∧ i ≤ s.queue.length ∧
      due h.pre (s.queue.take i) = due h.pre (s.queue.take h.index) ++ [b]) ∨
    (due h.pre s.queue = due h.pre (s.queue.take h.index) ∧
      look s h = if h.closed then (.undefined, { h with index := s.queue.length, call := .idle })
        else (.pending, { h with index := s.queue.length, call := wait s.status h.closed })) := by
  unfold look
  rcases scan_eq h.pre h.index (s.queue.drop h.index) with ⟨k, b, h1, h2, h3⟩ | ⟨h1, h2⟩
  · refine .inl ⟨b, h.index + k + 1, by rw [h1], ?_, ?_⟩
    · rw [List.length_drop] at h2
      omega
    · rw [Nat.add_assoc, take_add, due_append, h3]
  · refine .inr ⟨?_, ?_⟩
    · conv => lhs; rw [← List.take_append_drop h.index s.queue, due_append, h2, List.append_nil]
    · rw [h1, List.length_drop]
      have e : h.index + (s.queue.length - h.index) = s.queue.length := by omega
      rw [e]

theorem look_inv {s : State} {ans : List Out} {cl : Prop} {h : Handle}
    (i : HInv s.queue s.status ans cl h) :
    HInv s.queue s.status (ans ++ [(look s h).1]) cl (look s h).2 ∧ (look s h).1 ≠ .invalid := by
  rcases look_cases s h i.index with ⟨b, k, h1, h2, h3⟩ | ⟨h1, h2⟩
  · rw [h1]
    refine ⟨⟨h2, ?_, i.closed, trivial, by simp⟩, by simp⟩
    rw [List.filterMap_append, i.got]
    exact h3.symm
  · rw [h2]
    have hg : ∀ o : Out, o.announce? = none →
        (ans ++ [o]).filterMap Out.announce? = due h.pre (s.queue.take s.queue.length) := by
      intro o ho
      rw [List.filterMap_append, i.got, List.take_length, h1]
      simp [ho]
    by_cases hc : h.closed = true
    · rw [if_pos hc]
      exact ⟨⟨Nat.le_refl _, hg _ rfl, i.closed, trivial, by simp⟩, by simp⟩
    · rw [if_neg hc]
      have hc' : h.closed = false := by simpa using hc
      refine ⟨⟨Nat.le_refl _, hg _ rfl, i.closed, ?_, ?_⟩, by simp⟩
      · unfold CallOk wait
        rw [hc']
        cases s.status
        · exact ⟨rfl, rfl, rfl⟩
        · exact .inr ⟨rfl, rfl⟩
        · exact ⟨rfl, rfl⟩
      · dsimp only
        cases s.status <;> simp [wait, hc']

/-- A consumer step that gave the answer `o`. -/
def Answered (queue : List Announce) (status : Status) (ans : List Out) (cl : Prop)
    (r : Out × Handle) : Prop :=
  HInv queue status (ans ++ if r.1 = .invalid then [] else [r.1]) cl r.2

theorem next_inv {s : State} {ans : List Out} {cl : Prop} {h : Handle}
    (i : HInv s.queue s.status ans cl h) :
    Answered s.queue s.status ans cl (if h.call = .idle then next s h else (.invalid, h)) := by
  unfold Answered
  by_cases hi : h.call = .idle
  · rw [if_pos hi]
    unfold next
    by_cases hc : h.closed = true
    · rw [if_pos hc]
      refine ⟨i.index, ?_, i.closed, i.call, ?_⟩
      · simp [List.filterMap_append, i.got, Out.announce?]
      · simp [hi]
    · rw [if_neg hc]
      have := look_inv i
      rw [if_neg this.2]
      exact this.1
  · rw [if_neg hi]
    simpa using i

theorem resume_inv {s : State} {ans : List Out} {cl : Prop} {h : Handle}
    (i : HInv s.queue s.status ans cl h) : Answered s.queue s.status ans cl (resume s h) := by
  unfold Answered
  unfold resume
  rcases hcall : h.call with _ | _ | ⟨fs | _ | _⟩
  · simpa using i
  · simpa using i
  · dsimp only
    have hl := look_inv i
    rw [if_neg hl.2]
    exact hl.1
  · refine ⟨i.index, ?_, i.closed, trivial, ?_⟩
    · simp [List.filterMap_append, i.got, Out.announce?]
    · simp
  · refine ⟨i.index, ?_, i.closed, trivial, ?_⟩
    · simp [List.filterMap_append, i.got, Out.announce?]
    · simp

theorem next_pre (s : State) (h : Handle) : (next s h).2.pre = h.pre := by
  unfold next look
  split
  · rfl
  · split <;> rfl

theorem resume_pre (s : State) (h : Handle) : (resume s h).2.pre = h.pre := by
  unfold resume look
  split
  · split
    · rfl
    · split <;> rfl
  all_goals rfl

theorem cancel_inv {queue : List Announce} {status : Status} {ans : List Out} {cl : Prop} {h : Handle}
    (i : HInv queue status ans cl h) (x : Bool) :
    HInv queue status ans True { h with closed := true, call := h.call.cancel x } := by
  refine ⟨i.index, i.got, by simp, ?_, ?_⟩
  · have hc := i.call
    unfold CallOk at hc ⊢
    rcases hcall : h.call with _ | _ | ⟨fs | _ | _⟩ <;> rw [hcall] at hc <;> cases x <;>
      simp_all [Call.cancel]
  · rw [i.waits]
    rcases hcall : h.call with _ | _ | ⟨fs | _ | _⟩ <;> simp [Call.cancel]

/-! ## The queue -/

theorem settle_write {queue : List Announce} {ans : List Out} {cl : Prop} {h : Handle} (a : Announce)
    (i : HInv queue .live ans cl h) :
    HInv (queue ++ [a]) .live ans cl { h with call := h.call.settle (.value ()) } := by
  have hi := i.index
  refine ⟨by simp; omega, ?_, i.closed, ?_, ?_⟩
  · rw [i.got]
    dsimp only
    rw [List.take_append_of_le_length hi]
  · have hc := i.call
    unfold CallOk at hc ⊢
    rcases hcall : h.call with _ | _ | ⟨fs | _ | _⟩ <;> rw [hcall] at hc <;>
      simp_all [Call.settle]
    omega
  · rw [i.waits]
    rcases hcall : h.call with _ | _ | ⟨fs | _ | _⟩ <;> simp [Call.settle]

theorem settle_end {queue : List Announce} {ans : List Out} {cl : Prop} {h : Handle}
    (i : HInv queue .live ans cl h) (st : Status) (x : Settled Unit)
    (hx : (st = .closed ∧ x = .undefined) ∨ (st = .aborted ∧ x = .rejected)) :
    HInv queue st ans cl { h with call := h.call.settle x } := by
  refine ⟨i.index, i.got, i.closed, ?_, ?_⟩
  · have hc := i.call
    unfold CallOk at hc ⊢
    rcases hx with ⟨rfl, rfl⟩ | ⟨rfl, rfl⟩ <;>
    rcases hcall : h.call with _ | _ | ⟨fs | _ | _⟩ <;> rw [hcall] at hc <;>
      simp_all [Call.settle]
  · rw [i.waits]
    rcases hcall : h.call with _ | _ | ⟨fs | _ | _⟩ <;> simp [Call.settle]

/-- A step of the producer answers no consumer. -/
theorem producer_snoc (tr : Trace) (op : Op) (o : Out) (c : Nat)
    (hop : (∃ b, op = .write b) ∨ op = .close ∨ op = .abort ∨ (∃ p, op = .consume p) ∨
      ∃ d, op = .clone d) :
    answers (tr ++ [(op, o)]) c = answers tr c ∧ (Closed (tr ++ [(op, o)]) c ↔ Closed tr c) := by
  rw [answers_snoc, closed_snoc]
  rcases hop with ⟨b, rfl⟩ | rfl | rfl | ⟨p, rfl⟩ | ⟨d, rfl⟩ <;> simp [answer]

theorem settleAll_pre (hs : List Handle) (x : Settled Unit) :
    (settleAll hs x).map (·.pre) = hs.map (·.pre) := by
  unfold settleAll
  rw [List.map_map]
  rfl

theorem settleAll_get {hs : List Handle} {x : Settled Unit} {c : Nat} {h : Handle}
    (hc : (settleAll hs x)[c]? = some h) :
    ∃ h', hs[c]? = some h' ∧ h = { h' with call := h'.call.settle x } := by
  unfold settleAll at hc
  rw [List.getElem?_map] at hc
  cases hh : hs[c]? with
  | none => simp [hh] at hc
  | some h' =>
    rw [hh] at hc
    exact ⟨h', rfl, by simpa using hc.symm⟩

/-- A step on the consumer `c`. -/
theorem onHandle_inv {tr : Trace} {s : State} (i : Inv tr s) (op : Op) (c : Nat)
    (f : Handle → Out × Handle)
    (hop : op = .next c ∨ op = .resume c ∨ ∃ x, op = .closeHandle c x)
    (hpre : ∀ h, (f h).2.pre = h.pre)
    (hf : ∀ h, s.handles[c]? = some h → HInv s.queue s.status
      (answers (tr ++ [(op, (f h).1)]) c) (Closed (tr ++ [(op, (f h).1)]) c) (f h).2) :
    Inv (tr ++ [(op, (onHandle s c f).1)]) (onHandle s c f).2 := by
  have hother : ∀ (o : Out) (d : Nat), d ≠ c → answers (tr ++ [(op, o)]) d = answers tr d ∧
      (Closed (tr ++ [(op, o)]) d ↔ Closed tr d) := by
    intro o d hd
    rw [answers_snoc, closed_snoc]
    have hd' : c ≠ d := fun e => hd e.symm
    rcases hop with rfl | rfl | ⟨x, rfl⟩ <;> simp [answer, hd']
  have hw : ∀ o, written (tr ++ [(op, o)]) = written tr := by
    intro o
    rw [written_snoc]
    rcases hop with rfl | rfl | ⟨x, rfl⟩ <;> simp
  have he : ∀ o, ending (tr ++ [(op, o)]) = ending tr := by
    intro o
    rw [ending_snoc]
    rcases hop with rfl | rfl | ⟨x, rfl⟩ <;> simp
  have hp : ∀ o, prefixes (tr ++ [(op, o)]) = prefixes tr := by
    intro o
    rw [prefixes_snoc]
    rcases hop with rfl | rfl | ⟨x, rfl⟩ <;> simp
  unfold onHandle
  cases hc : s.handles[c]? with
  | none =>
    have hsame : ∀ d, answers (tr ++ [(op, .invalid)]) d = answers tr d ∧
        (Closed (tr ++ [(op, .invalid)]) d ↔ Closed tr d) := by
      intro d
      rw [answers_snoc, closed_snoc]
      rcases hop with rfl | rfl | ⟨x, rfl⟩ <;> simp [answer]
    refine ⟨by rw [hw]; exact i.queue, by rw [he]; exact i.status, by rw [hp]; exact i.pres, ?_, ?_⟩
    · intro d h hd
      rw [(hsame d).1]
      have := i.handle d h hd
      exact ⟨this.index, this.got, this.closed.trans (hsame d).2.symm, this.call, this.waits⟩
    · intro d hd
      rw [(hsame d).1, (hsame d).2]
      exact i.fresh d hd
  | some h =>
    have hlt : c < s.handles.length := (List.getElem?_eq_some_iff.mp hc).1
    refine ⟨by rw [hw]; exact i.queue, by rw [he]; exact i.status, ?_, ?_, ?_⟩
    · rw [hp, i.pres]
      dsimp only
      rw [List.map_set, hpre]
      apply List.ext_getElem?
      intro d
      by_cases hd : d = c
      · subst hd
        rw [List.getElem?_set_self (by simpa using hlt), List.getElem?_map, hc]
        rfl
      · rw [List.getElem?_set_ne (fun e => hd e.symm)]
    · intro d h' hd
      dsimp only at hd ⊢
      by_cases hdc : d = c
      · subst hdc
        rw [List.getElem?_set_self hlt] at hd
        cases hd
        exact hf h hc
      · rw [List.getElem?_set_ne (fun e => hdc e.symm)] at hd
        obtain ⟨h1, h2⟩ := hother (f h).1 d hdc
        have := i.handle d h' hd
        rw [h1]
        exact ⟨this.index, this.got, this.closed.trans h2.symm, this.call, this.waits⟩
    · intro d hd
      dsimp only at hd ⊢
      rw [List.length_set] at hd
      obtain ⟨h1, h2⟩ := hother (f h).1 d (by omega)
      rw [h1, h2]
      exact i.fresh d hd

/-- A new consumer. -/
theorem add_inv {tr : Trace} {s : State} (i : Inv tr s) (pre : Str) (c : Nat) (h : Handle)
    (hc : (s.handles ++ [⟨pre, 0, false, .idle⟩])[c]? = some h) :
    HInv s.queue s.status (answers tr c) (Closed tr c) h := by
  rcases Nat.lt_trichotomy c s.handles.length with hlt | rfl | hgt
  · rw [List.getElem?_append_left hlt] at hc
    exact i.handle c h hc
  · obtain ⟨f1, f2⟩ := i.fresh s.handles.length (Nat.le_refl _)
    simp only [List.getElem?_concat_length, Option.some.injEq] at hc
    subst hc
    rw [f1]
    exact ⟨Nat.zero_le _, by simp [due], by simpa using f2, trivial, by simp⟩
  · rw [List.getElem?_eq_none (by simp; omega)] at hc
    cases hc

theorem step_inv {tr : Trace} {s : State} (i : Inv tr s) (op : Op) :
    Inv (tr ++ [(op, (step s op).1)]) (step s op).2 := by
  have hprod : ∀ (op : Op) (o : Out) (s' : State),
      ((∃ b, op = .write b) ∨ op = .close ∨ op = .abort ∨ (∃ p, op = .consume p) ∨
        ∃ d, op = .clone d) →
      s'.queue = written (tr ++ [(op, o)]) → ending (tr ++ [(op, o)]) = statusOp s'.status →
      prefixes (tr ++ [(op, o)]) = s'.handles.map (·.pre) →
      (∀ c h, s'.handles[c]? = some h → HInv s'.queue s'.status (answers tr c) (Closed tr c) h) →
      s.handles.length ≤ s'.handles.length → Inv (tr ++ [(op, o)]) s' := by
    intro op o s' hop h1 h2 hp h3 h4
    refine ⟨h1, h2, hp, fun c h hc => ?_, fun c hc => ?_⟩
    · obtain ⟨e1, e2⟩ := producer_snoc tr op o c hop
      have := h3 c h hc
      rw [e1]
      exact ⟨this.index, this.got, this.closed.trans e2.symm, this.call, this.waits⟩
    · obtain ⟨e1, e2⟩ := producer_snoc tr op o c hop
      rw [e1, e2]
      exact i.fresh c (by omega)
  have hst := i.status
  cases op with
  | write b =>
    rw [step]
    by_cases hl : s.status = .live
    · rw [if_pos hl]
      refine hprod _ _ _ (.inl ⟨b, rfl⟩) ?_ ?_ ?_ ?_ (by simp [settleAll])
      · rw [written_snoc, i.queue]
      · rw [ending_snoc, hst]
        cases s.status <;> simp [statusOp]
      · rw [settleAll_pre, prefixes_snoc]
        exact i.pres
      · intro c h hc
        obtain ⟨h', hc', rfl⟩ := settleAll_get hc
        have := i.handle c h' hc'
        dsimp only
        rw [hl] at this ⊢
        exact settle_write b this
    · rw [if_neg hl]
      refine hprod _ _ _ (.inl ⟨b, rfl⟩) ?_ ?_ ?_ i.handle (Nat.le_refl _)
      · rw [written_snoc, i.queue]
        simp
      · rw [ending_snoc, hst]
        cases s.status <;> simp [statusOp]
      · rw [prefixes_snoc]
        exact i.pres
  | close =>
    rw [step]
    by_cases hl : s.status = .live
    · rw [if_pos hl]
      refine hprod _ _ _ (.inr (.inl rfl)) ?_ ?_ ?_ ?_ (by simp [settleAll])
      · rw [written_snoc, i.queue]
        simp
      · rw [ending_snoc, hst, hl]
        simp [statusOp]
      · rw [settleAll_pre, prefixes_snoc]
        exact i.pres
      · intro c h hc
        obtain ⟨h', hc', rfl⟩ := settleAll_get hc
        have := i.handle c h' hc'
        rw [hl] at this
        exact settle_end this _ _ (.inl ⟨rfl, rfl⟩)
    · rw [if_neg hl]
      refine hprod _ _ _ (.inr (.inl rfl)) ?_ ?_ ?_ i.handle (Nat.le_refl _)
      · rw [written_snoc, i.queue]
        simp
      · rw [ending_snoc, hst]
        cases hs : s.status <;> simp_all [statusOp]
      · rw [prefixes_snoc]
        exact i.pres
  | abort =>
    rw [step]
    by_cases hl : s.status = .live
    · rw [if_pos hl]
      refine hprod _ _ _ (.inr (.inr (.inl rfl))) ?_ ?_ ?_ ?_ (by simp [settleAll])
      · rw [written_snoc, i.queue]
        simp
      · rw [ending_snoc, hst, hl]
        simp [statusOp]
      · rw [settleAll_pre, prefixes_snoc]
        exact i.pres
      · intro c h hc
        obtain ⟨h', hc', rfl⟩ := settleAll_get hc
        have := i.handle c h' hc'
        rw [hl] at this
        exact settle_end this _ _ (.inr ⟨rfl, rfl⟩)
    · rw [if_neg hl]
      refine hprod _ _ _ (.inr (.inr (.inl rfl))) ?_ ?_ ?_ i.handle (Nat.le_refl _)
      · rw [written_snoc, i.queue]
        simp
      · rw [ending_snoc, hst]
        cases hs : s.status <;> simp_all [statusOp]
      · rw [prefixes_snoc]
        exact i.pres
  | consume p =>
    rw [step]
    refine hprod _ _ _ (.inr (.inr (.inr (.inl ⟨p, rfl⟩)))) ?_ ?_ ?_ (add_inv i p) (by simp)
    · rw [written_snoc, i.queue]
      simp
    · rw [ending_snoc, hst]
      cases s.status <;> simp [statusOp]
    · rw [prefixes_snoc, i.pres]
      simp
  | clone d =>
    rw [step]
    cases hd : s.handles[d]? with
    | none =>
      dsimp only
      refine hprod _ _ _ (.inr (.inr (.inr (.inr ⟨d, rfl⟩)))) ?_ ?_ ?_ i.handle (Nat.le_refl _)
      · rw [written_snoc, i.queue]
        simp
      · rw [ending_snoc, hst]
        cases s.status <;> simp [statusOp]
      · rw [prefixes_snoc]
        exact i.pres
    | some h =>
      dsimp only
      refine hprod _ _ _ (.inr (.inr (.inr (.inr ⟨d, rfl⟩)))) ?_ ?_ ?_ (add_inv i h.pre) (by simp)
      · rw [written_snoc, i.queue]
        simp
      · rw [ending_snoc, hst]
        cases s.status <;> simp [statusOp]
      · rw [prefixes_snoc, i.pres]
        simp [hd]
  | next c =>
    rw [step]
    refine onHandle_inv i _ c _ (.inl rfl) (fun h => ?_) fun h hc => ?_
    · split
      · exact next_pre s h
      · rfl
    have := next_inv (i.handle c h hc)
    unfold Answered at this
    rw [answers_snoc]
    refine ⟨this.index, ?_, ?_, this.call, ?_⟩
    · rw [← this.got]
      congr 2
      simp only [answer, true_and]
      split <;> split <;> simp_all
    · rw [this.closed, closed_snoc]
      simp
    · rw [← this.waits]
      simp only [answer, true_and]
      split <;> split <;> simp_all
  | resume c =>
    rw [step]
    refine onHandle_inv i _ c _ (.inr (.inl rfl)) (resume_pre s) fun h hc => ?_
    have := resume_inv (i.handle c h hc)
    unfold Answered at this
    have e : (answer c (Op.resume c, (resume s h).1)).toList =
        if (resume s h).1 = .invalid then [] else [(resume s h).1] := by
      simp only [answer, true_and]
      by_cases hi : (resume s h).1 = .invalid <;> simp [hi]
    rw [answers_snoc, e]
    exact ⟨this.index, this.got, by rw [this.closed, closed_snoc]; simp, this.call, this.waits⟩
  | closeHandle c x =>
    rw [step]
    refine onHandle_inv i _ c _ (.inr (.inr ⟨x, rfl⟩)) (fun _ => rfl) fun h hc => ?_
    have := cancel_inv (i.handle c h hc) x
    rw [answers_snoc]
    refine ⟨this.index, by simpa [answer] using this.got, ?_, this.call, by
      simpa [answer] using this.waits⟩
    rw [closed_snoc]
    simp

theorem inv_reach {tr : Trace} {s : State} (h : machine.Reach tr s) : Inv tr s :=
  Machine.Reach.induct (M := machine) (P := fun tr s => Inv tr s) inv_init
    (fun _ _ op _ i => step_inv i op) h

end Verif.Js.Announced
