import Verif.Js.UnusedLemmas

/-!
# Property C97: the browser knows when a producer has no consumers
-/

set_option autoImplicit false

namespace Verif.Props.JsUnused

open Verif Verif.Js.Unused

/-- The call of `unused` has returned, one way or the other. -/
def Returned (s : State) (k : Nat) : Prop :=
  (step s (.poll k)).1 = .promise .resolved ∨ (step s (.poll k)).1 = .promise .rejected

theorem call_of {tr : Trace} {s : State} (h : machine.Reach tr s) {k : Nat} (hk : Called tr k) :
    ∃ g, s.calls[k]? = some g :=
  ⟨_, List.getElem?_eq_getElem (((base_reach h).calls k).mp hk)⟩

theorem poll_out {s : State} {k g : Nat} (hg : s.calls[k]? = some g) :
    (step s (.poll k)).1 = .promise (s.at? g) := by
  rw [step, hg]
  rfl

theorem returned_iff {s : State} {k g : Nat} (hg : s.calls[k]? = some g) :
    Returned s k ↔ s.at? g ≠ .pending := by
  unfold Returned
  rw [poll_out hg]
  cases s.at? g <;> simp

/-- **C97.**  With no consumer closed twice: a call of `unused` returns only if there was a moment since
the call at which no consumer was open, or the producer was closed or aborted.  (Missing: without that
assumption, see `c97_double`.) -/
theorem c97_sound_partial {tr : Trace} {s : State} (h : machine.Reach tr s) (ht : Tidy tr) (k : Nat)
    (hk : Called tr k) (hr : Returned s k) : Free tr k ∨ Ended tr := by
  obtain ⟨g, hg⟩ := call_of h hk
  exact (inv_reach h ht).sound k g hg ((returned_iff hg).mp hr)

/-- With no consumer closed twice: it does return once there was such a moment. -/
theorem c97_complete_partial {tr : Trace} {s : State} (h : machine.Reach tr s) (ht : Tidy tr) (k : Nat)
    (hk : Called tr k) (hx : Free tr k ∨ EndedSince tr k) : Returned s k := by
  obtain ⟨g, hg⟩ := call_of h hk
  exact (returned_iff hg).mpr ((inv_reach h ht).complete k g hg hx)

/-- What a call of `unused` returned with does not change. -/
theorem c97_stable {tr : Trace} {s : State} (h : machine.Reach tr s) (k : Nat) (hr : Returned s k)
    (op : Op) : (step (step s op).2 (.poll k)).1 = (step s (.poll k)).1 := by
  have b := base_reach h
  obtain ⟨g, hg⟩ : ∃ g, s.calls[k]? = some g := by
    cases hg : s.calls[k]? with
    | some g => exact ⟨g, rfl⟩
    | none => simp [Returned, step, hg] at hr
  have hne := (returned_iff hg).mp hr
  have hlt := b.gens k g hg
  have settled : ∀ to g', g' < s.promises.length → s.at? g' ≠ .pending →
      ((settle s.promises to)[g']?).getD .pending = s.at? g' := by
    intro to g' _ hne
    have := settle_at s b.pos to g'
    unfold State.at? at this
    dsimp only at this
    rw [this]
    have e : (s.promises[g']?).getD .pending = s.at? g' := rfl
    rw [e]
    cases hp : s.at? g' <;> simp_all [Promise.settle]
  have key : ∀ s' : State, s'.calls[k]? = some g → (s'.promises[g]?).getD .pending = s.at? g →
      (step s' (.poll k)).1 = (step s (.poll k)).1 := by
    intro s' h1 h2
    rw [poll_out hg, poll_out h1]
    exact congrArg _ h2
  cases op with
  | consume =>
    refine key _ hg ?_
    simp only [step]
    split
    · rw [List.getElem?_append_left hlt]
      rfl
    · rfl
  | closeHandle c =>
    rw [step]
    by_cases hc : c < s.handles.length
    · rw [if_pos hc]
      refine key _ hg ?_
      dsimp only
      split
      · exact settled _ g hlt hne
      · rfl
    · rw [if_neg hc]
  | close => exact key _ hg (settled _ g hlt hne)
  | abort => exact key _ hg (settled _ g hlt hne)
  | unused =>
    refine key _ ?_ rfl
    simp only [step]
    rw [List.getElem?_append_left (List.getElem?_eq_some_iff.mp hg).1]
    exact hg
  | poll j =>
    have : (step s (.poll j)).2 = s := by
      rw [step]
      cases s.calls[j]? <;> rfl
    rw [this]

/-- A call of `unused` throws only if the producer was aborted. -/
theorem c97_rejected {tr : Trace} {s : State} (h : machine.Reach tr s) (k : Nat)
    (hr : (step s (.poll k)).1 = .promise .rejected) : (.abort, .ok) ∈ tr := by
  have key : (.abort, .ok) ∈ tr ∨ ∀ p ∈ s.promises, p ≠ .rejected := by
    refine Machine.Reach.induct (M := machine)
      (P := fun tr s => (.abort, .ok) ∈ tr ∨ ∀ p ∈ s.promises, p ≠ .rejected) ?_ ?_ h
    · exact .inr (by simp [init])
    · intro tr s op _ ih
      rcases ih with ih | ih
      · exact .inl (List.mem_append_left _ ih)
      have hset : ∀ p ∈ settle s.promises .resolved, p ≠ .rejected := by
        intro p hp
        obtain ⟨g, hg⟩ := List.mem_iff_getElem?.mp hp
        unfold settle at hg
        rw [List.getElem?_modify] at hg
        cases hq : s.promises[g]? with
        | none => simp [hq] at hg
        | some q =>
          have hqm := ih q (List.mem_of_getElem? hq)
          rw [hq] at hg
          by_cases hl : s.promises.length - 1 = g
          · have e : q.settle .resolved = p := by simpa [hl] using hg
            subst e
            cases q <;> simp_all [Promise.settle]
          · have e : q = p := by simpa [hl] using hg
            subst e
            exact hqm
      cases op with
      | consume =>
        right
        simp only [machine, step]
        split
        · intro p hp
          rcases List.mem_append.mp hp with hp | hp
          · exact ih p hp
          · simp only [List.mem_singleton] at hp
            subst hp
            simp
        · exact ih
      | closeHandle c =>
        right
        simp only [machine, step]
        split
        · dsimp only
          split
          · exact hset
          · exact ih
        · exact ih
      | close => exact .inr hset
      | abort =>
        left
        exact List.mem_append_right _ (by simp [step])
      | unused => exact .inr ih
      | poll j =>
        right
        simp only [machine, step]
        split <;> exact ih
  refine key.resolve_right fun hall => ?_
  cases hg : s.calls[k]? with
  | none => simp [step, hg] at hr
  | some g =>
    rw [poll_out hg] at hr
    simp only [Out.promise.injEq] at hr
    unfold State.at? at hr
    cases hp : s.promises[g]? with
    | none => simp [hp] at hr
    | some p =>
      rw [hp] at hr
      exact hall p (List.mem_of_getElem? hp) hr

/-! ## Closing a consumer twice -/

theorem settle_last (s : State) (hpos : 0 < s.promises.length) (to : Promise) (hto : to ≠ .pending) :
    ((settle s.promises to)[s.promises.length - 1]?).getD .pending ≠ .pending := by
  have := settle_at s hpos to (s.promises.length - 1)
  unfold State.at? at this
  dsimp only at this
  rw [this, if_pos rfl]
  exact settle_ne _ _ hto

/-- When one consumer is left and another one is closed a second time, `unused` returns at once, though
a consumer is open. -/
theorem c97_double {tr : Trace} {s : State} (h : machine.Reach tr s) (ht : Tidy tr) (c d : Nat)
    (hc : (.closeHandle c, .ok) ∈ tr) (hd : Open tr d) (hone : ∀ e, Open tr e → e = d) :
    let s' := (step s (.closeHandle c)).2
    let s'' := (step s' .unused).2
    (step s (.closeHandle c)).1 = .ok ∧ (step s' .unused).1 = .call s.calls.length ∧
      Returned s'' s.calls.length ∧ Open (tr ++ [(.closeHandle c, .ok), (.unused, .call s.calls.length)]) d := by
  have b := base_reach h
  have i := inv_reach h ht
  have hcl := (b.shut c).mp hc
  have hlt : c < s.handles.length := (List.getElem?_eq_some_iff.mp hcl).1
  have hcd : c ≠ d := by
    rintro rfl
    exact hd.2 hc
  -- exactly one consumer is open
  have hopens : s.opens = 1 := by
    have hdlt : d < s.handles.length := (b.made d).mp hd.1
    have hdf : s.handles[d] = false := by
      cases hx : s.handles[d] with
      | false => rfl
      | true => exact absurd ((b.shut d).mpr (by rw [List.getElem?_eq_getElem hdlt, hx])) hd.2
    have hset : (s.handles.set d true).countP (· = false) = 0 := by
      rw [List.countP_eq_zero]
      intro x hx
      obtain ⟨e, he, rfl⟩ := List.mem_iff_getElem.mp hx
      rw [List.length_set] at he
      by_cases hed : e = d
      · subst hed
        simp
      · rw [List.getElem_set_ne (fun x => hed x.symm)]
        have : s.handles[e] = true := by
          cases hx : s.handles[e] with
          | true => rfl
          | false =>
            refine absurd (hone e ⟨(b.made e).mpr he, fun hm => ?_⟩) hed
            rw [b.shut, List.getElem?_eq_getElem he, hx] at hm
            cases hm
        simp [this]
    rw [List.countP_set hdlt, if_pos (by simp [hdf]), if_neg (by simp)] at hset
    have hp : 0 < s.handles.countP (· = false) :=
      List.countP_pos_iff.mpr ⟨s.handles[d], List.getElem_mem hdlt, by simp [hdf]⟩
    unfold State.opens
    omega
  have hz : s.consumers - 1 = 0 := by
    have := i.count
    omega
  intro s' s''
  have e1 : s' = { s with
      consumers := s.consumers - 1, promises := settle s.promises .resolved,
      handles := s.handles.set c true } := by
    show (step s (.closeHandle c)).2 = _
    rw [step, if_pos hlt]
    dsimp only
    rw [if_pos hz]
  refine ⟨by rw [step, if_pos hlt], by rw [e1]; rfl, ?_, ?_, ?_⟩
  · have hg : s''.calls[s.calls.length]? = some (s.promises.length - 1) := by
      show (step s' .unused).2.calls[s.calls.length]? = _
      rw [e1]
      simp [step, settle_length]
    rw [returned_iff hg]
    have : s''.promises = settle s.promises .resolved := by
      show (step s' .unused).2.promises = _
      rw [e1]
      rfl
    unfold State.at?
    rw [this]
    exact settle_last s b.pos _ (by simp)
  · exact List.mem_append_left _ hd.1
  · simp only [List.mem_append, List.mem_cons, Prod.mk.injEq, Op.closeHandle.injEq, and_true,
      reduceCtorEq, false_and, List.not_mem_nil, or_false, not_or]
    exact ⟨hd.2, fun e => hcd e.symm⟩

/-- When no consumer is left and one is closed a second time, the next consumer is not counted:
`unused` returns at once, though that consumer is open. -/
theorem c97_negative {tr : Trace} {s : State} (h : machine.Reach tr s) (ht : Tidy tr) (c : Nat)
    (hc : (.closeHandle c, .ok) ∈ tr) (hnone : ∀ e, ¬ Open tr e) :
    let s1 := (step s (.closeHandle c)).2
    let s2 := (step s1 .consume).2
    let s3 := (step s2 .unused).2
    Returned s3 s.calls.length ∧
      Open (tr ++ [(.closeHandle c, (step s (.closeHandle c)).1), (.consume, (step s1 .consume).1),
        (.unused, (step s2 .unused).1)]) s.handles.length := by
  have b := base_reach h
  have i := inv_reach h ht
  have hlt : c < s.handles.length := (List.getElem?_eq_some_iff.mp ((b.shut c).mp hc)).1
  have hopens := (opens_zero b).mpr hnone
  have hz : s.consumers = 0 := by
    have := i.count
    omega
  intro s1 s2 s3
  have e1 : s1 = { s with consumers := -1, handles := s.handles.set c true } := by
    show (step s (.closeHandle c)).2 = _
    rw [step, if_pos hlt]
    simp [hz]
  have hs2 : s2.promises = s.promises ∧ s2.calls = s.calls := by
    show (step s1 .consume).2.promises = _ ∧ (step s1 .consume).2.calls = _
    rw [e1]
    exact ⟨rfl, rfl⟩
  have hout : (step s1 .consume).1 = .handle s.handles.length := by
    rw [e1]
    simp [step]
  refine ⟨?_, ?_, ?_⟩
  · have hg : s3.calls[s.calls.length]? = some (s.promises.length - 1) := by
      show (step s2 .unused).2.calls[s.calls.length]? = _
      simp [step, hs2.1, hs2.2]
    rw [returned_iff hg]
    have e : s3.at? (s.promises.length - 1) = s.at? (s.promises.length - 1) := by
      show (step s2 .unused).2.at? _ = _
      simp [step, State.at?, hs2.1]
    rw [e]
    exact i.zero hopens
  · rw [hout]
    simp
  · rw [hout]
    simp only [List.mem_append, List.mem_cons, Prod.mk.injEq, Op.closeHandle.injEq, reduceCtorEq,
      false_and, List.not_mem_nil, or_false, not_or, not_and]
    refine ⟨fun hm => ?_, fun e => ?_⟩
    · rw [b.shut, List.getElem?_eq_none (Nat.le_refl _)] at hm
      cases hm
    · omega

/-! ## Cases -/

/-- A call that waits for two consumers, one that waits for a third, and one that returns at once. -/
example : (machine.run [.unused, .poll 0, .consume, .consume, .unused, .poll 1, .closeHandle 1,
      .poll 1, .closeHandle 0, .consume, .poll 1, .unused, .poll 2, .abort, .poll 2]).1.map (·.2) =
    [.call 0, .promise .resolved, .handle 0, .handle 1, .call 1, .promise .pending, .ok,
      .promise .pending, .ok, .handle 2, .promise .resolved, .call 2, .promise .pending, .ok,
      .promise .rejected] := by decide +kernel

/-- It is tidy. -/
example : Tidy (machine.run [.consume, .consume, .unused, .closeHandle 1, .closeHandle 0]).1 := by
  intro c
  rcases Nat.lt_or_ge c 2 with hc | hc
  · have : ∀ c < 2, (machine.run [.consume, .consume, .unused, .closeHandle 1, .closeHandle 0]).1.count
        (.closeHandle c, .ok) ≤ 1 := by decide +kernel
    exact this c hc
  · have e : (machine.run [.consume, .consume, .unused, .closeHandle 1, .closeHandle 0]).1 =
        [(.consume, .handle 0), (.consume, .handle 1), (.unused, .call 0), (.closeHandle 1, .ok),
          (.closeHandle 0, .ok)] := by decide +kernel
    rw [e]
    have h0 : ¬ (0 = c) := by omega
    have h1 : ¬ (1 = c) := by omega
    simp [h0, h1]

/-- The two cases of `c97_double` and `c97_negative`. -/
theorem c97_witness :
    (machine.run [.consume, .consume, .closeHandle 0, .closeHandle 0, .unused, .poll 0]).1.map (·.2) =
      [.handle 0, .handle 1, .ok, .ok, .call 0, .promise .resolved] ∧
    (machine.run [.consume, .closeHandle 0, .closeHandle 0, .consume, .unused, .poll 0]).1.map (·.2) =
      [.handle 0, .ok, .ok, .handle 1, .call 0, .promise .resolved] := by
  constructor <;> decide +kernel

end Verif.Props.JsUnused
