import Verif.Js.PlaybackLemmas

/-! # Property C102: the frames of a player -/

set_option autoImplicit false

namespace Verif.Props.JsPlayback

open Verif Verif.Js.Playback

variable {tr : Trace} {s : State}

theorem held_le (s : State) : (held s).length ≤ 2 := by
  unfold held
  cases s.current <;> cases s.next <;> simp

theorem shut_eq (i : Inv tr s) : shut tr = List.range ((outputs tr).length - (held s).length) ∧
    (held s).length ≤ (outputs tr).length ∧
    (held s).map (·.id) = List.range' ((outputs tr).length - (held s).length) (held s).length := by
  have h := i.all
  have hl := congrArg List.length h
  rw [List.length_append, List.length_map, List.length_range, ← i.count] at hl
  have h1 := congrArg (List.take (shut tr).length) h
  have h2 := congrArg (List.drop (shut tr).length) h
  rw [List.take_left, List.take_range, ← i.count] at h1
  rw [List.drop_left, List.range_eq_range', List.drop_range', ← i.count] at h2
  have e : (shut tr).length = (outputs tr).length - (held s).length := by omega
  refine ⟨?_, by omega, ?_⟩
  · rw [h1, e]
    congr 1
    omega
  · rw [h2, e]
    congr 1
    · omega
    · omega

/-- **C102.**  Every frame is closed at most once, in the order of output, and all but the last two are. -/
theorem c102_owned (h : machine.Reach tr s) : ∃ k, k ≤ 2 ∧ k ≤ (outputs tr).length ∧
    shut tr = List.range ((outputs tr).length - k) :=
  ⟨_, held_le s, (shut_eq (inv_reach h)).2.1, (shut_eq (inv_reach h)).1⟩

theorem look_current {now : Int} {ids : List Nat} {f : Frame} {lag : Int}
    (ho : (step s (.frame now)).1 = .shown ids f lag) : (step s (.frame now)).2.current = some f := by
  have k := frame_look s now
  rw [show step s (.frame now) = frame s now from rfl] at ho ⊢
  rw [ho] at k
  generalize (frame s now).2 = s' at k
  cases k with
  | keep c h hn => exact h
  | skip c n h hn hl => rfl

theorem shown_id (h : machine.Reach tr s) {now : Int} {ids : List Nat} {f : Frame} {lag : Int}
    (ho : (step s (.frame now)).1 = .shown ids f lag) :
    f.id = (shut (tr ++ [(.frame now, (step s (.frame now)).1)])).length ∧
    (outputs tr)[f.id]? = some f.timestamp ∧ (outputs tr).length ≤ f.id + 2 := by
  have hc := look_current ho
  have i' := inv_reach (Machine.Reach.step (M := machine) (.frame now) h)
  have hh := held_some hc
  obtain ⟨h1, h2, h3⟩ := shut_eq i'
  have ht := i'.time f (by rw [hh]; exact List.mem_cons_self)
  have hout : outputs (tr ++ [(.frame now, (machine.step s (.frame now)).1)]) = outputs tr := by
    rw [outputs_snoc]; simp
  rw [hout] at h1 h2 h3 ht
  have hle := held_le (machine.step s (.frame now)).2
  change (held (step s (.frame now)).2).length ≤ 2 at hle
  change shut (tr ++ [(.frame now, (step s (.frame now)).1)]) = _ at h1
  change (held (step s (.frame now)).2).length ≤ _ at h2
  change (held (step s (.frame now)).2).map _ = List.range' (_ - (held (step s (.frame now)).2).length)
    (held (step s (.frame now)).2).length at h3
  have h4 : f.id = (outputs tr).length - (held (step s (.frame now)).2).length := by
    have hpos : 0 < (held (step s (.frame now)).2).length := by rw [hh]; simp
    have h5 : ((held (step s (.frame now)).2).map (·.id))[0]? = some f.id := by rw [hh]; rfl
    rw [h3, List.getElem?_range' hpos] at h5
    injection h5 with h5
    omega
  refine ⟨?_, ht, by omega⟩
  rw [h1, List.length_range]
  exact h4

/-- The frame that `frame` returns was output by the decoder, with this timestamp; it is not closed; and
it is one of the last two. -/
theorem c102_shown (h : machine.Reach tr s) (now : Int) (ids : List Nat) (f : Frame) (lag : Int)
    (ho : (step s (.frame now)).1 = .shown ids f lag) :
    (outputs tr)[f.id]? = some f.timestamp ∧
    f.id ∉ shut (tr ++ [(.frame now, (step s (.frame now)).1)]) ∧ (outputs tr).length ≤ f.id + 2 := by
  obtain ⟨h1, h2, h3⟩ := shown_id h ho
  refine ⟨h2, ?_, h3⟩
  obtain ⟨k, -, -, hk⟩ := c102_owned (Machine.Reach.step (M := machine) (.frame now) h)
  change shut (tr ++ [(.frame now, (step s (.frame now)).1)]) = _ at hk
  rw [hk, List.length_range] at h1
  rw [hk, List.mem_range, h1]
  exact Nat.lt_irrefl _

theorem shut_mono (op : Op) (o : Out) : (shut tr).length ≤ (shut (tr ++ [(op, o)])).length := by
  rw [shut_snoc, List.length_append]
  exact Nat.le_add_right _ _

/-- Frames are shown in the order of output. -/
theorem c102_order (h : machine.Reach tr s) : (shown tr).Pairwise fun f g => f.id ≤ g.id := by
  have key : (shown tr).Pairwise (fun f g => f.id ≤ g.id) ∧ ∀ f ∈ shown tr, f.id ≤ (shut tr).length := by
    refine Machine.Reach.induct (M := machine) (P := fun tr _ => (shown tr).Pairwise (fun f g => f.id ≤ g.id) ∧
      ∀ f ∈ shown tr, f.id ≤ (shut tr).length) ?_ ?_ h
    · exact ⟨List.Pairwise.nil, by simp [shown]⟩
    · intro tr s op hr i
      change (shown (tr ++ [(op, (step s op).1)])).Pairwise _ ∧ ∀ f ∈ shown (tr ++ [(op, (step s op).1)]),
        f.id ≤ (shut (tr ++ [(op, (step s op).1)])).length
      have hm := shut_mono (tr := tr) op (step s op).1
      have old : ∀ f ∈ shown tr, f.id ≤ (shut (tr ++ [(op, (step s op).1)])).length :=
        fun f hf => Nat.le_trans (i.2 f hf) hm
      rw [shown_snoc]
      cases ho : (step s op).1 with
      | shut ids =>
        rw [ho] at old
        rw [List.append_nil]
        exact ⟨i.1, old⟩
      | nothing =>
        rw [ho] at old
        rw [List.append_nil]
        exact ⟨i.1, old⟩
      | shown ids f lag =>
        have hop : ∃ now, op = .frame now := by
          cases op with
          | output t =>
            rw [show step s (.output t) = output s t from rfl] at ho
            unfold output at ho
            dsimp only at ho
            split at ho <;> cases ho
          | frame now => exact ⟨now, rfl⟩
          | close => cases ho
        obtain ⟨now, rfl⟩ := hop
        have hid := (shown_id hr ho).1
        rw [ho] at hid old
        dsimp only
        refine ⟨?_, ?_⟩
        · rw [List.pairwise_append]
          refine ⟨i.1, List.pairwise_singleton _ _, ?_⟩
          intro g hg f' hf'
          rw [List.mem_singleton.mp hf', hid]
          exact old g hg
        · intro g hg
          rcases List.mem_append.mp hg with hg | hg
          · exact old g hg
          · rw [List.mem_singleton.mp hg, hid]
            exact Nat.le_refl _
  exact key.1

/-- No frame was output since the last `close`, or the beginning. -/
def Bare (tr : Trace) : Prop :=
  ∀ pre t o post, tr = pre ++ (.output t, o) :: post → ∃ o', (Op.close, o') ∈ post

theorem bare_reach (h : machine.Reach tr s) : s.current = none ↔ Bare tr := by
  have split : ∀ {l pre post : Trace} {a e : Op × Out}, l ++ [a] = pre ++ e :: post →
      (post = [] ∧ l = pre ∧ a = e) ∨ ∃ post', post = post' ++ [a] ∧ l = pre ++ e :: post' := by
    intro l pre post a e h
    rcases List.eq_nil_or_concat post with rfl | ⟨post', x, rfl⟩
    · left
      have h1 := congrArg List.getLast? h
      have h2 := congrArg List.dropLast h
      simp at h1 h2
      exact ⟨rfl, h2, h1⟩
    · right
      rw [List.concat_eq_append, ← List.cons_append, ← List.append_assoc] at h
      have h1 := congrArg List.getLast? h
      have h2 := congrArg List.dropLast h
      rw [List.getLast?_concat, List.getLast?_concat] at h1
      rw [List.dropLast_concat, List.dropLast_concat] at h2
      injection h1 with h1
      subst h1
      exact ⟨post', by simp, h2⟩
  refine Machine.Reach.induct (M := machine) (P := fun tr s => s.current = none ↔ Bare tr) ?_ ?_ h
  · exact ⟨fun _ pre t o post h => by simp at h, fun _ => rfl⟩
  · intro tr s op hr i
    change (step s op).2.current = none ↔ Bare (tr ++ [(op, (step s op).1)])
    cases op with
    | output t =>
      have hc : (step s (.output t)).2.current ≠ none := by
        rw [show step s (.output t) = output s t from rfl]
        unfold output
        dsimp only
        split
        · simp
        · next c hc hn => simp [hc]
        · simp
      refine ⟨fun h => absurd h hc, fun h => ?_⟩
      obtain ⟨o', ho'⟩ := h tr t _ [] rfl
      cases ho'
    | frame now =>
      have hc : (step s (.frame now)).2.current = none ↔ s.current = none := by
        have k := frame_look s now
        rw [show step s (.frame now) = frame s now from rfl]
        generalize (frame s now).1 = o at k
        generalize (frame s now).2 = s' at k
        cases k with
        | nothing h => exact Iff.rfl
        | keep c h hn => exact Iff.rfl
        | skip c n h hn hl => simp [h]
      rw [hc, i]
      constructor
      · intro hb pre t o post he
        rcases split he with ⟨-, -, he'⟩ | ⟨post', rfl, he'⟩
        · cases he'
        · obtain ⟨o', ho'⟩ := hb pre t o post' he'
          exact ⟨o', List.mem_append_left _ ho'⟩
      · intro hb pre t o post he
        obtain ⟨o', ho'⟩ := hb pre t o (post ++ [(.frame now, (step s (.frame now)).1)]) (by rw [he]; simp)
        rcases List.mem_append.mp ho' with ho' | ho'
        · exact ⟨o', ho'⟩
        · simp at ho'
    | close =>
      refine ⟨fun _ pre t o post he => ?_, fun _ => rfl⟩
      rcases split he with ⟨-, -, he⟩ | ⟨post', rfl, he⟩
      · cases he
      · exact ⟨_, List.mem_append_right _ List.mem_cons_self⟩

/-- `frame` returns nothing exactly if no frame was output since the last `close`, or the beginning. -/
theorem c102_nothing (h : machine.Reach tr s) (now : Int) :
    (step s (.frame now)).1 = .nothing ↔ Bare tr := by
  rw [← bare_reach h]
  have k := frame_look s now
  rw [show step s (.frame now) = frame s now from rfl]
  generalize (frame s now).1 = o at k ⊢
  generalize (frame s now).2 = s' at k
  cases k with
  | nothing h => simp [h]
  | keep c h hn => simp [h]
  | skip c n h hn hl => simp [h]

/-- A frame is skipped only if it lags by more than the time until the next one, and otherwise it is not;
never more than one. -/
theorem c102_skip (h : machine.Reach tr s) (now : Int) (ids : List Nat) (f : Frame) (lag : Int)
    (ho : (step s (.frame now)).1 = .shown ids f lag) :
    (ids = [] ∧ ∀ t, (outputs tr)[f.id + 1]? = some t → lag ≤ t - f.timestamp) ∨
    (∃ a t, ids = [a] ∧ f.id = a + 1 ∧ (outputs tr)[a]? = some t ∧
      ∃ r ∈ refs tr ++ [t - now], f.timestamp - t < r - (t - now)) := by
  have i := inv_reach h
  have k := frame_look s now
  have hid := shown_id h ho
  rw [show step s (.frame now) = frame s now from rfl] at ho hid
  rw [ho] at k hid
  generalize (frame s now).2 = s' at k
  cases k with
  | keep _ h' hn =>
    refine .inl ⟨rfl, fun t ht => ?_⟩
    cases hx : s.next with
    | none =>
      have := (shut_eq i).2.2
      unfold held at this
      rw [h', hx] at this
      simp at this
      have := (List.getElem?_eq_some_iff.mp ht).1
      omega
    | some n =>
      have h3 := (shut_eq i).2.2
      unfold held at h3
      rw [h', hx] at h3
      simp [List.range'] at h3
      have h4 := i.time n (by simp [held, hx])
      rw [show n.id = f.id + 1 by omega, ht] at h4
      injection h4 with h4
      have := hn n hx
      rw [h4]
      exact this
  | skip c _ h' hn hl =>
    right
    have h3 := (shut_eq i).2.2
    unfold held at h3
    rw [h', hn] at h3
    simp [List.range'] at h3
    refine ⟨c.id, c.timestamp, rfl, by omega, i.time c (by simp [held, h']), _, ?_, hl⟩
    exact (i.ref.next (c.timestamp - now)).some _ rfl

/-- The lag is that behind the frame that was earliest, of those `frame` has looked at; unless one was
neither early nor late.  It is not negative. -/
theorem c102_lag_partial (h : machine.Reach tr s) (now : Int) (ids : List Nat) (f : Frame) (lag : Int)
    (ho : (step s (.frame now)).1 = .shown ids f lag) : 0 ≤ lag ∧
    (∃ r ∈ refs (tr ++ [(.frame now, (step s (.frame now)).1)]), lag = r - (f.timestamp - now)) ∧
    ((0 : Int) ∉ refs (tr ++ [(.frame now, (step s (.frame now)).1)]) →
      ∀ r ∈ refs (tr ++ [(.frame now, (step s (.frame now)).1)]), r - (f.timestamp - now) ≤ lag) := by
  have i' := (inv_reach (Machine.Reach.step (M := machine) (.frame now) h)).ref
  change RefInv (refs (tr ++ [(.frame now, (step s (.frame now)).1)])) (step s (.frame now)).2.ref at i'
  have k := frame_look s now
  rw [show step s (.frame now) = frame s now from rfl] at ho i' ⊢
  rw [ho] at k i' ⊢
  generalize (frame s now).2 = s' at k i'
  cases k with
  | keep _ h' hn =>
    refine ⟨?_, ⟨_, i'.some _ rfl, rfl⟩, fun h0 r hr => ?_⟩
    · have := newRef_ge s.ref (f.timestamp - now)
      omega
    · have := i'.max h0 _ rfl r hr
      omega
  | skip c _ h' hn hl =>
    refine ⟨?_, ⟨_, i'.some _ rfl, rfl⟩, fun h0 r hr => ?_⟩
    · have := newRef_ge (some (newRef s.ref (c.timestamp - now))) (f.timestamp - now)
      omega
    · have := i'.max h0 _ rfl r hr
      omega

/-! ## What goes wrong -/

/-- **Violation.**  If the earliest frame was exactly on time, the reference is forgotten at the next
call: whatever the lag is, it is reported as 0, and the frame is not skipped. -/
theorem c102_forgets (c : Frame) (hc : s.current = some c) (hr : s.ref = some 0) (now : Int)
    (hn : ∀ n, s.next = some n → c.timestamp ≤ n.timestamp) :
    (step s (.frame now)).1 = .shown [] c 0 := by
  have hz : newRef s.ref (c.timestamp - now) = c.timestamp - now := by rw [hr]; simp [newRef]
  have k := frame_look s now
  rw [show step s (.frame now) = frame s now from rfl]
  generalize (frame s now).1 = o at k ⊢
  generalize (frame s now).2 = s' at k
  cases k with
  | nothing h => rw [hc] at h; cases h
  | keep _ h hn =>
    rw [hc] at h
    injection h with h
    subst h
    rw [hz, Int.sub_self]
  | skip _ n h hn' hl =>
    rw [hc] at h
    injection h with h
    subst h
    have := hn n hn'
    omega

/-- Frame 0 is on time, and frame 1 is late by 5000 units: the lag is reported as 0, frame 2 is due, but
frame 1 is shown. -/
theorem c102_forgets_witness : ∃ (ops : List Op), let r := machine.run ops
    outputs r.1 = [1000, 1010, 1020] ∧ refs r.1 = [0] ∧
    (step r.2 (.frame 6010)).1 = .shown [] ⟨1, 1010⟩ 0 :=
  ⟨[.output 1000, .frame 1000, .output 1010, .output 1020], by decide +kernel⟩

/-- **Violation.**  Frames that are output after `close` are kept, and only a further `close` or output
closes them. -/
theorem c102_leak (t : Int) (nows : List Int) :
    let s1 := (step s .close).2
    shut (machine.runFrom s1 (.output t :: nows.map .frame)).1 = [] ∧
    (machine.runFrom s1 (.output t :: nows.map .frame)).2.current = some ⟨s.count, t⟩ := by
  have key : ∀ (nows : List Int) (s : State) (f : Frame), s.current = some f → s.next = none →
      shut (machine.runFrom s (nows.map .frame)).1 = [] ∧
      (machine.runFrom s (nows.map .frame)).2.current = some f := by
    intro nows
    induction nows with
    | nil => exact fun s f h _ => ⟨rfl, h⟩
    | cons now nows ih =>
      intro s f h1 h2
      rw [List.map_cons, Machine.runFrom]
      have hs : machine.step s (.frame now) = (.shown [] f (newRef s.ref (f.timestamp - now) - (f.timestamp - now)),
          { s with ref := some (newRef s.ref (f.timestamp - now)) }) := by
        show frame s now = _
        unfold frame
        rw [h1]
        dsimp only
        rw [h2]
      rw [hs]
      obtain ⟨h3, h4⟩ := ih { s with ref := some (newRef s.ref (f.timestamp - now)) } f h1 h2
      refine ⟨?_, h4⟩
      unfold shut at h3 ⊢
      rw [List.flatMap_cons, h3]
      rfl
  dsimp only
  rw [Machine.runFrom]
  obtain ⟨h1, h2⟩ := key nows (step (step s .close).2 (.output t)).2 ⟨s.count, t⟩ rfl rfl
  refine ⟨?_, h2⟩
  unfold shut at h1 ⊢
  rw [List.flatMap_cons]
  exact h1

/-! Cases. -/

/-- Frames are dropped, kept and skipped. -/
example : (machine.run [.frame 5, .output 0, .output 10, .output 20, .frame 3, .frame 15, .frame 25, .output 30,
      .output 40, .frame 40, .close, .frame 50]).1.map (·.2) =
    [.nothing, .shut [], .shut [], .shut [0], .shown [] ⟨1, 10⟩ 0, .shown [1] ⟨2, 20⟩ 2,
      .shown [] ⟨2, 20⟩ 12, .shut [], .shut [2], .shown [3] ⟨4, 40⟩ 7, .shut [4], .nothing] := by decide +kernel

/-- The hypotheses of `c102_lag_partial`. -/
example : refs (machine.run [.output 0, .output 10, .output 20, .frame 3, .frame 15, .frame 25]).1 =
    [7, -5, 5, -5] := by decide +kernel

end Verif.Props.JsPlayback
