import Verif.Session.LifecycleSpec
import Verif.Session.ReaderLemmas
import Verif.Message.Lemmas

/-!
# Properties of an established session (C87)
-/

set_option autoImplicit false

namespace Verif.Props.Lifecycle

open Verif Verif.Coding Verif.Message Verif.Session Verif.Session.Lifecycle Verif.Session.Lifecycle.Spec

/-! ## Steps -/

theorem decodeOk_cons (b : UInt8) (rest : Bytes) :
    decodeSubscribeOk (b :: rest) = .ok (⟨b⟩, rest) := rfl

/-- What `run_session` does next, in terms of the bytes that are left. -/
theorem session_read (r : Reader) (hr : r.Ok) :
    ∃ r' : Reader, r'.Ok ∧ r'.stream.ending = r.stream.ending ∧
    (∀ b rest, r.content = b :: rest →
      r'.content = rest ∧ r.decodeMaybe decodeSubscribeOk = (.done (.ok (some ⟨b⟩)), r')) ∧
    (r.content = [] → r'.content = [] ∧
      r.decodeMaybe decodeSubscribeOk = (match r.stream.ending with
        | .fin => .done (.ok none)
        | .failed e => .done (.error (.webTransport e))
        | .idle => .waiting, r')) := by
  obtain ⟨a1, a2, a3, a4⟩ := decodeMaybe_spec good_subscribeOk r hr
  refine ⟨(r.decodeMaybe decodeSubscribeOk).2, a4, a3, ?_, ?_⟩
  · intro b rest hc
    rw [hc] at a1 a2
    simp only [specDecodeMaybe, specDecode, decodeOk_cons, reduceCtorEq, if_false] at a1 a2
    exact ⟨a2, Prod.ext a1 rfl⟩
  · intro hc
    rw [hc] at a1 a2
    simp only [specDecodeMaybe, if_true] at a1 a2
    refine ⟨?_, Prod.ext ?_ rfl⟩
    · rw [a2]; cases r.stream.ending <;> rfl
    · rw [a1]; cases r.stream.ending <;> rfl

theorem causes_snoc (tr : Trace) (e : Op × Out) : causes (tr ++ [e]) = causes tr ++ (cause e).toList := by
  cases h : cause e <;> simp [causes, h]

theorem openedBi_snoc (tr : Trace) (op : Op) (o : Out) :
    openedBi (tr ++ [(op, o)]) =
      openedBi tr ++ (match (op, o) with | (.openBi s, .ok) => [s] | _ => []) := by
  simp only [openedBi, List.filterMap_append, List.filterMap_cons, List.filterMap_nil]
  congr 1
  split <;> split <;> simp_all

theorem openedUni_snoc (tr : Trace) (op : Op) (o : Out) :
    openedUni (tr ++ [(op, o)]) =
      openedUni tr ++ (match (op, o) with | (.openUni s, .ok) => [s] | _ => []) := by
  simp only [openedUni, List.filterMap_append, List.filterMap_cons, List.filterMap_nil]
  congr 1
  split <;> split <;> simp_all

theorem controls_snoc (tr : Trace) (op : Op) (o : Out) :
    controls (tr ++ [(op, o)]) = controls tr ++ (match o with | .control d => [d] | _ => []) := by
  cases o <;> simp [controls]

theorem datas_snoc (tr : Trace) (op : Op) (o : Out) :
    datas (tr ++ [(op, o)]) = datas tr ++ (match o with | .data d => [d] | _ => []) := by
  cases o <;> simp [datas]

theorem infos_snoc (tr : Trace) (op : Op) (o : Out) :
    infos (tr ++ [(op, o)]) = infos tr ++ (match o with | .info d => [d] | _ => []) := by
  cases o <;> simp [infos]

theorem received_snoc (tr : Trace) (op : Op) (o : Out) :
    received (tr ++ [(op, o)]) =
      received tr ++ (match (op, o) with | (.recv b, .ok) => b | _ => []) := by
  cases op <;> cases o <;> simp [received]

/-- What holds of every reachable state. -/
structure Inv (left : Bytes) (tr : Trace) (s : State) : Prop where
  ok : s.reader.Ok
  content : left ++ received tr = (infos tr).map (·.priority) ++ s.reader.content
  bi : (openedBi tr).map (fun r => runControl (Reader.new r)) =
    controls tr ++ s.bi.map (fun r => runControl (Reader.new r))
  uni : (openedUni tr).map (fun r => runData (Reader.new r)) =
    datas tr ++ s.uni.map (fun r => runData (Reader.new r))
  idle : s.reader.stream.ending = .idle ↔ causes tr = []
  fin : s.reader.stream.ending = .fin → Cause.told 0 .cancel ∈ causes tr
  reset : ∀ code, s.reader.stream.ending = .failed (.stream code) →
    Cause.told 4 (.webTransport (.stream code)) ∈ causes tr
  failed : s.reader.stream.ending = .failed .session → s.gone = true
  gone : s.gone = true → s.reader.stream.ending ≠ .idle
  closed : ∀ c r, s.closed = some (c, r) → ∃ e, r = some e ∧ Cause.told c e ∈ causes tr
  lost : s.lost = true → Cause.gone ∈ causes tr
  running : s.running = false → s.gone = true

theorem snoc_quiet {left : Bytes} {tr : Trace} {s : State} (i : Inv left tr s) (op : Op) (o : Out)
    (hc : cause (op, o) = none)
    (h1 : ∀ r, (op, o) ≠ (.openBi r, .ok)) (h2 : ∀ r, (op, o) ≠ (.openUni r, .ok))
    (h3 : ∀ b, (op, o) ≠ (.recv b, .ok)) (h4 : ∀ d, o ≠ .control d) (h5 : ∀ d, o ≠ .data d)
    (h6 : ∀ d, o ≠ .info d) : Inv left (tr ++ [(op, o)]) s := by
  have e1 : causes (tr ++ [(op, o)]) = causes tr := by rw [causes_snoc, hc]; simp
  have e2 : openedBi (tr ++ [(op, o)]) = openedBi tr := by
    rw [openedBi_snoc]
    split
    · rename_i h; exact absurd h (h1 _)
    · simp
  have e3 : openedUni (tr ++ [(op, o)]) = openedUni tr := by
    rw [openedUni_snoc]
    split
    · rename_i h; exact absurd h (h2 _)
    · simp
  have e4 : received (tr ++ [(op, o)]) = received tr := by
    rw [received_snoc]
    split
    · rename_i h; exact absurd h (h3 _)
    · simp
  have e5 : controls (tr ++ [(op, o)]) = controls tr := by
    rw [controls_snoc]
    split
    · exact absurd rfl (h4 _)
    · simp
  have e6 : datas (tr ++ [(op, o)]) = datas tr := by
    rw [datas_snoc]
    split
    · exact absurd rfl (h5 _)
    · simp
  have e7 : infos (tr ++ [(op, o)]) = infos tr := by
    rw [infos_snoc]
    split
    · exact absurd rfl (h6 _)
    · simp
  obtain ⟨a1, a2, a3, a4, a5, a6, a7, a8, a9, a10, a11, a12⟩ := i
  constructor <;> (try simp only [e1, e2, e3, e4, e5, e6, e7]) <;> assumption

theorem failReader_ok {r : Reader} (h : r.Ok) : (failReader r).Ok := by
  unfold failReader
  split
  · exact h
  · exact h

theorem failReader_content (r : Reader) : (failReader r).content = r.content := by
  unfold failReader
  split <;> rfl

theorem failReader_ending (r : Reader) : (failReader r).stream.ending =
    if r.stream.ending = .idle then .failed .session else r.stream.ending := by
  unfold failReader
  split <;> rfl

/-- The end of the task preserves the invariant. -/
theorem finish_inv {left : Bytes} {tr : Trace} {s : State} (i : Inv left tr s) (b : Branch) (e : Error)
    (he : (e = .webTransport .session ∧ s.gone = true) ∨
      (∃ c, e.toCode = .ok c ∧ e ≠ .webTransport .session ∧ Cause.told c e ∈ causes tr)) :
    Inv left (tr ++ [(.poll b, (finish e s).1)]) (finish e s).2 := by
  have hout : (finish e s).1 = .ended e := by
    rcases he with ⟨rfl, -⟩ | ⟨c, hc, hne, -⟩
    · rfl
    · unfold Lifecycle.finish
      split
      · rfl
      · simp only [hc]
  have key : Inv left tr (finish e s).2 := by
    rcases he with ⟨rfl, hg⟩ | ⟨c, hc, hne, hm⟩
    · have : (finish (.webTransport .session) s).2 = { s with running := false } := by
        simp [Lifecycle.finish, closeTransport, hg]
      rw [this]
      obtain ⟨a1, a2, a3, a4, a5, a6, a7, a8, a9, a10, a11, a12⟩ := i
      exact ⟨a1, a2, a3, a4, a5, a6, a7, a8, a9, a10, a11, fun _ => hg⟩
    · have hs : (finish e s).2 = { closeTransport c (some e) s with running := false } := by
        unfold Lifecycle.finish
        split
        · exact absurd rfl hne
        · simp only [hc]
      rw [hs]
      unfold closeTransport
      by_cases hg : s.gone = true
      · rw [if_pos hg]
        obtain ⟨a1, a2, a3, a4, a5, a6, a7, a8, a9, a10, a11, a12⟩ := i
        exact ⟨a1, a2, a3, a4, a5, a6, a7, a8, a9, a10, a11, fun _ => hg⟩
      · rw [if_neg hg]
        have hni : s.reader.stream.ending ≠ .idle := by
          intro h
          rw [i.idle.1 h] at hm
          cases hm
        have hr : failReader s.reader = s.reader := by unfold failReader; rw [if_neg hni]
        rw [hr]
        refine ⟨i.ok, i.content, i.bi, i.uni, i.idle, i.fin, i.reset, ?_, fun _ => hni, ?_, i.lost, ?_⟩
        · intro _; simp [State.gone]
        · intro c' r' h
          simp only [Option.some.injEq, Prod.mk.injEq] at h
          exact ⟨e, h.2.symm, h.1 ▸ hm⟩
        · intro _; simp [State.gone]
  refine snoc_quiet key _ _ ?_ ?_ ?_ ?_ ?_ ?_ ?_ <;> simp [hout, cause]

/-- An operation that does nothing. -/
theorem none_inv {left : Bytes} {tr : Trace} {s : State} (i : Inv left tr s) (op : Op) (o : Out)
    (ho : o = .invalid ∨ o = .pending ∨ o = .ignored ∨ o = .panicked) : Inv left (tr ++ [(op, o)]) s := by
  refine snoc_quiet i _ _ ?_ ?_ ?_ ?_ ?_ ?_ ?_ <;>
    rcases ho with rfl | rfl | rfl | rfl <;> simp [cause]

theorem init_inv (left : Bytes) : Inv left [] (init left) := by
  refine ⟨?_, ?_, rfl, rfl, ?_, ?_, ?_, ?_, ?_, ?_, ?_, ?_⟩ <;>
    simp [init, Reader.Ok, received, infos, Reader.content, causes, State.gone]

theorem step_inv {left : Bytes} {tr : Trace} {s : State} (i : Inv left tr s) (op : Op) :
    Inv left (tr ++ [(op, (step s op).1)]) (step s op).2 := by
  have hquiet : ∀ r : Reader, r.Ok → r.stream.ending = s.reader.stream.ending →
      r.content = s.reader.content → Inv left tr { s with reader := r } := by
    intro r h1 h2 h3
    obtain ⟨a1, a2, a3, a4, a5, a6, a7, a8, a9, a10, a11, a12⟩ := i
    refine ⟨h1, ?_, a3, a4, ?_, ?_, ?_, ?_, ?_, a10, a11, a12⟩
    · simp only [h3]; exact a2
    all_goals simp only [h2]; assumption
  cases op with
  | recv bytes =>
    simp only [step]
    by_cases h : (s.gone || s.reader.stream.ending ≠ .idle || bytes = [])
    · rw [if_pos h]; exact none_inv i _ _ (.inl rfl)
    · rw [if_neg h]
      simp only [ne_eq, decide_not, Bool.or_eq_true, Bool.not_eq_true', decide_eq_false_iff_not,
        decide_eq_true_eq, not_or, Decidable.not_not] at h
      obtain ⟨⟨h1, h2⟩, h3⟩ := h
      have hcs : causes (tr ++ [(.recv bytes, .ok)]) = causes tr := by simp [causes, cause]
      refine ⟨?_, ?_, ?_, ?_, ?_, ?_, ?_, ?_, ?_, ?_, ?_, ?_⟩
      · intro c hc
        rcases List.mem_append.1 hc with hc | hc
        · exact i.ok c hc
        · rw [List.mem_singleton.1 hc]; exact h3
      · rw [received_snoc, infos_snoc]
        simp only [List.append_nil, Reader.content, List.flatten_append, List.flatten_cons, List.flatten_nil]
        rw [← List.append_assoc, i.content]
        simp [Reader.content]
      · rw [openedBi_snoc, controls_snoc]; simpa using i.bi
      · rw [openedUni_snoc, datas_snoc]; simpa using i.uni
      · rw [hcs]; simpa [h2] using i.idle
      · intro h; cases h
      · intro _ h; cases h
      · intro h; cases h
      · intro h; exact absurd h h1
      · rw [hcs]; exact i.closed
      · rw [hcs]; exact i.lost
      · exact i.running
  | fin =>
    simp only [step]
    by_cases h : (s.gone || s.reader.stream.ending ≠ .idle)
    · rw [if_pos h]; exact none_inv i _ _ (.inl rfl)
    · rw [if_neg h]
      simp only [ne_eq, decide_not, Bool.or_eq_true, Bool.not_eq_true', decide_eq_false_iff_not,
        not_or, Decidable.not_not] at h
      obtain ⟨h1, h2⟩ := h
      have hcs : causes (tr ++ [(.fin, .ok)]) = causes tr ++ [.told 0 .cancel] := by simp [causes, cause]
      refine ⟨i.ok, ?_, ?_, ?_, ?_, ?_, ?_, ?_, ?_, ?_, ?_, i.running⟩
      · rw [received_snoc, infos_snoc]; simpa [Reader.content] using i.content
      · rw [openedBi_snoc, controls_snoc]; simpa using i.bi
      · rw [openedUni_snoc, datas_snoc]; simpa using i.uni
      · rw [hcs]; simp
      · rw [hcs]; simp
      · intro _ h; cases h
      · intro h; cases h
      · intro _ h; cases h
      · intro c r h
        obtain ⟨e, h3, h4⟩ := i.closed c r h
        rw [hcs]; exact ⟨e, h3, List.mem_append_left _ h4⟩
      · intro h
        rw [hcs]; exact List.mem_append_left _ (i.lost h)
  | reset code =>
    simp only [step]
    by_cases h : (s.gone || s.reader.stream.ending ≠ .idle)
    · rw [if_pos h]; exact none_inv i _ _ (.inl rfl)
    · rw [if_neg h]
      simp only [ne_eq, decide_not, Bool.or_eq_true, Bool.not_eq_true', decide_eq_false_iff_not,
        not_or, Decidable.not_not] at h
      obtain ⟨h1, h2⟩ := h
      have hcs : causes (tr ++ [(.reset code, .ok)]) =
          causes tr ++ [.told 4 (.webTransport (.stream code))] := by simp [causes, cause]
      refine ⟨i.ok, ?_, ?_, ?_, ?_, ?_, ?_, ?_, ?_, ?_, ?_, i.running⟩
      · rw [received_snoc, infos_snoc]; simpa [Reader.content] using i.content
      · rw [openedBi_snoc, controls_snoc]; simpa using i.bi
      · rw [openedUni_snoc, datas_snoc]; simpa using i.uni
      · rw [hcs]; simp
      · intro h; cases h
      · intro c h
        simp only [StreamEnd.failed.injEq, TransportError.stream.injEq] at h
        rw [hcs, h]; simp
      · intro h; cases h
      · intro _ h; cases h
      · intro c r h
        obtain ⟨e, h3, h4⟩ := i.closed c r h
        rw [hcs]; exact ⟨e, h3, List.mem_append_left _ h4⟩
      · intro h
        rw [hcs]; exact List.mem_append_left _ (i.lost h)
  | lose =>
    simp only [step]
    by_cases h : s.gone = true
    · rw [if_pos h]; exact none_inv i _ _ (.inl rfl)
    · rw [if_neg h]
      have hcs : causes (tr ++ [(.lose, .ok)]) = causes tr ++ [.gone] := by simp [causes, cause]
      refine ⟨failReader_ok i.ok, ?_, ?_, ?_, ?_, ?_, ?_, ?_, ?_, ?_, ?_, ?_⟩
      · rw [received_snoc, infos_snoc]; simpa [failReader_content] using i.content
      · rw [openedBi_snoc, controls_snoc]; simpa using i.bi
      · rw [openedUni_snoc, datas_snoc]; simpa using i.uni
      · rw [hcs]
        simp only [failReader_ending, List.append_eq_nil_iff, List.cons_ne_self, and_false, iff_false]
        split <;> simp_all
      · simp only [failReader_ending]
        intro h
        rw [hcs]
        refine List.mem_append_left _ (i.fin ?_)
        split at h
        · cases h
        · exact h
      · simp only [failReader_ending]
        intro c h
        rw [hcs]
        refine List.mem_append_left _ (i.reset c ?_)
        split at h
        · cases h
        · exact h
      · intro _; simp [State.gone]
      · intro _
        simp only [failReader_ending]
        split <;> simp_all
      · intro c r h
        obtain ⟨e, h3, h4⟩ := i.closed c r h
        rw [hcs]; exact ⟨e, h3, List.mem_append_left _ h4⟩
      · intro _; rw [hcs]; simp
      · intro _; simp [State.gone]
  | openBi r =>
    simp only [step]
    by_cases h : s.gone = true
    · rw [if_pos h]; exact none_inv i _ _ (.inl rfl)
    · rw [if_neg h]
      have hcs : causes (tr ++ [(.openBi r, .ok)]) = causes tr := by simp [causes, cause]
      obtain ⟨a1, a2, a3, a4, a5, a6, a7, a8, a9, a10, a11, a12⟩ := i
      refine ⟨a1, ?_, ?_, ?_, ?_, ?_, ?_, a8, a9, ?_, ?_, a12⟩
      · rw [received_snoc, infos_snoc]; simpa using a2
      · rw [openedBi_snoc, controls_snoc]; simp [a3]
      · rw [openedUni_snoc, datas_snoc]; simpa using a4
      all_goals rw [hcs]; assumption
  | openUni r =>
    simp only [step]
    by_cases h : s.gone = true
    · rw [if_pos h]; exact none_inv i _ _ (.inl rfl)
    · rw [if_neg h]
      have hcs : causes (tr ++ [(.openUni r, .ok)]) = causes tr := by simp [causes, cause]
      obtain ⟨a1, a2, a3, a4, a5, a6, a7, a8, a9, a10, a11, a12⟩ := i
      refine ⟨a1, ?_, ?_, ?_, ?_, ?_, ?_, a8, a9, ?_, ?_, a12⟩
      · rw [received_snoc, infos_snoc]; simpa using a2
      · rw [openedBi_snoc, controls_snoc]; simpa using a3
      · rw [openedUni_snoc, datas_snoc]; simp [a4]
      all_goals rw [hcs]; assumption
  | poll b =>
    by_cases hr : s.running = true
    · cases b with
      | session =>
        obtain ⟨r', b1, b2, b3, b4⟩ := session_read s.reader i.ok
        cases hc : s.reader.content with
        | cons x rest =>
          obtain ⟨c1, c2⟩ := b3 x rest hc
          have he : step s (.poll .session) = (.info ⟨x⟩, { s with reader := r' }) := by
            simp [step, hr, c2]
          rw [he]
          have hcs : causes (tr ++ [(.poll .session, .info ⟨x⟩)]) = causes tr := by simp [causes, cause]
          obtain ⟨a1, a2, a3, a4, a5, a6, a7, a8, a9, a10, a11, a12⟩ := i
          refine ⟨b1, ?_, ?_, ?_, ?_, ?_, ?_, ?_, ?_, ?_, ?_, a12⟩
          · rw [received_snoc, infos_snoc]
            simp only [List.append_nil, List.map_append, List.map_cons, List.map_nil, c1, List.append_assoc,
              List.cons_append, List.nil_append]
            rw [a2, hc]
          · rw [openedBi_snoc, controls_snoc]; simpa using a3
          · rw [openedUni_snoc, datas_snoc]; simpa using a4
          all_goals (try rw [hcs]) <;> (try simp only [b2]) <;> assumption
        | nil =>
          obtain ⟨c1, c2⟩ := b4 hc
          have iq := hquiet r' b1 b2 (by rw [c1, hc])
          cases hend : s.reader.stream.ending with
          | idle =>
            have he : step s (.poll .session) = (.pending, { s with reader := r' }) := by
              simp [step, hr, c2, hend]
            rw [he]
            exact none_inv iq _ _ (.inr (.inl rfl))
          | fin =>
            have he : step s (.poll .session) = finish .cancel { s with reader := r' } := by
              simp [step, hr, c2, hend]
            rw [he]
            exact finish_inv iq _ _ (.inr ⟨0, rfl, by simp, i.fin hend⟩)
          | failed t =>
            have he : step s (.poll .session) = finish (.webTransport t) { s with reader := r' } := by
              simp [step, hr, c2, hend]
            rw [he]
            cases t with
            | session => exact finish_inv iq _ _ (.inl ⟨rfl, i.failed hend⟩)
            | stream code => exact finish_inv iq _ _ (.inr ⟨4, rfl, by simp, i.reset code hend⟩)
      | bi =>
        cases hb : s.bi with
        | nil =>
          by_cases hg : s.gone = true
          · have he : step s (.poll .bi) = finish (.webTransport .session) s := by simp [step, hr, hb, hg]
            rw [he]
            exact finish_inv i _ _ (.inl ⟨rfl, hg⟩)
          · have he : step s (.poll .bi) = (.pending, s) := by simp [step, hr, hb, hg]
            rw [he]
            exact none_inv i _ _ (.inr (.inl rfl))
        | cons r rest =>
          have he : step s (.poll .bi) = (.control (runControl (Reader.new r)), { s with bi := rest }) := by
            simp [step, hr, hb]
          rw [he]
          have hcs : causes (tr ++ [(.poll .bi, .control (runControl (Reader.new r)))]) = causes tr := by
            simp [causes, cause]
          obtain ⟨a1, a2, a3, a4, a5, a6, a7, a8, a9, a10, a11, a12⟩ := i
          refine ⟨a1, ?_, ?_, ?_, ?_, ?_, ?_, a8, a9, ?_, ?_, a12⟩
          · rw [received_snoc, infos_snoc]; simpa using a2
          · rw [openedBi_snoc, controls_snoc]; simp [a3, hb]
          · rw [openedUni_snoc, datas_snoc]; simpa using a4
          all_goals rw [hcs]; assumption
      | uni =>
        cases hb : s.uni with
        | nil =>
          by_cases hg : s.gone = true
          · have he : step s (.poll .uni) = finish (.webTransport .session) s := by simp [step, hr, hb, hg]
            rw [he]
            exact finish_inv i _ _ (.inl ⟨rfl, hg⟩)
          · have he : step s (.poll .uni) = (.pending, s) := by simp [step, hr, hb, hg]
            rw [he]
            exact none_inv i _ _ (.inr (.inl rfl))
        | cons r rest =>
          have he : step s (.poll .uni) = (.data (runData (Reader.new r)), { s with uni := rest }) := by
            simp [step, hr, hb]
          rw [he]
          have hcs : causes (tr ++ [(.poll .uni, .data (runData (Reader.new r)))]) = causes tr := by
            simp [causes, cause]
          obtain ⟨a1, a2, a3, a4, a5, a6, a7, a8, a9, a10, a11, a12⟩ := i
          refine ⟨a1, ?_, ?_, ?_, ?_, ?_, ?_, a8, a9, ?_, ?_, a12⟩
          · rw [received_snoc, infos_snoc]; simpa using a2
          · rw [openedBi_snoc, controls_snoc]; simpa using a3
          · rw [openedUni_snoc, datas_snoc]; simp [a4, hb]
          all_goals rw [hcs]; assumption
    · have he : step s (.poll b) = (.invalid, s) := by simp [step, hr]
      rw [he]
      exact none_inv i _ _ (.inl rfl)
  | close e =>
    simp only [step]
    cases hcode : e.toCode with
    | error p => exact none_inv i _ _ (.inr (.inr (.inr rfl)))
    | ok c =>
      simp only
      by_cases h : s.gone = true
      · rw [if_pos h]; exact none_inv i _ _ (.inr (.inr (.inl rfl)))
      · rw [if_neg h]
        have hs : closeTransport c (some e) s =
            { s with closed := some (c, some e), reader := failReader s.reader } := by
          simp [closeTransport, h]
        rw [hs]
        have hcs : causes (tr ++ [(.close e, .ok)]) = causes tr ++ [.told c e] := by
          simp [causes, cause, hcode]
        refine ⟨failReader_ok i.ok, ?_, ?_, ?_, ?_, ?_, ?_, ?_, ?_, ?_, ?_, ?_⟩
        · rw [received_snoc, infos_snoc]; simpa [failReader_content] using i.content
        · rw [openedBi_snoc, controls_snoc]; simpa using i.bi
        · rw [openedUni_snoc, datas_snoc]; simpa using i.uni
        · rw [hcs]
          simp only [failReader_ending, List.append_eq_nil_iff, List.cons_ne_self, and_false, iff_false]
          split <;> simp_all
        · simp only [failReader_ending]
          intro h
          rw [hcs]
          refine List.mem_append_left _ (i.fin ?_)
          split at h
          · cases h
          · exact h
        · simp only [failReader_ending]
          intro c h
          rw [hcs]
          refine List.mem_append_left _ (i.reset c ?_)
          split at h
          · cases h
          · exact h
        · intro _; simp [State.gone]
        · intro _
          simp only [failReader_ending]
          split <;> simp_all
        · intro c' r' h
          simp only [Option.some.injEq, Prod.mk.injEq] at h
          rw [hcs]
          exact ⟨e, h.2.symm, by rw [h.1]; simp⟩
        · intro hl
          rw [hcs]; exact List.mem_append_left _ (i.lost hl)
        · intro _; simp [State.gone]

theorem inv_reach {left : Bytes} {tr : Trace} {s : State} (h : (machine left).Reach tr s) : Inv left tr s := by
  refine Machine.Reach.induct (M := machine left) (P := fun tr s => Inv left tr s) (init_inv left) ?_ h
  intro tr s op _ ih
  exact step_inv ih op

theorem finish_running (e : Error) (s : State) : (finish e s).2.running = false := by
  unfold finish
  split
  · rfl
  · split <;> rfl

theorem step_running (s : State) (op : Op) :
    (s.running = false → (step s op).2.running = false) ∧
    (∀ e, (step s op).1 = .ended e → (step s op).2.running = false) := by
  cases op with
  | poll b =>
    by_cases hr : s.running = true
    · refine ⟨fun h => (by simp [hr] at h), ?_⟩
      intro e
      cases b <;> simp only [step, hr, not_true_eq_false, if_false]
      · split
        · intro h; cases h
        · intro h; cases h
        · intro _; exact finish_running _ _
        · intro _; exact finish_running _ _
      · split
        · intro h; cases h
        · split
          · intro _; exact finish_running _ _
          · intro h; cases h
      · split
        · intro h; cases h
        · split
          · intro _; exact finish_running _ _
          · intro h; cases h
    · simp [step, hr]
  | close e =>
    refine ⟨fun h => ?_, fun e' => ?_⟩
    · simp only [step]
      split
      · split
        · exact h
        · unfold closeTransport; split <;> exact h
      · exact h
    · simp only [step]
      split
      · split <;> intro h <;> cases h
      · intro h; cases h
  | _ =>
    constructor
    · intro h; simp only [step]; split <;> exact h
    · intro e; simp only [step]; split <;> intro h <;> cases h

theorem ended_stops {left : Bytes} {tr : Trace} {s : State} (h : (machine left).Reach tr s) :
    ∀ e o, (o, Out.ended e) ∈ tr → s.running = false := by
  refine Machine.Reach.induct (M := machine left)
    (P := fun tr s => ∀ e o, (o, Out.ended e) ∈ tr → s.running = false) ?_ ?_ h
  · intro e o hm; cases hm
  · intro tr s op _ ih e o hm
    rcases List.mem_append.1 hm with hm | hm
    · exact (step_running s op).1 (ih e o hm)
    · have := List.mem_singleton.1 hm
      injection this with h1 h2
      exact (step_running s op).2 e h2.symm

/-- `run_session` reads all that is left and notices the end. -/
theorem drain {left : Bytes} (n : Nat) : ∀ {tr : Trace} {s : State}, (machine left).Reach tr s →
    s.running = true → s.reader.stream.ending ≠ .idle → s.reader.content.length < n →
    ((machine left).runFrom s (List.replicate n (.poll .session))).2.running = false := by
  induction n with
  | zero => intro tr s _ _ _ h; omega
  | succ n ih =>
    intro tr s h hr he hl
    have i := inv_reach h
    rw [List.replicate_succ]
    simp only [Machine.runFrom]
    obtain ⟨r', b1, b2, b3, b4⟩ := session_read s.reader i.ok
    cases hc : s.reader.content with
    | cons x rest =>
      obtain ⟨c1, c2⟩ := b3 x rest hc
      have hs : step s (.poll .session) = (.info ⟨x⟩, { s with reader := r' }) := by
        simp [step, hr, c2]
      have hreach := Machine.Reach.step (M := machine left) (.poll .session) h
      simp only [hs] at hreach ⊢
      refine ih hreach hr (by simpa only [b2] using he) ?_
      simp only [c1]
      rw [hc] at hl
      simp only [List.length_cons] at hl
      omega
    | nil =>
      obtain ⟨c1, c2⟩ := b4 hc
      have hstop : (step s (.poll .session)).2.running = false := by
        cases hend : s.reader.stream.ending with
        | idle => exact absurd hend he
        | fin =>
          have : step s (.poll .session) = finish .cancel { s with reader := r' } := by
            simp [step, hr, c2, hend]
          rw [this]; exact finish_running _ _
        | failed t =>
          have : step s (.poll .session) = finish (.webTransport t) { s with reader := r' } := by
            simp [step, hr, c2, hend]
          rw [this]; exact finish_running _ _
      have hstay : ∀ (ops : List Op) (t : State), t.running = false →
          ((machine left).runFrom t ops).2.running = false := by
        intro ops
        induction ops with
        | nil => intro t ht; exact ht
        | cons op ops ih2 => intro t ht; exact ih2 _ ((step_running t op).1 ht)
      exact hstay _ _ hstop

/-! ## C87 -/

/-- **C87, survival**: a session without a cause to end goes on, whatever the peer sends on the session
stream and whatever streams it opens. -/
theorem c87_survives {left : Bytes} {tr : Trace} {s : State} (h : (machine left).Reach tr s)
    (hc : causes tr = []) :
    s.running = true ∧ s.closed = none ∧ s.lost = false ∧ ∀ e o, (o, Out.ended e) ∉ tr := by
  have i := inv_reach h
  have hg : s.gone = false := by
    cases hg : s.gone with
    | false => rfl
    | true => exact absurd (i.idle.2 hc) (i.gone hg)
  have hg' := hg
  simp only [State.gone, Bool.or_eq_false_iff, Option.isSome_eq_false_iff, Option.isNone_iff_eq_none] at hg'
  refine ⟨?_, hg'.2, hg'.1, ?_⟩
  · cases hr : s.running with
    | true => rfl
    | false => rw [i.running hr] at hg; cases hg
  · intro e o hm
    have := ended_stops h e o hm
    rw [i.running this] at hg
    cases hg

/-- **C87, the code**: what the peer is told is one of the causes. -/
theorem c87_code {left : Bytes} {tr : Trace} {s : State} (h : (machine left).Reach tr s) (c : Nat)
    (r : Option Error) (hc : s.closed = some (c, r)) : ∃ e, r = some e ∧ Cause.told c e ∈ causes tr :=
  (inv_reach h).closed c r hc

/-- **C87, the only cause**: if there was one cause only and the session ended, the peer is told exactly
this. -/
theorem c87_exact {left : Bytes} {tr : Trace} {s : State} (h : (machine left).Reach tr s) (c : Nat)
    (e : Error) (hc : causes tr = [.told c e]) (hr : s.running = false) : s.closed = some (c, some e) := by
  have i := inv_reach h
  have hg := i.running hr
  simp only [State.gone, Bool.or_eq_true, Option.isSome_iff_exists] at hg
  rcases hg with hl | ⟨⟨c', r⟩, hcl⟩
  · have := i.lost hl
    rw [hc] at this
    cases List.mem_singleton.1 this
  · obtain ⟨e', rfl, hm⟩ := i.closed c' r hcl
    rw [hc] at hm
    injection List.mem_singleton.1 hm with h1 h2
    rw [hcl, h1, h2]

/-- **C87, finality**: what the peer was told does not change, and a session lost is not closed again. -/
theorem c87_final (s : State) (hg : s.gone = true) (op : Op) :
    (step s op).2.closed = s.closed ∧ (step s op).2.lost = s.lost := by
  have hfin : ∀ (e : Error) (t : State), t.closed = s.closed → t.lost = s.lost → t.gone = true →
      (finish e t).2.closed = s.closed ∧ (finish e t).2.lost = s.lost := by
    intro e t h1 h2 h3
    unfold finish
    split
    · simp [closeTransport, h3, h1, h2]
    · split
      · simp [closeTransport, h3, h1, h2]
      · exact ⟨h1, h2⟩
  cases op with
  | poll b =>
    simp only [step]
    split
    · exact ⟨rfl, rfl⟩
    · cases b with
      | session =>
        simp only
        split
        · exact ⟨rfl, rfl⟩
        · exact ⟨rfl, rfl⟩
        · exact hfin _ _ rfl rfl hg
        · exact hfin _ _ rfl rfl hg
      | bi =>
        simp only
        split
        · exact ⟨rfl, rfl⟩
        · exact hfin _ _ rfl rfl hg
      | uni =>
        simp only
        split
        · exact ⟨rfl, rfl⟩
        · exact hfin _ _ rfl rfl hg
  | close e =>
    simp only [step]
    split
    · rw [if_pos hg]; exact ⟨rfl, rfl⟩
    · exact ⟨rfl, rfl⟩
  | _ => simp [step, hg]

/-- **C87, progress**: when there is a cause, the task ends as soon as it was polled once more often than
there are bytes, and the session is gone. -/
theorem c87_ends {left : Bytes} {tr : Trace} {s : State} (h : (machine left).Reach tr s)
    (hc : causes tr ≠ []) (n : Nat) (hn : left.length + (received tr).length < n) :
    let t := ((machine left).runFrom s (List.replicate n (.poll .session))).2
    t.running = false ∧ (t.closed ≠ none ∨ t.lost = true) := by
  have i := inv_reach h
  have hstop : ((machine left).runFrom s (List.replicate n (.poll .session))).2.running = false := by
    by_cases hr : s.running = true
    · refine drain n h hr (fun hi => hc (i.idle.1 hi)) ?_
      have := congrArg List.length i.content
      simp only [List.length_append] at this
      omega
    · have hstay : ∀ (ops : List Op) (t : State), t.running = false →
          ((machine left).runFrom t ops).2.running = false := by
        intro ops
        induction ops with
        | nil => intro t ht; exact ht
        | cons op ops ih2 => intro t ht; exact ih2 _ ((step_running t op).1 ht)
      exact hstay _ _ (by simpa using hr)
  refine ⟨hstop, ?_⟩
  have i2 := inv_reach ((machine left).reach_runFrom h (List.replicate n (.poll .session)))
  have hg := i2.running hstop
  simp only [State.gone, Bool.or_eq_true, Option.isSome_iff_exists] at hg
  rcases hg with hl | ⟨x, hx⟩
  · exact .inr hl
  · exact .inl (by rw [hx]; simp)

/-- **C87, streams**: every stream of the peer is handled at most once, in the order of opening, each
according to its own content only. -/
theorem c87_streams {left : Bytes} {tr : Trace} {s : State} (h : (machine left).Reach tr s) :
    (∃ rest, (openedBi tr).map (fun r => runControl (Reader.new r)) = controls tr ++ rest) ∧
    (∃ rest, (openedUni tr).map (fun r => runData (Reader.new r)) = datas tr ++ rest) :=
  ⟨⟨_, (inv_reach h).bi⟩, ⟨_, (inv_reach h).uni⟩⟩

/-- **C87, no stream is forgotten**: while the task runs, the next stream not handled yet is handled when
its loop is polled. -/
theorem c87_next {left : Bytes} {tr : Trace} {s : State} (h : (machine left).Reach tr s)
    (hr : s.running = true) :
    (∀ r, (openedBi tr)[(controls tr).length]? = some r →
      (step s (.poll .bi)).1 = .control (runControl (Reader.new r))) ∧
    (∀ r, (openedUni tr)[(datas tr).length]? = some r →
      (step s (.poll .uni)).1 = .data (runData (Reader.new r))) := by
  have i := inv_reach h
  constructor
  · intro r hx
    have h1 := congrArg (fun l => l[(controls tr).length]?) i.bi
    simp only [List.getElem?_map, hx, Option.map_some, List.getElem?_append_right (Nat.le_refl _), Nat.sub_self] at h1
    cases hb : s.bi with
    | nil => rw [hb] at h1; cases h1
    | cons q rest =>
      rw [hb] at h1
      simp only [List.getElem?_cons_zero, Option.map_some, Option.some.injEq] at h1
      simp [step, hr, hb, h1]
  · intro r hx
    have h1 := congrArg (fun l => l[(datas tr).length]?) i.uni
    simp only [List.getElem?_map, hx, Option.map_some, List.getElem?_append_right (Nat.le_refl _), Nat.sub_self] at h1
    cases hb : s.uni with
    | nil => rw [hb] at h1; cases h1
    | cons q rest =>
      rw [hb] at h1
      simp only [List.getElem?_cons_zero, Option.map_some, Option.some.injEq] at h1
      simp [step, hr, hb, h1]

/-- A session: a stream of an unknown type, a second session stream and updates do not end it; the end of
the session stream does. -/
example :
    ((machine [9]).run [.poll .bi, .openBi ⟨[[7]], .fin⟩, .openBi ⟨[[0]], .idle⟩, .openUni ⟨[[63]], .fin⟩,
      .poll .bi, .recv [0x43, 0xe8], .poll .session, .poll .session, .poll .bi, .poll .uni, .poll .session,
      .poll .session, .fin, .poll .session, .poll .bi, .close .cancel]).1.map (·.2) =
    [.pending, .ok, .ok, .ok, .control (.dropped (.decode .invalidValue)), .ok, .info ⟨9⟩, .info ⟨0x43⟩,
      .control (.refused (.unexpectedStream .session)), .data (.dropped (.decode .invalidValue)),
      .info ⟨0xe8⟩, .pending, .ok, .ended .cancel, .invalid, .ignored] ∧
    ((machine [9]).run [.fin, .poll .session, .poll .session]).2.closed = some (0, some .cancel) ∧
    ((machine []).run [.reset 7, .poll .session]).2.closed =
      some (4, some (.webTransport (.stream 7))) ∧
    ((machine []).run [.lose, .poll .uni]).2.closed = none ∧
    ((machine []).run [.close .notFound, .poll .uni]).2.closed = some (13, some .notFound) := by
  decide +kernel

/-- **C87 is violated by the updates of the session stream**: an update of the bitrate is not read as
one message: the code decodes another type. -/
theorem c87_info : ∃ (bytes : Bytes) (tr : Trace) (s : State),
    wire (encodeSessionInfo ⟨some 1000⟩) = .ok bytes ∧ (machine []).Reach tr s ∧ received tr = bytes ∧
    infos tr = [⟨0x43⟩, ⟨0xe8⟩] :=
  ⟨[0x43, 0xe8], _, _, by decide +kernel,
    (machine []).reach_run [.recv [0x43, 0xe8], .poll .session, .poll .session], by decide +kernel,
    by decide +kernel⟩

/-- **C87 is violated by a handshake that fails**: whatever the reason, the peer finds its session stream
reset with the code of `Cancel`, the code 9 of unsupported versions is never sent. -/
theorem c87_refusal (fail : Option TransportError) (r : Reader) (e : Error)
    (he : (accept fail r).result = .done (.error e)) :
    (accept fail r).written = [] ∧ refusal (accept fail r) = some (.ok 0) := by
  refine ⟨?_, by simp [refusal, he, Error.toCode]⟩
  have hs : ∀ q : Reader, (acceptSetup fail q).result = .done (.error e) → (acceptSetup fail q).written = [] := by
    intro q
    unfold acceptSetup
    split
    · intro _; rfl
    · intro _; rfl
    · split
      · intro _; rfl
      · split
        · intro h; cases h
        · intro _; rfl
        · intro _; rfl
  revert he
  unfold accept
  split
  · intro _; rfl
  · intro _; rfl
  · split
    · intro _; rfl
    · exact hs _

/-- A client that offers another version only. -/
example :
    let h := accept none (Reader.new ⟨[[0, 1, 5, 0]], .idle⟩)
    h.result = .done (.error (.version [5] [Version.CURRENT])) ∧ h.written = [] ∧
    Error.toCode (.version [5] [Version.CURRENT]) = .ok 9 ∧ refusal h = some (.ok 0) := by
  refine ⟨?_, ?_, rfl, ?_⟩ <;> rfl

end Verif.Props.Lifecycle
