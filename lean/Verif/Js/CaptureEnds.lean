import Verif.Js.CaptureMore

/-!
# Publishing video from the browser: how tracks and groups end, and the catalog
-/

set_option autoImplicit false

namespace Verif.Js.Capture

open Verif

open Verif.Js.Frames (Input)

/-! ## Calls of the tracks -/

/-- The calls that are made. -/
def Grows (P : Nat → Track.Op → Prop) (s s' : State) : Prop :=
  ∃ l, s'.calls = s.calls ++ l ∧ ∀ e ∈ l, P e.1 e.2.1

theorem Grows.refl {P : Nat → Track.Op → Prop} (s : State) : Grows P s s :=
  ⟨[], by simp, fun _ h => (by cases h)⟩

theorem Grows.trans {P : Nat → Track.Op → Prop} {a b c : State} (h1 : Grows P a b) (h2 : Grows P b c) :
    Grows P a c := by
  obtain ⟨l, e1, p1⟩ := h1
  obtain ⟨m, e2, p2⟩ := h2
  refine ⟨l ++ m, by rw [e2, e1, List.append_assoc], fun e he => ?_⟩
  rcases List.mem_append.1 he with h | h
  · exact p1 e h
  · exact p2 e h

theorem Grows.of {P : Nat → Track.Op → Prop} {s s' : State} (h : s'.calls = s.calls) : Grows P s s' :=
  ⟨[], by simp [h], fun _ h => (by cases h)⟩

theorem grows_act {P : Nat → Track.Op → Prop} (s : State) (r : Nat) (op : Track.Op) (h : P r op) :
    Grows P s (act s r op) := by
  unfold act
  split
  · refine ⟨_, rfl, fun e he => ?_⟩
    rw [List.mem_singleton.1 he]
    exact h
  · exact .refl s

section

variable {P : Nat → Track.Op → Prop} (hc : ∀ k g, P k (.closeGroup g)) (hw : ∀ k g b, P k (.write g b))

include hc in
theorem grows_closeGroup (s : State) : Grows P s (closeGroup s) := by
  unfold closeGroup
  split
  · exact grows_act _ _ _ (hc _ _)
  · exact .refl s

include hc in
theorem grows_finish (s : State) (r : Nat) (run : Run) : Grows P s (finish s r run) := by
  unfold finish
  split
  · exact .of rfl
  · exact (grows_closeGroup hc s).trans (.of rfl)

include hc in
theorem grows_exhaust (s : State) (r : Nat) (run : Run) : Grows P s (exhaust s r run) := by
  unfold exhaust
  split
  · exact grows_finish hc ..
  · exact grows_finish hc ..
  · exact .of rfl

include hc in
theorem grows_cleanup (s : State) (h : ∀ r, s.current = some r → P r .close) : Grows P s (cleanup s) := by
  unfold cleanup
  split
  · next r hr =>
    split
    · exact ((grows_act _ _ _ (h r hr)).trans (grows_exhaust hc ..)).trans (.of rfl)
    · exact .refl s
  · exact .refl s

include hw in
theorem grows_write (s : State) (k g : Nat) (c : Input) : Grows P s (write s k g c).2 := by
  unfold write
  split
  · exact .refl s
  · split
    · exact grows_act _ _ _ (hw _ _ _)
    · exact .refl s

include hc hw in
theorem grows_emit (s : State) (r : Nat) (c : Input) (h : P r .append) : Grows P s (emit s r c).2 := by
  unfold emit
  split
  · dsimp only
    have h1 : Grows P s (closeGroup { s with timestamp := c.timestamp }) :=
      (Grows.of rfl).trans (grows_closeGroup hc { s with timestamp := c.timestamp })
    split
    · split
      · exact h1.trans ((grows_act _ _ _ h).trans ((Grows.of rfl).trans (grows_write hw ..)))
      · exact h1.trans (grows_act _ _ _ h)
    · exact .refl s
  · split
    · exact grows_write hw ..
    · exact .refl s

include hc in
theorem grows_encode (s : State) (r : Nat) (run : Run) (pic : Nat) (ts : Int) :
    Grows P s (encode s r run pic ts).2 := by
  unfold encode
  dsimp only
  split
  · exact .of rfl
  · exact (Grows.of rfl).trans (grows_finish hc ..)

include hc in
theorem grows_next (s : State) (r : Nat) : Grows P s (next s r) := by
  unfold next
  split
  · split
    · exact grows_finish hc ..
    · exact .refl s
  · exact .refl s

end

/-- What may be called in a step. -/
def Allowed (s : State) (op : Op) (o : Out) (k : Nat) : Track.Op → Prop
  | .append => ∃ run q st, s.runs[k]? = some run ∧ run.encoder = .working q st
  | .insert _ _ _ => False
  | .close => s.current = some k ∧ ((op = .stop ∧ o = .ok) ∨ (op = .close ∧ o = .ok) ∨
      (op = .start ∧ ∃ r, o = .run r))
  | .abort => op = .error k ∧ o = .ok
  | .abortGroup g => ∃ r, op = .error r ∧ o = .ok ∧ s.group = some (k, g)
  | _ => True

theorem step_grows (s : State) (op : Op) : Grows (Allowed s op (step s op).1) s (step s op).2 := by
  have hc : ∀ (op : Op) (o : Out) (k g : Nat), Allowed s op o k (.closeGroup g) := fun _ _ _ _ => trivial
  have hw : ∀ (op : Op) (o : Out) (k g : Nat) b, Allowed s op o k (.write g b) := fun _ _ _ _ _ => trivial
  have hon : ∀ (op : Op) r f, (∀ run, s.runs[r]? = some run → Grows (Allowed s op (f run).1) s (f run).2) →
      Grows (Allowed s op (onRun s r f).1) s (onRun s r f).2 := by
    intro op r f hf
    unfold onRun
    split
    · next h => exact hf _ h
    · exact .refl s
  cases op with
  | start =>
    rw [step]
    split
    · exact .refl s
    · exact (grows_cleanup (hc _ _) s fun r h => ⟨h, .inr (.inr ⟨rfl, _, rfl⟩)⟩).trans (.of rfl)
  | stop =>
    rw [step]
    split
    · exact .refl s
    · exact grows_cleanup (hc _ _) s fun r h => ⟨h, .inl ⟨rfl, rfl⟩⟩
  | close =>
    rw [step]
    split
    · exact .refl s
    · exact (Grows.of rfl).trans ((grows_cleanup (hc _ _) { s with shut := s.shut ++ s.latest.toList }
        fun r h => ⟨h, .inr (.inl ⟨rfl, rfl⟩)⟩).trans (.of rfl))
  | picture r ts =>
    rw [step]
    refine hon _ r _ fun run _ => ?_
    generalize hP : Allowed s (.picture r ts) (picture s r run ts).1 = P
    have hc' : ∀ k g, P k (.closeGroup g) := by rw [← hP]; exact hc _ _
    unfold picture
    split
    · exact .refl s
    · split
      · exact .of rfl
      · exact (Grows.of rfl).trans (grows_encode hc' ..)
      · exact .refl s
  | ended r =>
    rw [step]
    refine hon _ r _ fun run _ => ?_
    split
    · exact .refl s
    · exact grows_exhaust (hc _ _) ..
  | config r ok =>
    rw [step]
    refine hon _ r _ fun run _ => ?_
    generalize hP : Allowed s (.config r ok) (config s r run ok).1 = P
    have hc' : ∀ k g, P k (.closeGroup g) := by rw [← hP]; exact hc _ _
    unfold config
    split
    · split
      · exact (Grows.of (s' := { s with encoderConfig := some r }) rfl).trans
          ((grows_encode hc' ..).trans (grows_next hc' ..))
      · exact grows_finish hc' ..
    · exact .refl s
  | output r c =>
    rw [step]
    refine hon _ r _ fun run hr => ?_
    generalize hP : Allowed s (.output r c) (output s r run c).1 = P
    have hc' : ∀ k g, P k (.closeGroup g) := by rw [← hP]; exact hc _ _
    have hw' : ∀ k g b, P k (.write g b) := by rw [← hP]; exact hw _ _
    unfold output
    split
    · next q qs st he =>
      have ha : P r .append := by
        rw [← hP]
        exact ⟨run, _, _, hr, he⟩
      split
      · exact (Grows.of rfl).trans (grows_emit hc' hw' _ _ _ ha)
      · exact .refl s
    · exact .refl s
  | error r =>
    rw [step]
    refine hon _ r _ fun run hr => ?_
    unfold error
    split
    · next q st he =>
      dsimp only
      refine (Grows.of (s' := put s r { run with encoder := .closed }) rfl).trans (Grows.trans ?_
        ((Grows.of (s' := { abortGroup (put s r { run with encoder := .closed }) with group := none }) rfl).trans
        (grows_act _ _ _ ⟨rfl, rfl⟩)))
      unfold abortGroup
      split
      · next k g hg => exact grows_act _ _ _ ⟨r, rfl, rfl, hg⟩
      · exact .refl _
    · exact .refl s
  | track r op =>
    rw [step]
    split
    · split
      · next h =>
        refine grows_act _ _ _ ?_
        cases op <;> trivial
      · exact .refl s
    · exact .refl s

theorem trackTrace_grows {P : Nat → Track.Op → Prop} {s s' : State} (h : Grows P s s') (r : Nat) :
    ∃ m, trackTrace s' r = trackTrace s r ++ m ∧ ∀ e ∈ m, P r e.1 := by
  obtain ⟨l, h1, h2⟩ := h
  refine ⟨l.filterMap fun e => if e.1 = r then some e.2 else none, ?_, ?_⟩
  · unfold trackTrace
    rw [h1, List.filterMap_append]
  · intro e he
    obtain ⟨a, ha, hb⟩ := List.mem_filterMap.1 he
    split at hb
    · next hr =>
      cases hb
      rw [← hr]
      exact h2 a ha
    · cases hb

/-! ## How tracks end -/

theorem accepted_append (a b : Track.Trace) (h : ∀ e ∈ b, e.1 ≠ .append ∧ ∀ i f s, e.1 ≠ .insert i f s) :
    Track.accepted (a ++ b) = Track.accepted a := by
  unfold Track.accepted
  rw [List.filterMap_append]
  refine (congrArg _ ?_).trans (List.append_nil _)
  rw [List.filterMap_eq_nil_iff]
  rintro ⟨op, o⟩ he
  obtain ⟨h1, h2⟩ := h _ he
  cases op with
  | append => exact absurd rfl h1
  | insert i f s => exact absurd rfl (h2 i f s)
  | _ => rfl

/-- Why a track was called. -/
def Why (tr : Trace) (r : Nat) : Track.Op → Prop
  | .insert _ _ _ => False
  | .close => Stopped tr r
  | .abort => Errored tr r
  | .abortGroup _ => Errored tr r
  | _ => True

structure LInv (tr : Trace) (s : State) : Prop where
  why : ∀ r, ∀ e ∈ trackTrace s r, Why tr r e.1
  errored : ∀ r, Errored tr r → Track.ending (trackTrace s r) = some .abort
  only : ∀ (r g : Nat) o, (.abortGroup g, o) ∈ trackTrace s r → g + 1 = (Track.accepted (trackTrace s r)).length
  last : ¬ Late tr → ∀ r, Errored tr r → ∀ g, g + 1 = (Track.accepted (trackTrace s r)).length →
    (.abortGroup g, .ok) ∈ trackTrace s r

theorem Why.mono {tr : Trace} {r : Nat} {op : Track.Op} (e : Op × Out) (h : Why tr r op) :
    Why (tr ++ [e]) r op := by
  cases op with
  | close => exact (stopped_snoc ..).2 (.inl h)
  | abort => exact (errored_snoc ..).2 (.inl h)
  | abortGroup g => exact (errored_snoc ..).2 (.inl h)
  | insert => exact h
  | _ => trivial

theorem error_calls {tr : Trace} {s : State} (j : Inv tr s) {r : Nat}
    (ho : (step s (.error r)).1 = .ok) : ∃ run q st t, s.runs[r]? = some run ∧ run.encoder = .working q st ∧
      s.tracks[r]? = some t ∧
      trackTrace (step s (.error r)).2 r = trackTrace s r ++
        (match s.group with | some (_, g) => [(.abortGroup g, .ok)] | none => []) ++ [(.abort, .ok)] := by
  rw [step, onRun] at ho ⊢
  cases hr : s.runs[r]? with
  | none => rw [hr] at ho; cases ho
  | some run =>
    rw [hr] at ho
    dsimp only at ho ⊢
    unfold Capture.error at ho ⊢
    cases he : run.encoder with
    | unconfigured => rw [he] at ho; cases ho
    | closed => rw [he] at ho; cases ho
    | working q st =>
      dsimp only
      obtain ⟨t, gs, ls, ht, x⟩ := j.state.both hr
      refine ⟨run, q, st, t, rfl, he, ht, ?_⟩
      have hcur := j.state.idle hr he
      have hab : ∀ t : Track.State, (Track.step t .abort).1 = .ok := by
        intro t
        rw [Track.step]
        split <;> rfl
      unfold abortGroup
      have hgp : (put s r { run with encoder := .closed }).group = s.group := rfl
      rw [hgp]
      cases hg : s.group with
      | none =>
        have ht' : ({ put s r { run with encoder := .closed } with group := none } : State).tracks[r]? = some t := ht
        have := (act_only ht' .abort).trace
        rw [hab] at this
        rw [List.append_nil]
        exact this
      | some p =>
        obtain ⟨k, g⟩ := p
        have hkr : k = r := by
          obtain ⟨_, _, _, _, h⟩ := j.state.owner hg
          rw [hcur] at h
          exact (Option.some.inj h).symm
        subst hkr
        have htk' : (put s k { run with encoder := .closed }).tracks[k]? = some t := ht
        have h1 := act_only htk' (.abortGroup g)
        have h2 := act_only (s := { act (put s k { run with encoder := .closed }) k (.abortGroup g) with
          group := none }) (r := k) h1.this .abort
        have h3 := h2.trace
        rw [hab] at h3
        have h4 := h1.trace
        have hok : (Track.step t (.abortGroup g)).1 = .ok := by
          obtain ⟨y, hy, hl⟩ := (x.track.alive g).2 (by rw [hg, own_self])
          exact (Receive.group_step hy hl (fun x => { x with status := .aborted }) fun _ => rfl).1
        rw [hok] at h4
        dsimp only
        refine h3.trans ?_
        congr 1

theorem linv_reach {tr : Trace} {s : State} (h : machine.Reach tr s) : LInv tr s := by
  refine Machine.Reach.induct (M := machine) (P := fun tr s => LInv tr s) ?_ ?_ h
  · refine ⟨fun r e he => ?_, fun r h => ?_, fun r g o h => ?_, fun _ r h => ?_⟩
    · simp [trackTrace, init] at he
    · cases h
    · simp [trackTrace, init] at h
    · cases h
  · intro tr s op hr i
    have j := inv_reach hr
    have hh := hinv_reach hr
    have hg := trackTrace_grows (step_grows s op)
    change LInv (tr ++ [(op, (step s op).1)]) (step s op).2
    have hclosed : ∀ r run q st, s.runs[r]? = some run → run.encoder = .working q st → ¬ Errored tr r := by
      intro r run q st h1 h2 h3
      have := (hh.run r run h1).errored h3
      rw [h2] at this
      cases this
    have hnew : ∀ r, Errored (tr ++ [(op, (step s op).1)]) r → Errored tr r ∨
        (op = .error r ∧ (step s op).1 = .ok) := by
      intro r h
      rcases (errored_snoc ..).1 h with h | h
      · exact .inl h
      · injection h with h1 h2
        exact .inr ⟨h1, h2⟩
    -- a track of a run that has failed before gets no more groups
    have hstay : ∀ r m, (∀ e ∈ m, Allowed s op (step s op).1 r e.1) → Errored tr r →
        Track.accepted (trackTrace s r ++ m) = Track.accepted (trackTrace s r) := by
      intro r m hm her
      refine accepted_append _ _ fun e he => ⟨fun h => ?_, fun a b c h => ?_⟩
      · have := hm e he
        rw [h] at this
        obtain ⟨run, q, st, h1, h2⟩ := this
        exact hclosed r run q st h1 h2 her
      · have := hm e he
        rw [h] at this
        exact this
    refine ⟨fun r e he => ?_, fun r her => ?_, fun r g o hm => ?_, fun hl r her g hgl => ?_⟩
    · obtain ⟨m, h1, h2⟩ := hg r
      rw [h1] at he
      rcases List.mem_append.1 he with he | he
      · exact (i.why r e he).mono _
      · have ha := h2 e he
        cases hop : e.1 with
        | close =>
          rw [hop] at ha
          obtain ⟨hc, ha⟩ := ha
          refine (stopped_snoc ..).2 (.inr ⟨((current_iff hr r).1 hc).1, ?_⟩)
          rcases ha with ⟨rfl, h⟩ | ⟨rfl, h⟩ | ⟨rfl, k, h⟩
          · exact .inl (by rw [h])
          · exact .inr (.inl (by rw [h]))
          · exact .inr (.inr ⟨k, by rw [h]⟩)
        | abort =>
          rw [hop] at ha
          obtain ⟨rfl, h⟩ := ha
          exact (errored_snoc ..).2 (.inr (by rw [h]))
        | abortGroup g =>
          rw [hop] at ha
          obtain ⟨k, rfl, h, hgr⟩ := ha
          refine (errored_snoc ..).2 (.inr ?_)
          obtain ⟨run, q, st, t, h3, h4, -, -⟩ := error_calls j h
          have hcur := j.state.idle h3 h4
          obtain ⟨_, _, _, _, h5⟩ := j.state.owner hgr
          rw [hcur] at h5
          rw [h, Option.some.inj h5]
        | insert => rw [hop] at ha; exact ha
        | _ => trivial
    · obtain ⟨m, h1, h2⟩ := hg r
      rcases hnew r her with her | ⟨rfl, hok⟩
      · rw [h1]
        exact Serve.ending_keep (i.errored r her)
      · obtain ⟨run, q, st, t, h3, h4, ht, h5⟩ := error_calls j hok
        rw [h5, Track.ending_snoc]
        have hnone : Track.ending (trackTrace s r ++
            (match s.group with | some (_, g) => [(.abortGroup g, .ok)] | none => [])) = none := by
          unfold Track.ending
          rw [List.find?_eq_none]
          intro op hop
          obtain ⟨e, he, rfl⟩ := List.mem_map.1 hop
          rcases List.mem_append.1 he with he | he
          · have := i.why r e he
            have hcur := j.state.idle h3 h4
            rcases e with ⟨op, o⟩
            cases op with
            | close => exact absurd this ((current_iff hr r).1 hcur).2
            | abort => exact absurd this (hclosed r run q st h3 h4)
            | _ => simp
          · split at he
            · rw [List.mem_singleton.1 he]
              simp
            · cases he
        rw [hnone]
        rfl
    · obtain ⟨m, h1, h2⟩ := hg r
      rw [h1] at hm
      rcases List.mem_append.1 hm with hm | hm
      · have her := i.why r _ hm
        rw [h1, hstay r m h2 her]
        exact i.only r g o hm
      · obtain ⟨k, rfl, h, hgr⟩ := h2 _ hm
        obtain ⟨run, q, st, t, h3, h4, ht, -⟩ := error_calls j h
        have hcur := j.state.idle h3 h4
        obtain ⟨_, _, _, _, h5⟩ := j.state.owner hgr
        rw [hcur] at h5
        cases h5
        have hacc : Track.accepted (trackTrace (step s (.error r)).2 r) = Track.accepted (trackTrace s r) := by
          rw [h1]
          refine accepted_append _ _ fun e he => ⟨fun h => ?_, fun a b c h => ?_⟩
          · obtain ⟨run, q, st, t, -, -, -, h7⟩ := error_calls j (r := r) ‹_›
            rw [h1, List.append_assoc] at h7
            have h8 := List.append_cancel_left h7
            rw [h8] at he
            rcases List.mem_append.1 he with he | he
            · split at he
              · rw [List.mem_singleton.1 he] at h; cases h
              · cases he
            · rw [List.mem_singleton.1 he] at h; cases h
          · have := h2 e he
            rw [h] at this
            exact this
        rw [hacc]
        obtain ⟨t', gs, ls, -, x⟩ := j.state.both h3
        rw [x.track.tinv.acc, List.length_range]
        exact x.track.last g (by rw [hgr, own_self])
    · obtain ⟨m, h1, h2⟩ := hg r
      have hl' : ¬ Late tr := fun h => hl (late_mono _ _ h)
      rcases hnew r her with her | ⟨rfl, hok⟩
      · rw [h1, hstay r m h2 her] at hgl
        rw [h1]
        exact List.mem_append_left _ (i.last hl' r her g hgl)
      · obtain ⟨run, q, st, t, h3, h4, ht, h5⟩ := error_calls j hok
        have hacc : Track.accepted (trackTrace (step s (.error r)).2 r) = Track.accepted (trackTrace s r) := by
          rw [h5, List.append_assoc]
          refine accepted_append _ _ fun e he => ?_
          rcases List.mem_append.1 he with he | he
          · split at he
            · rw [List.mem_singleton.1 he]; simp
            · cases he
          · rw [List.mem_singleton.1 he]; simp
        rw [hacc] at hgl
        obtain ⟨t', gs, ls, -, x⟩ := j.state.both h3
        rw [x.track.tinv.acc, List.length_range] at hgl
        have hst : st = true := by
          have hp := x.run.phase
          rw [h4] at hp
          exact hp.2.2.2.2 fun h => by rw [h] at hgl; cases hgl
        rw [hst] at h4
        obtain ⟨g', hgr⟩ := j.keeps hl' r run q h3 h4
        have := x.track.last g' (by rw [hgr, own_self])
        rw [h5, hgr, show g = g' by omega]
        simp

/-! ## The configurations -/

def cfg (s : State) : Option Nat × Option Nat := (s.encoderConfig, s.decoderConfig)

theorem cfg_act (s : State) (r : Nat) (op : Track.Op) : cfg (act s r op) = cfg s := by
  unfold act
  split <;> rfl

theorem cfg_closeGroup (s : State) : cfg (closeGroup s) = cfg s := by
  unfold closeGroup
  split
  · exact cfg_act ..
  · rfl

theorem cfg_abortGroup (s : State) : cfg (abortGroup s) = cfg s := by
  unfold abortGroup
  split
  · exact cfg_act ..
  · rfl

theorem cfg_finish (s : State) (r : Nat) (run : Run) : cfg (finish s r run) = cfg s := by
  unfold finish
  split
  · rfl
  · exact cfg_closeGroup s

theorem cfg_exhaust (s : State) (r : Nat) (run : Run) : cfg (exhaust s r run) = cfg s := by
  unfold exhaust
  split
  · exact cfg_finish ..
  · exact cfg_finish ..
  · rfl

theorem cfg_cleanup (s : State) : cfg (cleanup s) = cfg s := by
  unfold cleanup
  split
  · split
    · exact (cfg_exhaust ..).trans (cfg_act ..)
    · rfl
  · rfl

theorem cfg_write (s : State) (k g : Nat) (c : Input) : cfg (write s k g c).2 = cfg s := by
  unfold write
  split
  · rfl
  · split
    · exact cfg_act ..
    · rfl

theorem cfg_emit (s : State) (r : Nat) (c : Input) : cfg (emit s r c).2 = cfg s := by
  unfold emit
  split
  · dsimp only
    have h1 : cfg (closeGroup { s with timestamp := c.timestamp }) = cfg s := cfg_closeGroup _
    split
    · split
      · exact (cfg_write ..).trans ((cfg_act ..).trans h1)
      · exact (cfg_act ..).trans h1
    · rfl
  · split
    · exact cfg_write ..
    · rfl

theorem cfg_encode (s : State) (r : Nat) (run : Run) (pic : Nat) (ts : Int) :
    cfg (encode s r run pic ts).2 = cfg s := by
  unfold encode
  dsimp only
  split
  · rfl
  · exact cfg_finish ..

theorem cfg_next (s : State) (r : Nat) : cfg (next s r) = cfg s := by
  unfold next
  split
  · split
    · exact cfg_finish ..
    · rfl
  · rfl

/-- What steps do to the configurations. -/
def CfgEff (s : State) (op : Op) (o : Out) (s' : State) : Prop :=
  match op with
  | .start => (o = .invalid ∧ cfg s' = cfg s) ∨ (o ≠ .invalid ∧ cfg s' = (none, none))
  | .config r true => (o = .invalid ∧ cfg s' = cfg s) ∨ (o ≠ .invalid ∧ cfg s' = (some r, s.decoderConfig))
  | .output r _ => (o = .invalid ∧ cfg s' = cfg s) ∨ (o ≠ .invalid ∧ ∃ run q st, s.runs[r]? = some run ∧
      run.encoder = .working q st ∧ cfg s' = (s.encoderConfig, if st then s.decoderConfig else some r))
  | _ => cfg s' = cfg s

theorem step_cfg {tr : Trace} {s : State} (i : Inv tr s) (op : Op) :
    CfgEff s op (step s op).1 (step s op).2 := by
  have hon : ∀ r f, (∀ run, s.runs[r]? = some run → cfg (f run).2 = cfg s) → cfg (onRun s r f).2 = cfg s := by
    intro r f hf
    unfold onRun
    split
    · next h => exact hf _ h
    · rfl
  cases op with
  | start =>
    unfold CfgEff
    dsimp only
    rw [step]
    split
    · exact .inl ⟨rfl, rfl⟩
    · exact .inr ⟨by simp, rfl⟩
  | stop =>
    change cfg _ = _
    rw [step]
    split
    · rfl
    · exact cfg_cleanup s
  | close =>
    change cfg _ = _
    rw [step]
    split
    · rfl
    · exact cfg_cleanup { s with shut := s.shut ++ s.latest.toList }
  | picture r ts =>
    change cfg _ = _
    rw [step]
    refine hon r _ fun run _ => ?_
    unfold picture
    split
    · rfl
    · split
      · rfl
      · exact cfg_encode ..
      · rfl
  | ended r =>
    change cfg _ = _
    rw [step]
    refine hon r _ fun run _ => ?_
    split
    · rfl
    · exact cfg_exhaust ..
  | config r ok =>
    cases ok with
    | false =>
      change cfg _ = _
      rw [step]
      refine hon r _ fun run _ => ?_
      unfold config
      split
      · exact cfg_finish ..
      · rfl
    | true =>
      unfold CfgEff
      dsimp only
      rw [step, onRun]
      split
      · next run hr =>
        unfold config
        dsimp only
        split
        · next pic ts hp =>
          refine .inr ⟨?_, ?_⟩
          · rw [if_pos rfl]
            dsimp only
            unfold encode
            simp
          · rw [if_pos rfl]
            dsimp only
            rw [cfg_next, cfg_encode]
            rfl
        · exact .inl ⟨rfl, rfl⟩
      · exact .inl ⟨rfl, rfl⟩
  | output r c =>
    unfold CfgEff
    dsimp only
    rw [step, onRun]
    split
    · next run hr =>
      unfold output
      dsimp only
      split
      · next q qs st he =>
        split
        · next h =>
          have e := i.emit hr he h.1 h.2 (if st = true then s.decoderConfig else some r)
          refine .inr ⟨?_, run, _, st, hr, he, ?_⟩
          · rcases e.out with ⟨g, h, -⟩ | ⟨h, -⟩ <;> (rw [h]; simp)
          · rw [cfg_emit]
            rfl
        · exact .inl ⟨rfl, rfl⟩
      · exact .inl ⟨rfl, rfl⟩
    · exact .inl ⟨rfl, rfl⟩
  | error r =>
    change cfg _ = _
    rw [step]
    refine hon r _ fun run _ => ?_
    unfold error
    split
    · exact (cfg_act ..).trans (cfg_abortGroup _)
    · rfl
  | track r op =>
    change cfg _ = _
    rw [step]
    split
    · split
      · exact cfg_act ..
      · rfl
    · rfl

structure ConfInv (tr : Trace) (s : State) : Prop where
  dec : ∀ d r, s.decoderConfig = some d → s.current = some r → d = r
  enc : ¬ Late tr → ∀ e r, s.encoderConfig = some e → s.current = some r → e = r
  works : ¬ Late tr → ∀ (r : Nat) run q st, s.runs[r]? = some run → run.encoder = .working q st →
    s.encoderConfig = some r
  puts : ∀ (r : Nat) run q, s.runs[r]? = some run → run.encoder = .working q true → s.decoderConfig = some r
  decs : ∀ r, s.current = some r → chunks tr r ≠ [] → s.decoderConfig = some r
  encs : ¬ Late tr → ∀ r, s.current = some r → chunks tr r ≠ [] → s.encoderConfig = some r

theorem ConfInv.keep {tr : Trace} {s s' : State} {op : Op} {o : Out} (i : ConfInv tr s) (hc : cfg s' = cfg s)
    (hop : ∀ r c, op = .output r c → o = .invalid) (hcur : ∀ r, s'.current = some r → s.current = some r)
    (hr : ∀ (k : Nat) (x' : Run) q st, s'.runs[k]? = some x' → x'.encoder = .working q st →
      ∃ x q', s.runs[k]? = some x ∧ x.encoder = .working q' st) : ConfInv (tr ++ [(op, o)]) s' := by
  injection hc with hc1 hc2
  have hl : ¬ Late (tr ++ [(op, o)]) → ¬ Late tr := fun h h' => h (late_mono tr _ h')
  refine ⟨fun d r h1 h2 => i.dec d r (by rw [← hc2]; exact h1) (hcur r h2),
    fun hn e r h1 h2 => i.enc (hl hn) e r (by rw [← hc1]; exact h1) (hcur r h2),
    fun hn r run q st h1 h2 => ?_, fun r run q h1 h2 => ?_, fun r h1 h2 => ?_, fun hn r h1 h2 => ?_⟩
  · obtain ⟨x, q', h3, h4⟩ := hr r run q st h1 h2
    rw [hc1]
    exact i.works (hl hn) r x q' st h3 h4
  · obtain ⟨x, q', h3, h4⟩ := hr r run q true h1 h2
    rw [hc2]
    exact i.puts r x q' h3 h4
  · rw [chunks_same _ _ _ hop] at h2
    rw [hc2]
    exact i.decs r (hcur r h1) h2
  · rw [chunks_same _ _ _ hop] at h2
    rw [hc1]
    exact i.encs (hl hn) r (hcur r h1) h2

theorem confinv_reach {tr : Trace} {s : State} (h : machine.Reach tr s) : ConfInv tr s := by
  refine Machine.Reach.induct (M := machine) (P := fun tr s => ConfInv tr s) ?_ ?_ h
  · refine ⟨fun d r h => ?_, fun _ e r h => ?_, fun _ r run q st h => ?_, fun r run q h => ?_, fun r h => ?_,
      fun _ r h => ?_⟩ <;> simp [init] at h
  · intro tr s op hr i
    have j := inv_reach hr
    have e := step_eff j op
    have cf := step_cfg j op
    change ConfInv (tr ++ [(op, (step s op).1)]) (step s op).2
    have hreach := hr.step op
    have hci : ∀ r, (step s op).2.current = some r ↔ _ := current_iff hreach
    have hcc := current_iff hr
    generalize step s op = w at e cf hci ⊢
    obtain ⟨o, s'⟩ := w
    dsimp only at e cf hci ⊢
    have hvr : ∀ s : State, (view s).runs = s.runs := fun _ => rfl
    have hvc : ∀ s : State, (view s).current = s.current := fun _ => rfl
    have hidle : ∀ (k : Nat) (x : Run) q st, s.runs[k]? = some x → x.encoder = .working q st →
      s.current = some k := fun k x q st h1 h2 => j.state.idle h1 h2
    generalize hw : view s' = w at e
    have hruns : s'.runs = w.runs := by rw [← hw]; rfl
    have hcurr : s'.current = w.current := by rw [← hw]; rfl
    have lc : ∀ v : View, ∀ r, v.cleanup.current = some r → v.current = some r := by
      intro v r h
      unfold View.cleanup at h
      split at h
      · split at h
        · cases h
        · exact h
      · exact h
    cases e with
    | invalid =>
      have hc : cfg s' = cfg s := by
        unfold CfgEff at cf
        cases op with
        | start => exact cf.elim (·.2) fun h => absurd rfl h.1
        | output r c => exact cf.elim (·.2) fun h => absurd rfl h.1
        | config r ok =>
          cases ok with
          | false => exact cf
          | true => exact cf.elim (·.2) fun h => absurd rfl h.1
        | _ => exact cf
      exact i.keep hc (fun _ _ _ => rfl) (fun r h => by rw [hcurr] at h; exact h) fun k x q st a b =>
        ⟨x, q, by rw [hruns] at a; exact a, b⟩
    | track r op o =>
      exact i.keep cf (fun _ _ h => (by cases h)) (fun r h => by rw [hcurr] at h; exact h) fun k x q st a b =>
        ⟨x, q, by rw [hruns] at a; exact a, b⟩
    | start hc =>
      have l := cleanup_less (view s)
      have hcf : cfg s' = (none, none) := cf.elim (fun h => by cases h.1) (·.2)
      injection hcf with hc1 hc2
      have hlen : (view s).cleanup.runs.length = s.runs.length := l.len
      have hcur' : ∀ r, s'.current = some r → chunks (tr ++ [(.start, .run (view s).cleanup.runs.length)]) r = [] := by
        intro r h
        rw [hcurr] at h
        cases h
        rw [chunks_same _ _ _ fun _ _ h => (by cases h)]
        exact (j.state.fresh _ (by rw [hlen])).1
      have hnw : ∀ (r : Nat) run q st, s'.runs[r]? = some run → run.encoder ≠ .working q st := by
        intro r run q st h1 h2
        have hrr := (inv_reach hreach).state
        rw [hruns] at h1
        dsimp only at h1
        rcases Nat.lt_or_ge r (view s).cleanup.runs.length with h | h
        · rw [List.getElem?_append_left h] at h1
          rw [← view_cleanup] at h1
          have hs := (cleanup_inv j.state).1.idle (s := cleanup s) (r := r) h1 h2
          rw [cleanup_current s fun r hr => by have := j.state.current r hr; omega] at hs
          cases hs
        · rw [List.getElem?_append_right h] at h1
          cases hn : r - (view s).cleanup.runs.length with
          | zero => rw [hn] at h1; cases h1; cases h2
          | succ n => rw [hn] at h1; cases h1
      exact ⟨fun d r h => (by rw [hc2] at h; cases h), fun _ e r h => (by rw [hc1] at h; cases h),
        fun _ r run q st h1 h2 => absurd h2 (hnw r run q st h1), fun r run q h1 h2 => absurd h2 (hnw r run q true h1),
        fun r h1 h2 => absurd (hcur' r h1) h2, fun _ r h1 h2 => absurd (hcur' r h1) h2⟩
    | stop hc =>
      have l := cleanup_less (view s)
      refine i.keep cf (fun _ _ h => (by cases h)) (fun r h => lc _ r (by rw [hcurr] at h; exact h)) fun k x q st a b => ?_
      rw [hruns] at a
      obtain ⟨y, h1, h2⟩ := less_working l k x q st a b
      exact ⟨y, q, h1, h2⟩
    | close hc =>
      have l := cleanup_less { view s with shut := (view s).shut ++ (view s).latest.toList }
      refine i.keep cf (fun _ _ h => (by cases h)) (fun r h => ?_) fun k x q st a b => ?_
      · rw [hcurr] at h
        exact lc { view s with shut := (view s).shut ++ (view s).latest.toList } r h
      · rw [hruns] at a
        obtain ⟨y, h1, h2⟩ := less_working l k x q st a b
        exact ⟨y, q, h1, h2⟩
    | first r ts run hr hd hp =>
      refine i.keep cf (fun _ _ h => (by cases h)) (fun r h => by rw [hcurr] at h; exact h) fun k x q st a b => ?_
      rw [hruns] at a
      rcases put_get hr k x a with ⟨rfl, rfl⟩ | ⟨-, h⟩
      · exact ⟨run, q, hr, b⟩
      · exact ⟨x, q, h, b⟩
    | encode r ts run q st hr hd hp he =>
      refine i.keep cf (fun _ _ h => (by cases h)) (fun r h => by rw [hcurr] at h; exact h) fun k x q' st' a b => ?_
      rw [hruns] at a
      rcases put_get (v := { (view s).given (view s).captured ts with captured := (view s).captured + 1 }) hr k x a
        with ⟨rfl, rfl⟩ | ⟨-, h⟩
      · cases b
        exact ⟨run, q, hr, he⟩
      · exact ⟨x, q', h, b⟩
    | dead r ts run hr hd hp he =>
      refine i.keep cf (fun _ _ h => (by cases h)) (fun r h => by rw [hcurr] at h; exact h) fun k x q st a b => ?_
      rw [hruns] at a
      have l : Less { (view s).given (view s).captured ts with captured := (view s).captured + 1 } _ :=
        finish_less (r := r) (run := run) run hr
      obtain ⟨y, h1, h2⟩ := less_working l k x q st a b
      exact ⟨y, q, h1, h2⟩
    | ended r run hr hd =>
      refine i.keep cf (fun _ _ h => (by cases h)) (fun k h => ?_) fun k x q st a b => ?_
      · rw [hcurr, View.exhaust_current] at h
        exact h
      · rw [hruns] at a
        obtain ⟨y, h1, h2⟩ := less_working (exhaust_less hr) k x q st a b
        exact ⟨y, q, h1, h2⟩
    | threw r pic ts run hr hp he =>
      refine i.keep cf (fun _ _ h => (by cases h)) (fun r h => by rw [hcurr] at h; exact h) fun k x q st a b => ?_
      rw [hruns] at a
      obtain ⟨y, h1, h2⟩ := less_working (finish_less run hr) k x q st a b
      exact ⟨y, q, h1, h2⟩
    | done r pic ts run hr' hp he hd =>
      have hcf : cfg s' = (some r, s.decoderConfig) := cf.elim (fun h => by cases h.1) (·.2)
      injection hcf with hc1 hc2
      have hcur : s'.current = s.current := hcurr
      have hlate : ∀ {o : Out}, o ≠ .invalid → ¬ Late (tr ++ [(.config r true, o)]) → ∀ k, s.current = some k → k = r := by
        intro o ho hn k hk
        refine Classical.byContradiction fun hkr => ?_
        obtain ⟨c1, c2⟩ := j.late_of hr' hk hkr
        exact hn ((late_snoc _ _).2 (.inr ⟨_, _, _, k, rfl, ho, c1, c2⟩))
      have l : Less ((view s).given pic ts) (((view s).given pic ts).finish r run) := finish_less (r := r) (run := run) run hr'
      have hnw : ∀ (k : Nat) x q st, s'.runs[k]? = some x → x.encoder = .working q st →
          ∃ y, s.runs[k]? = some y ∧ y.encoder = .working q st := by
        intro k x q st a b
        rw [hruns] at a
        exact less_working l k x q st a b
      refine ⟨fun d k h1 h2 => i.dec d k (by rw [← hc2]; exact h1) (by rw [← hcur]; exact h2), fun hn e k h1 h2 => ?_,
        fun hn k x q st a b => ?_, fun k x q a b => ?_, fun k h1 h2 => ?_, fun hn k h1 h2 => ?_⟩
      · rw [hc1] at h1
        cases h1
        exact (hlate (by simp) hn k (by rw [← hcur]; exact h2)).symm
      · obtain ⟨y, h1, h2⟩ := hnw k x q st a b
        rw [hc1, hlate (by simp) hn k (hidle k y q st h1 h2)]
      · obtain ⟨y, h1, h2⟩ := hnw k x q true a b
        rw [hc2]
        exact i.puts k y q h1 h2
      · rw [chunks_same _ _ _ fun _ _ h => (by cases h)] at h2
        rw [hc2]
        exact i.decs k (by rw [← hcur]; exact h1) h2
      · rw [hc1, hlate (by simp) hn k (by rw [← hcur]; exact h1)]
    | configured r pic ts run hr' hp he hd =>
      have hcf : cfg s' = (some r, s.decoderConfig) := cf.elim (fun h => by cases h.1) (·.2)
      injection hcf with hc1 hc2
      have hcur : s'.current = s.current := hcurr
      have hlate : ∀ {o : Out}, o ≠ .invalid → ¬ Late (tr ++ [(.config r true, o)]) → ∀ k, s.current = some k → k = r := by
        intro o ho hn k hk
        refine Classical.byContradiction fun hkr => ?_
        obtain ⟨c1, c2⟩ := j.late_of hr' hk hkr
        exact hn ((late_snoc _ _).2 (.inr ⟨_, _, _, k, rfl, ho, c1, c2⟩))
      have hnw : ∀ (k : Nat) x q st, s'.runs[k]? = some x → x.encoder = .working q st → k = r ∧ st = false ∨
          ∃ y, s.runs[k]? = some y ∧ y.encoder = .working q st := by
        intro k x q st a b
        rw [hruns] at a
        rcases put_get (v := (view s).given pic ts) hr' k x a with ⟨rfl, rfl⟩ | ⟨hk, h⟩
        · cases b
          exact .inl ⟨rfl, rfl⟩
        · exact .inr ⟨x, h, b⟩
      refine ⟨fun d k h1 h2 => i.dec d k (by rw [← hc2]; exact h1) (by rw [← hcur]; exact h2), fun hn e k h1 h2 => ?_,
        fun hn k x q st a b => ?_, fun k x q a b => ?_, fun k h1 h2 => ?_, fun hn k h1 h2 => ?_⟩
      · rw [hc1] at h1
        cases h1
        exact (hlate (by simp) hn k (by rw [← hcur]; exact h2)).symm
      · rcases hnw k x q st a b with ⟨rfl, -⟩ | ⟨y, h1, h2⟩
        · exact hc1
        · rw [hc1, hlate (by simp) hn k (hidle k y q st h1 h2)]
      · rcases hnw k x q true a b with ⟨-, h⟩ | ⟨y, h1, h2⟩
        · cases h
        · rw [hc2]
          exact i.puts k y q h1 h2
      · rw [chunks_same _ _ _ fun _ _ h => (by cases h)] at h2
        rw [hc2]
        exact i.decs k (by rw [← hcur]; exact h1) h2
      · rw [hc1, hlate (by simp) hn k (by rw [← hcur]; exact h1)]
    | output r run c q qs st _ hr' he ht hk ho =>
      have hne : o ≠ .invalid := by
        rcases ho with ⟨g, h⟩ | h <;> rw [h] <;> simp
      obtain ⟨run', q', st', h1, h2, hcf⟩ : ∃ run q st, s.runs[r]? = some run ∧
          run.encoder = .working q st ∧ cfg s' = (s.encoderConfig, if st then s.decoderConfig else some r) :=
        cf.elim (fun h => absurd h.1 hne) (·.2)
      have hr2 : s.runs[r]? = some run := hr'
      rw [hr2] at h1
      cases h1
      rw [he] at h2
      cases h2
      injection hcf with hc1 hc2
      have hcur0 := hidle r run _ _ hr' he
      have hcur : s'.current = s.current := hcurr
      have hdec : s'.decoderConfig = some r := by
        rw [hc2]
        cases st with
        | true => exact i.puts r run _ hr' he
        | false => rfl
      have hl : ¬ Late (tr ++ [(.output r c, o)]) → ¬ Late tr := fun h h' => h (late_mono tr _ h')
      have henc : ¬ Late tr → s'.encoderConfig = some r := fun hn => by
        rw [hc1]
        exact i.works hn r run _ _ hr' he
      have hnw : ∀ (k : Nat) x q st, s'.runs[k]? = some x → x.encoder = .working q st → k = r := by
        intro k x q st a b
        rw [hruns] at a
        rcases put_get hr' k x a with ⟨rfl, rfl⟩ | ⟨hk, h⟩
        · rfl
        · have := hidle k x q st h b
          rw [hcur0] at this
          exact (Option.some.inj this).symm
      have hkr : ∀ k, s'.current = some k → k = r := by
        intro k hk
        rw [hcur, hcur0] at hk
        exact (Option.some.inj hk).symm
      refine ⟨fun d k h1 h2 => ?_, fun hn e k h1 h2 => ?_, fun hn k x q st a b => ?_, fun k x q a b => ?_,
        fun k h1 _ => ?_, fun hn k h1 _ => ?_⟩
      · rw [hdec] at h1
        rw [hkr k h2, Option.some.inj h1]
      · rw [henc (hl hn)] at h1
        rw [hkr k h2, Option.some.inj h1]
      · rw [hnw k x q st a b]
        exact henc (hl hn)
      · rw [hnw k x q true a b]
        exact hdec
      · rw [hkr k h1]
        exact hdec
      · rw [hkr k h1]
        exact henc (hl hn)
    | error r run q st hr he =>
      refine i.keep cf (fun _ _ h => (by cases h)) (fun r h => by rw [hcurr] at h; exact h) fun k x q st a b => ?_
      rw [hruns] at a
      rcases put_get hr k x a with ⟨rfl, rfl⟩ | ⟨-, h⟩
      · cases b
      · exact ⟨x, q, h, b⟩

/-! ## Requests of key frames -/

theorem last_step {tr : Trace} {e : Op × Out} {s : State} (h : machine.Reach (tr ++ [e]) s) :
    ∃ s0 op, machine.Reach tr s0 ∧ e = (op, (step s0 op).1) ∧ s = (step s0 op).2 := by
  generalize ht : tr ++ [e] = l at h
  revert ht
  refine Machine.Reach.induct (M := machine) (P := fun l s => tr ++ [e] = l →
    ∃ s0 op, machine.Reach tr s0 ∧ e = (op, (step s0 op).1) ∧ s = (step s0 op).2) ?_ ?_ h
  · intro ht
    simp at ht
  · intro l s op hr _ ht
    obtain ⟨rfl, hx⟩ := List.append_inj' ht rfl
    exact ⟨s, op, hr, List.singleton_inj.1 hx, rfl⟩

/-- As long as no key frame is put out, `#groupTimestamp` does not go back. -/
theorem timestamp_mono {s : State} {a b : Trace} (h : machine.Reach (a ++ b) s)
    (hb : ∀ r c o, (.output r c, o) ∈ b → o ≠ .invalid → c.keyframe = false) :
    ∃ s0, machine.Reach a s0 ∧ s0.timestamp ≤ s.timestamp := by
  generalize ht : a ++ b = tr at h
  refine Machine.Reach.induct (M := machine) (P := fun tr s => ∀ b : Trace,
    (∀ (r : Nat) (c : Input) o, (Op.output r c, o) ∈ b → o ≠ .invalid → c.keyframe = false) → a ++ b = tr →
      ∃ s0, machine.Reach a s0 ∧ s0.timestamp ≤ s.timestamp) ?_ ?_ h b hb ht
  · intro b _ hab
    obtain ⟨rfl, -⟩ := List.append_eq_nil_iff.1 hab
    exact ⟨_, .init, Int.le_refl _⟩
  · intro tr s op hr i b hb hab
    rcases List.eq_nil_or_concat b with rfl | ⟨b', x, rfl⟩
    · rw [List.append_nil] at hab
      subst hab
      exact ⟨_, hr.step op, Int.le_refl _⟩
    · rw [List.concat_eq_append] at hb hab
      rw [← List.append_assoc] at hab
      obtain ⟨rfl, hx⟩ := List.append_inj' hab rfl
      obtain ⟨s0, h1, h2⟩ := i b' (fun r c o ho => hb r c o (List.mem_append_left _ ho)) rfl
      refine ⟨s0, h1, Int.le_trans h2 ?_⟩
      have e := step_eff (inv_reach hr) op
      have hv : ∀ s : State, (view s).timestamp = s.timestamp := fun _ => rfl
      change s.timestamp ≤ (step s op).2.timestamp
      have hx' : x = (op, (step s op).1) := List.singleton_inj.1 hx
      have hb' := fun (r : Nat) (c : Input) o (h : (Op.output r c, o) = x) => hb r c o (List.mem_append_right _ (by rw [h]; simp))
      rw [hx'] at hb'
      rw [← hv, ← hv]
      generalize (step s op).1 = o at e hb'
      generalize view (step s op).2 = w at e
      have hgiven : ∀ (v : View) p ts, v.timestamp ≤ (v.given p ts).timestamp := by
        intro v p ts
        unfold View.given
        dsimp only
        split
        · have : (0 : Int) < GOP := by decide
          omega
        · exact Int.le_refl _
      generalize view s = v at e
      cases e with
      | start hc => exact Int.le_of_eq (cleanup_less v).timestamp.symm
      | stop hc => exact Int.le_of_eq (cleanup_less v).timestamp.symm
      | close hc => exact Int.le_of_eq (cleanup_less { v with shut := v.shut ++ v.latest.toList }).timestamp.symm
      | encode r ts run q st hr hd hp he => exact hgiven v v.captured ts
      | dead r ts run hr hd hp he => exact hgiven v v.captured ts
      | ended r run hr hd => exact Int.le_of_eq (exhaust_less hr).timestamp.symm
      | threw r pic ts run hr hp he => exact Int.le_of_eq (finish_less run hr).timestamp.symm
      | done r pic ts run hr hp he hd => exact hgiven v pic ts
      | configured r pic ts run hr hp he hd => exact hgiven v pic ts
      | output r run c q qs st o hr he ht hk ho =>
        have hne : o ≠ .invalid := by
          rcases ho with ⟨g, h⟩ | h <;> rw [h] <;> simp
        have := hb' r c o rfl hne
        dsimp only
        rw [if_neg (by rw [this]; simp)]
      | _ => exact Int.le_refl _

/-! ## After `close()` -/

/-- Nothing is shown that is open, if no run gets its configuration after `close()`. -/
theorem shut_after {s : State} {a b : Trace} (h : machine.Reach (a ++ (.close, .ok) :: b) s)
    (hb : ∀ r ok o, (.config r ok, o) ∈ b → o = .invalid) (p : Nat) (hp : s.latest = some p) : p ∈ s.shut := by
  generalize ht : a ++ (.close, .ok) :: b = tr at h
  refine Machine.Reach.induct (M := machine) (P := fun tr s => ∀ b : Trace,
    (∀ (r : Nat) (ok : Bool) o, (Op.config r ok, o) ∈ b → o = .invalid) → a ++ (.close, .ok) :: b = tr →
      s.latest = some p → p ∈ s.shut) ?_ ?_ h b hb ht hp
  · intro b _ hab _
    simp at hab
  · intro tr s op hr i b hb hab hp
    change (step s op).2.latest = some p at hp
    change p ∈ (step s op).2.shut
    have j := inv_reach hr
    have e := step_eff j op
    have hv1 : ∀ s : State, (view s).latest = s.latest := fun _ => rfl
    have hv2 : ∀ s : State, (view s).shut = s.shut := fun _ => rfl
    have lc : ∀ v : View, v.cleanup.latest = v.latest ∧ v.cleanup.shut = v.shut := fun v =>
      ⟨(cleanup_less v).latest, (cleanup_less v).shut⟩
    rcases List.eq_nil_or_concat b with rfl | ⟨b', x, rfl⟩
    · obtain ⟨rfl, hx⟩ := List.append_inj' hab rfl
      injection hx with hx
      injection hx with h1 h2
      subst h1
      rw [← hv1] at hp
      rw [← hv2]
      change .ok = (step s .close).1 at h2
      generalize (step s .close).1 = o at e h2
      generalize view (step s .close).2 = w at e hp
      cases e with
      | invalid => cases h2
      | close hc =>
        dsimp only at hp ⊢
        rw [(lc _).1] at hp
        rw [(lc _).2]
        dsimp only at hp ⊢
        rw [hp]
        simp
    · rw [List.concat_eq_append] at hb hab
      rw [← List.cons_append, ← List.append_assoc] at hab
      obtain ⟨rfl, hx⟩ := List.append_inj' hab rfl
      have hx' : x = (op, (step s op).1) := List.singleton_inj.1 hx
      have hb' := fun (r : Nat) (ok : Bool) o (h : (Op.config r ok, o) = x) => hb r ok o
        (List.mem_append_right _ (by rw [h]; simp))
      rw [hx'] at hb'
      have ih := i b' (fun r c o ho => hb r c o (List.mem_append_left _ ho)) rfl
      have hclosed : s.closed = true := j.closed.2 (by unfold Closed; simp)
      have hcur := j.shut hclosed
      have hdone : ∀ (r : Nat) run, s.runs[r]? = some run → run.done = true := by
        intro r run h
        cases hd : run.done with
        | true => rfl
        | false =>
          obtain ⟨t, gs, ls, -, y⟩ := j.state.both h
          have := y.run.going hd
          rw [hcur] at this
          cases this
      have hruns : s.runs = (view s).runs := rfl
      have hcl : s.closed = (view s).closed := rfl
      rw [hruns] at hdone
      rw [hcl] at hclosed
      rw [← hv1] at hp
      rw [← hv2]
      rw [← hv1, ← hv2] at ih
      generalize (step s op).1 = o at e hb'
      generalize view (step s op).2 = w at e hp
      generalize view s = v at e ih hdone hclosed
      cases e with
      | start hc => rw [hclosed] at hc; cases hc
      | stop hc => rw [hclosed] at hc; cases hc
      | close hc => rw [hclosed] at hc; cases hc
      | first r ts run hr hd hp => rw [hdone r run hr] at hd; cases hd
      | encode r ts run q st hr hd hp he => rw [hdone r run hr] at hd; cases hd
      | dead r ts run hr hd hp he => rw [hdone r run hr] at hd; cases hd
      | ended r run hr hd => rw [hdone r run hr] at hd; cases hd
      | threw r pic ts run hr hp he => have := hb' r false _ rfl; cases this
      | done r pic ts run hr hp he hd => have := hb' r true _ rfl; cases this
      | configured r pic ts run hr hp he hd => have := hb' r true _ rfl; cases this
      | _ => exact ih hp

end Verif.Js.Capture
