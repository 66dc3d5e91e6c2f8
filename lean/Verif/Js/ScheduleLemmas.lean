import Verif.Js.Schedule

/-! # Lemmas about the model of the player of samples -/

set_option autoImplicit false

namespace Verif.Js.Schedule

open Verif

theorem clock_snoc (tr : Trace) (op : Op) (o : Out) : clock (tr ++ [(op, o)]) =
    (match op with
    | .tick d => clock tr + d
    | _ => clock tr) := by
  unfold clock
  rw [List.foldl_append]
  rfl

theorem emitted_snoc (tr : Trace) (op : Op) (o : Out) : emitted (tr ++ [(op, o)]) = emitted tr ++
    (match op with
    | .emit t _ _ => [t]
    | _ => []) := by
  unfold emitted
  rw [List.filterMap_append]
  cases op <;> rfl

theorem formats_snoc (tr : Trace) (op : Op) (o : Out) : formats (tr ++ [(op, o)]) = formats tr ++
    (match op with
    | .emit _ _ f => [f]
    | _ => []) := by
  unfold formats
  rw [List.filterMap_append]
  cases op <;> rfl

theorem formats_length (tr : Trace) : (formats tr).length = (emitted tr).length := by
  induction tr with
  | nil => rfl
  | cons e tr ih =>
    obtain ⟨op, o⟩ := e
    unfold formats emitted at ih ⊢
    cases op <;> simp [ih]

theorem scheduled_snoc (tr : Trace) (op : Op) (o : Out) : scheduled (tr ++ [(op, o)]) = scheduled tr ++
    (match o with
    | .scheduled k i w => [(k, i, w)]
    | _ => []) := by
  unfold scheduled
  rw [List.filterMap_append]
  cases o <;> rfl

theorem offset_snoc (tr : Trace) (op : Op) (o : Out) : offset (tr ++ [(op, o)]) =
    (match op, o with
    | .emit t _ _, .scheduled _ _ w => some (t - w)
    | _, _ => offset tr) := by
  unfold offset
  rw [List.foldl_append]
  cases op <;> cases o <;> rfl

theorem over_snoc (tr : Trace) (op : Op) (o : Out) (k : Nat) : Over (tr ++ [(op, o)]) k ↔
    Over tr k ∨ (o ≠ .invalid ∧ op = .ended k) := by
  constructor
  · rintro ⟨o', h, hm⟩
    rcases List.mem_append.mp hm with hm | hm
    · exact .inl ⟨o', h, hm⟩
    · rw [List.mem_singleton, Prod.mk.injEq] at hm
      obtain ⟨rfl, rfl⟩ := hm
      exact .inr ⟨h, rfl⟩
  · rintro (⟨o', h, hm⟩ | ⟨h, rfl⟩)
    · exact ⟨o', h, List.mem_append_left _ hm⟩
    · exact ⟨o, h, by simp⟩

/-! ## Kinds of steps -/

/-- The reference that a sample is scheduled with. -/
def settled (s : State) (t : Int) (max : Nat) : Int :=
  if max < t - reference s t max - s.now then t - s.now - max else reference s t max

/-- The state in which the buffer of a new sample is made. -/
def before (s : State) (t : Int) (max : Nat) : State :=
  if max < t - reference s t max - s.now then
    stopAll { s with
      samples := s.samples + 1
      ref := some (t - s.now - max) }
  else { s with
      samples := s.samples + 1
      ref := some (reference s t max) }

/-- The state after `onended` took note. -/
def noted (s : State) (k : Nat) (n : Node) : State :=
  { s with
    nodes := s.nodes.set k { n with over := true }
    active := s.active.tail }

inductive Kind (s : State) : Op → Out → State → Prop where
  | tick (d : Nat) : Kind s (.tick d) .ok { s with now := s.now + d }
  | dropped (t : Int) (max format : Nat) (r : Int) (hr : s.ref = some r) (h0 : r ≠ 0) (h : t - r < s.now) :
      Kind s (.emit t max format) (.dropped s.samples) { s with samples := s.samples + 1 }
  | emit (t : Int) (max format : Nat) (h : s.now ≤ t - reference s t max) :
      Kind s (.emit t max format)
        (.scheduled s.nodes.length s.samples (t - settled s t max))
        (schedule (createBuffer (before s t max) s.samples format).2
          (createBuffer (before s t max) s.samples format).1 s.samples t (t - settled s t max)).2
  | again (k : Nat) (n : Node) (hk : s.nodes[k]? = some n) (ho : n.over = false)
      (he : n.stopped = true ∨ n.when_ ≤ s.now) (r : Int) (hr : s.ref = some r) (h0 : r ≠ 0)
      (h : s.now < n.timestamp - r) : Kind s (.ended k)
        (.scheduled s.nodes.length n.sample (n.timestamp - r))
        (schedule (noted s k n) n.buffer n.sample n.timestamp (n.timestamp - r)).2
  | done (k : Nat) (n : Node) (hk : s.nodes[k]? = some n) (ho : n.over = false)
      (he : n.stopped = true ∨ n.when_ ≤ s.now)
      (hr : ∀ r, s.ref = some r → r = 0 ∨ n.timestamp - r ≤ s.now) : Kind s (.ended k) .done
        { noted s k n with pool := s.pool ++ [n.buffer] }
  | disable : Kind s .disable .ok (stopAll s)
  | invalid (k : Nat) (h : ∀ n, s.nodes[k]? = some n → n.over = false → n.stopped = false ∧ s.now < n.when_) :
      Kind s (.ended k) .invalid s

theorem stopAll_length (s : State) : (stopAll s).nodes.length = s.nodes.length := by simp [stopAll]

theorem createBuffer_same (s : State) (i f : Nat) : (createBuffer s i f).2.nodes = s.nodes ∧
    (createBuffer s i f).2.now = s.now ∧ (createBuffer s i f).2.ref = s.ref ∧
    (createBuffer s i f).2.active = s.active ∧ (createBuffer s i f).2.samples = s.samples := by
  unfold createBuffer
  split <;> exact ⟨rfl, rfl, rfl, rfl, rfl⟩

theorem before_same (s : State) (t : Int) (max : Nat) : (before s t max).nodes.length = s.nodes.length ∧
    (before s t max).now = s.now ∧ (before s t max).ref = some (settled s t max) ∧
    (before s t max).active = s.active ∧ (before s t max).samples = s.samples + 1 ∧
    (before s t max).buffers = s.buffers ∧ (before s t max).pool = s.pool := by
  unfold before settled
  split
  · exact ⟨stopAll_length _, rfl, rfl, rfl, rfl, rfl, rfl⟩
  · exact ⟨rfl, rfl, rfl, rfl, rfl, rfl, rfl⟩

theorem step_kind (s : State) (op : Op) : Kind s op (step s op).1 (step s op).2 := by
  cases op with
  | tick d => exact .tick d
  | disable => exact .disable
  | ended k =>
    rw [step]
    split
    · next n hk =>
      split
      · next h =>
        unfold ended
        dsimp only
        split
        · next r hr =>
          split
          · next hc =>
            have e : (schedule (noted s k n) n.buffer n.sample n.timestamp (n.timestamp - r)).1 =
                .scheduled s.nodes.length n.sample (n.timestamp - r) := by simp [schedule, noted]
            change Kind s _ (schedule (noted s k n) n.buffer n.sample n.timestamp (n.timestamp - r)).1 _
            rw [e]
            exact .again k n hk h.1 h.2 r hr hc.1 hc.2
          · next hc =>
            refine .done k n hk h.1 h.2 fun r' hr' => ?_
            rw [hr] at hr'
            injection hr' with hr'
            subst hr'
            by_cases h0 : r = 0
            · exact .inl h0
            · exact .inr (Int.not_lt.mp fun hl => hc ⟨h0, hl⟩)
        · next hr => exact .done k n hk h.1 h.2 fun r' hr' => by rw [hr] at hr'; cases hr'
      · next h =>
        refine .invalid k fun m hm ho => ?_
        rw [hk] at hm
        injection hm with hm
        subst hm
        cases hs : n.stopped with
        | true => exact absurd ⟨ho, .inl hs⟩ h
        | false => exact ⟨rfl, Int.not_le.mp fun hl => h ⟨ho, .inr hl⟩⟩
    · next hk => exact .invalid k fun n hn => by rw [hk] at hn; cases hn
  | emit t max format =>
    have hlen : (createBuffer (before s t max) s.samples format).2.nodes.length = s.nodes.length := by
      rw [(createBuffer_same _ _ _).1, (before_same s t max).1]
    by_cases hd : t - reference s t max - s.now < 0
    · have hr : s.ref = some (reference s t max) ∧ reference s t max ≠ 0 := by
        unfold reference at hd ⊢
        cases h : s.ref with
        | none =>
          rw [h] at hd
          dsimp only at hd
          omega
        | some r =>
          rw [h] at hd
          dsimp only at hd ⊢
          split at hd
          · omega
          · next h0 => rw [if_neg h0]; exact ⟨rfl, h0⟩
      have := Kind.dropped (s := s) t max format _ hr.1 hr.2 (by omega)
      rw [show step s (.emit t max format) = emit s t max format from rfl]
      unfold emit
      dsimp only
      rw [if_pos hd]
      have e : ({ s with samples := s.samples + 1, ref := some (reference s t max) } : State) =
          { s with samples := s.samples + 1 } := by rw [← hr.1]
      rw [e]
      exact this
    · have := Kind.emit (s := s) t max format (by omega)
      rw [show step s (.emit t max format) = emit s t max format from rfl]
      by_cases hm : max < t - reference s t max - s.now
      · have hb : before s t max = stopAll { s with
            samples := s.samples + 1
            ref := some (t - s.now - max) } := by unfold before; rw [if_pos hm]
        have hs : settled s t max = t - s.now - max := by unfold settled; rw [if_pos hm]
        have he : emit s t max format = schedule (createBuffer (before s t max) s.samples format).2
            (createBuffer (before s t max) s.samples format).1 s.samples t (t - settled s t max) := by
          unfold emit
          dsimp only
          rw [if_neg hd, if_pos hm, hb, hs]
          congr 1
          rw [(createBuffer_same _ _ _).2.1]
          simp only [stopAll]
          omega
        rw [he]
        rw [← hlen] at this
        exact this
      · have hb : before s t max = { s with
            samples := s.samples + 1
            ref := some (reference s t max) } := by unfold before; rw [if_neg hm]
        have hs : settled s t max = reference s t max := by unfold settled; rw [if_neg hm]
        have he : emit s t max format = schedule (createBuffer (before s t max) s.samples format).2
            (createBuffer (before s t max) s.samples format).1 s.samples t (t - settled s t max) := by
          unfold emit
          dsimp only
          rw [if_neg hd, if_neg hm, hb, hs]
        rw [he]
        rw [← hlen] at this
        exact this

/-! ## Histories -/

/-- Two lists of nodes differ at most in who was stopped. -/
def Alike (l l' : List Node) : Prop :=
  ∀ k : Nat, (l[k]?).map (fun n => (n.buffer, n.sample, n.timestamp, n.when_, n.over)) =
    (l'[k]?).map (fun n => (n.buffer, n.sample, n.timestamp, n.when_, n.over))

theorem stopAll_alike (s : State) : Alike (stopAll s).nodes s.nodes := by
  intro k
  unfold stopAll
  dsimp only
  rw [List.getElem?_mapIdx]
  cases s.nodes[k]? with
  | none => rfl
  | some n =>
    simp only [Option.map_some]
    split <;> rfl

theorem before_alike (s : State) (t : Int) (max : Nat) : Alike (before s t max).nodes s.nodes := by
  unfold before
  split
  · exact stopAll_alike { s with samples := s.samples + 1, ref := some (t - s.now - max) }
  · exact fun _ => rfl

theorem Alike.get {l l' : List Node} (h : Alike l l') {k : Nat} {n : Node} (hn : l[k]? = some n) :
    ∃ n', l'[k]? = some n' ∧ n'.buffer = n.buffer ∧ n'.sample = n.sample ∧ n'.timestamp = n.timestamp ∧
      n'.when_ = n.when_ ∧ n'.over = n.over := by
  have := h k
  rw [hn] at this
  cases hx : l'[k]? with
  | none => rw [hx] at this; cases this
  | some n' =>
    rw [hx] at this
    simp only [Option.map_some, Option.some.injEq, Prod.mk.injEq] at this
    exact ⟨n', rfl, this.1.symm, this.2.1.symm, this.2.2.1.symm, this.2.2.2.1.symm, this.2.2.2.2.symm⟩

structure TInv (tr : Trace) (s : State) : Prop where
  clock : clock tr = s.now
  ref : offset tr = s.ref
  samples : (emitted tr).length = s.samples
  len : (scheduled tr).length = s.nodes.length
  node : ∀ (k : Nat) n, s.nodes[k]? = some n → (scheduled tr)[k]? = some (k, n.sample, n.when_) ∧
    (emitted tr)[n.sample]? = some n.timestamp ∧ (n.over = true ↔ Over tr k)
  none : ∀ k, s.nodes.length ≤ k → ¬ Over tr k

/-- A step that neither starts nor ends a node. -/
theorem TInv.same {tr : Trace} {s s' : State} {op : Op} {o : Out} (i : TInv tr s)
    (hc : Schedule.clock (tr ++ [(op, o)]) = s'.now) (hr : s'.ref = s.ref)
    (hs : (emitted (tr ++ [(op, o)])).length = s'.samples) (hn : Alike s'.nodes s.nodes)
    (hl : s'.nodes.length = s.nodes.length) (ho : ∀ k i w, o ≠ .scheduled k i w)
    (hop : o = .invalid ∨ ∀ k, op ≠ .ended k) : TInv (tr ++ [(op, o)]) s' := by
  have hsch : scheduled (tr ++ [(op, o)]) = scheduled tr := by
    rw [scheduled_snoc]
    cases o with
    | scheduled k i w => exact absurd rfl (ho k i w)
    | _ => simp
  have hov : ∀ k, Over (tr ++ [(op, o)]) k ↔ Over tr k := by
    intro k
    rw [over_snoc]
    exact ⟨fun h => h.elim id fun h => hop.elim (fun h' => absurd h' h.1) fun h' => absurd h.2 (h' k), .inl⟩
  refine ⟨hc, ?_, hs, by rw [hsch, hl]; exact i.len, ?_, fun k hk => by rw [hov]; exact i.none k (by omega)⟩
  · rw [offset_snoc, hr, ← i.ref]
    cases op with
    | emit t m f =>
      cases o with
      | scheduled k i w => exact absurd rfl (ho k i w)
      | _ => rfl
    | _ => rfl
  · intro k n hk
    obtain ⟨n', h1, -, h3, h4, h5, h6⟩ := hn.get hk
    obtain ⟨h7, h8, h9⟩ := i.node k n' h1
    rw [hsch, hov, ← h3, ← h5, ← h6]
    refine ⟨h7, ?_, h9⟩
    rw [emitted_snoc, ← h4, List.getElem?_append_left (List.getElem?_eq_some_iff.mp h8).1]
    exact h8

theorem tinv_step {tr : Trace} {s s' : State} {op : Op} {o : Out} (i : TInv tr s) (k : Kind s op o s') :
    TInv (tr ++ [(op, o)]) s' := by
  cases k with
  | tick d =>
    exact i.same (by rw [clock_snoc, ← i.clock]) rfl (by rw [emitted_snoc]; simpa using i.samples)
      (fun _ => rfl) rfl (by simp) (.inr (by simp))
  | dropped t max format r hr h0 h =>
    exact i.same (by rw [clock_snoc, ← i.clock]) rfl (by rw [emitted_snoc]; simpa using i.samples)
      (fun _ => rfl) rfl (by simp) (.inr (by simp))
  | disable =>
    exact i.same (by rw [clock_snoc, i.clock]; rfl) rfl (by rw [emitted_snoc, List.append_nil]; exact i.samples)
      (stopAll_alike s) (stopAll_length s) (by simp) (.inr (by simp))
  | invalid j h =>
    exact i.same (by rw [clock_snoc, ← i.clock]) rfl (by rw [emitted_snoc]; simpa using i.samples)
      (fun _ => rfl) rfl (by simp) (.inl rfl)
  | done j n hk ho he hr =>
    have hj := (List.getElem?_eq_some_iff.mp hk).1
    have hsch : scheduled (tr ++ [(.ended j, .done)]) = scheduled tr := by rw [scheduled_snoc]; simp
    have hem : emitted (tr ++ [(.ended j, .done)]) = emitted tr := by rw [emitted_snoc]; simp
    refine ⟨by rw [clock_snoc]; exact i.clock, by rw [offset_snoc]; exact i.ref, by rw [hem]; exact i.samples,
      by rw [hsch]; simp [noted, i.len], ?_, ?_⟩
    · intro k m hm
      dsimp only [noted] at hm
      rw [hsch, hem, over_snoc]
      by_cases hjk : j = k
      · subst hjk
        rw [List.getElem?_set_self hj] at hm
        injection hm with hm
        subst hm
        obtain ⟨h1, h2, h3⟩ := i.node j n hk
        exact ⟨h1, h2, by simp⟩
      · rw [List.getElem?_set_ne hjk] at hm
        obtain ⟨h1, h2, h3⟩ := i.node k m hm
        refine ⟨h1, h2, h3.trans ⟨.inl, fun h => h.resolve_right fun h => hjk ?_⟩⟩
        injection h.2
    · intro k hk'
      rw [over_snoc]
      simp only [noted, List.length_set] at hk'
      rintro (h | ⟨-, h⟩)
      · exact i.none k hk' h
      · injection h with h
        omega
  | emit t max format h =>
    have hl : (before s t max).nodes.length = s.nodes.length := (before_same s t max).1
    have hcb := createBuffer_same (before s t max) s.samples format
    have hem : emitted (tr ++ [(.emit t max format, .scheduled s.nodes.length s.samples (t - settled s t max))]) =
        emitted tr ++ [t] := by rw [emitted_snoc]
    have hsch : scheduled (tr ++ [(.emit t max format, .scheduled s.nodes.length s.samples (t - settled s t max))]) =
        scheduled tr ++ [(s.nodes.length, s.samples, t - settled s t max)] := by rw [scheduled_snoc]
    have hov : ∀ k, Over (tr ++ [(.emit t max format,
        .scheduled s.nodes.length s.samples (t - settled s t max))]) k ↔ Over tr k := by
      intro k
      rw [over_snoc]
      simp
    unfold schedule
    dsimp only
    refine ⟨?_, ?_, ?_, ?_, ?_, ?_⟩
    · rw [clock_snoc, i.clock, hcb.2.1, (before_same s t max).2.1]
    · rw [offset_snoc, hcb.2.2.1, (before_same s t max).2.2.1]
      dsimp only
      congr 1
      omega
    · rw [hem, hcb.2.2.2.2, (before_same s t max).2.2.2.2.1, List.length_append, i.samples]
      rfl
    · rw [hsch, hcb.1, List.length_append, List.length_append, hl, i.len]
      rfl
    · intro k m hm
      dsimp only at hm
      rw [hcb.1] at hm
      rw [hsch, hem, hov]
      by_cases hk : k < s.nodes.length
      · rw [List.getElem?_append_left (by omega)] at hm
        obtain ⟨m', h1, -, h3, h4, h5, h6⟩ := (before_alike s t max).get hm
        obtain ⟨h7, h8, h9⟩ := i.node k m' h1
        rw [List.getElem?_append_left (by rw [i.len]; exact hk), ← h3, ← h5, ← h4, ← h6,
          List.getElem?_append_left (List.getElem?_eq_some_iff.mp h8).1]
        exact ⟨h7, h8, h9⟩
      · have hk' : k = s.nodes.length := by
          have := (List.getElem?_eq_some_iff.mp hm).1
          rw [List.length_append, hl, List.length_singleton] at this
          omega
        subst hk'
        rw [← hl, List.getElem?_concat_length] at hm
        injection hm with hm
        subst hm
        refine ⟨?_, ?_, ?_⟩
        · rw [← i.len, List.getElem?_concat_length]
        · rw [← i.samples, List.getElem?_concat_length]
        · refine ⟨fun h => (by cases h), fun h => absurd h (i.none _ (Nat.le_refl _))⟩
    · intro k hk
      rw [hov]
      rw [hcb.1, List.length_append, hl] at hk
      exact i.none k (by simp at hk; omega)
  | again j n hk ho he r hr h0 h =>
    have hj := (List.getElem?_eq_some_iff.mp hk).1
    obtain ⟨hn1, hn2, hn3⟩ := i.node j n hk
    have hem : emitted (tr ++ [(.ended j, .scheduled s.nodes.length n.sample (n.timestamp - r))]) = emitted tr := by
      rw [emitted_snoc]; simp
    have hsch : scheduled (tr ++ [(.ended j, .scheduled s.nodes.length n.sample (n.timestamp - r))]) =
        scheduled tr ++ [(s.nodes.length, n.sample, n.timestamp - r)] := by rw [scheduled_snoc]
    unfold schedule
    dsimp only [noted]
    refine ⟨by rw [clock_snoc]; exact i.clock, by rw [offset_snoc]; exact i.ref, by rw [hem]; exact i.samples, ?_, ?_, ?_⟩
    · rw [hsch]
      simp [i.len]
    · intro k m hm
      rw [hsch, hem, over_snoc]
      dsimp only at hm
      by_cases hk' : k < s.nodes.length
      · rw [List.getElem?_append_left (by simpa using hk')] at hm
        rw [List.getElem?_append_left (by rw [i.len]; exact hk')]
        by_cases hjk : j = k
        · subst hjk
          rw [List.getElem?_set_self hj] at hm
          injection hm with hm
          subst hm
          exact ⟨hn1, hn2, by simp⟩
        · rw [List.getElem?_set_ne hjk] at hm
          obtain ⟨h1, h2, h3⟩ := i.node k m hm
          refine ⟨h1, h2, h3.trans ⟨.inl, fun h => h.resolve_right fun h => hjk ?_⟩⟩
          injection h.2
      · have hke : k = s.nodes.length := by
          have := (List.getElem?_eq_some_iff.mp hm).1
          simp at this
          omega
        subst hke
        have : (s.nodes.set j { n with over := true } ++
            [(⟨n.buffer, n.sample, n.timestamp, n.timestamp - r, false, false⟩ : Node)])[s.nodes.length]? =
            some ⟨n.buffer, n.sample, n.timestamp, n.timestamp - r, false, false⟩ := by
          rw [List.getElem?_append_right (by simp)]
          simp
        rw [this] at hm
        injection hm with hm
        subst hm
        refine ⟨?_, hn2, ?_⟩
        · rw [← i.len, List.getElem?_concat_length]
        · refine ⟨fun h => (by cases h), ?_⟩
          rintro (h | ⟨-, h⟩)
          · exact absurd h (i.none _ (Nat.le_refl _))
          · injection h with h
            omega
    · intro k hk'
      simp at hk'
      rw [over_snoc]
      rintro (h | ⟨-, h⟩)
      · exact i.none k (by omega) h
      · injection h with h
        omega

theorem tinv_reach {tr : Trace} {s : State} (h : machine.Reach tr s) : TInv tr s := by
  refine Machine.Reach.induct (M := machine) (P := fun tr s => TInv tr s) ?_ ?_ h
  · exact ⟨rfl, rfl, rfl, rfl, fun k n h => (by cases h), fun k _ ⟨_, _, h⟩ => (by cases h)⟩
  · intro tr s op _ i
    exact tinv_step i (step_kind s op)

/-! ## Buffers -/

/-- A buffer is used by one node at a time, or in the pool; and has the sample of the node. -/
structure BInv (s : State) : Prop where
  uniq : ∀ (j k : Nat) n m, s.nodes[j]? = some n → s.nodes[k]? = some m → n.over = false → m.over = false →
    n.buffer = m.buffer → j = k
  free : ∀ (k : Nat) n, s.nodes[k]? = some n → n.over = false → n.buffer ∉ s.pool
  sample : ∀ (k : Nat) n, s.nodes[k]? = some n → n.over = false → (s.buffers[n.buffer]?).map (·.2) = some n.sample
  nodup : s.pool.Nodup
  bound : ∀ b ∈ s.pool, b < s.buffers.length

theorem BInv.same {s s' : State} (i : BInv s) (hn : Alike s'.nodes s.nodes) (hb : s'.buffers = s.buffers)
    (hp : s'.pool = s.pool) : BInv s' := by
  refine ⟨?_, ?_, ?_, by rw [hp]; exact i.nodup, by rw [hp, hb]; exact i.bound⟩
  · intro j k n m hj hk h1 h2 h3
    obtain ⟨n', hj', a1, -, -, -, a2⟩ := hn.get hj
    obtain ⟨m', hk', b1, -, -, -, b2⟩ := hn.get hk
    exact i.uniq j k n' m' hj' hk' (by rw [a2, h1]) (by rw [b2, h2]) (by rw [a1, b1, h3])
  · intro k n hk h1
    obtain ⟨n', hk', a1, -, -, -, a2⟩ := hn.get hk
    rw [hp, ← a1]
    exact i.free k n' hk' (by rw [a2, h1])
  · intro k n hk h1
    obtain ⟨n', hk', a1, a3, -, -, a2⟩ := hn.get hk
    rw [hb, ← a1, ← a3]
    exact i.sample k n' hk' (by rw [a2, h1])

theorem reuse_spec (buffers : List (Nat × Nat)) (f : Nat) (pool : List Nat) :
    (∀ b p, reuse buffers f pool = (some b, p) → (b :: p).Sublist pool ∧
      (buffers[b]?).map (·.1) = some f) ∧
    (∀ p, reuse buffers f pool = (none, p) → p = []) := by
  induction pool with
  | nil => exact ⟨fun b p h => (by cases h), fun p h => by injection h with _ h; exact h.symm⟩
  | cons x pool ih =>
    rw [reuse]
    split
    · next hf =>
      refine ⟨fun b p h => ?_, fun p h => (by cases h)⟩
      injection h with h1 h2
      injection h1 with h1
      subst h1 h2
      exact ⟨List.Sublist.refl _, hf⟩
    · exact ⟨fun b p h => ⟨(ih.1 b p h).1.cons _, (ih.1 b p h).2⟩, ih.2⟩

/-- What `createBuffer` gives: a buffer that no node uses, with the sample. -/
theorem createBuffer_spec {s : State} (i : BInv s) (x f : Nat) :
    let b := (createBuffer s x f).1
    let s' := (createBuffer s x f).2
    BInv s' ∧ (∀ (k : Nat) n, s.nodes[k]? = some n → n.over = false → n.buffer ≠ b) ∧ b ∉ s'.pool ∧
    (s'.buffers[b]?).map (·.2) = some x := by
  obtain ⟨h1, h2⟩ := reuse_spec s.buffers f s.pool
  have hlt : ∀ (k : Nat) n, s.nodes[k]? = some n → n.over = false → n.buffer < s.buffers.length := by
    intro k n hk ho
    have := i.sample k n hk ho
    cases hx : s.buffers[n.buffer]? with
    | none => rw [hx] at this; cases this
    | some y => exact (List.getElem?_eq_some_iff.mp hx).1
  unfold createBuffer
  split
  · next b p hr =>
    have hs := (h1 b p hr).1
    have hb := hs.subset List.mem_cons_self
    have hnd := i.nodup.sublist hs
    rw [List.nodup_cons] at hnd
    have hne : ∀ (k : Nat) n, s.nodes[k]? = some n → n.over = false → n.buffer ≠ b :=
      fun k n hk ho e => i.free k n hk ho (e ▸ hb)
    refine ⟨⟨i.uniq, fun k n hk ho h => i.free k n hk ho (hs.subset (List.mem_cons_of_mem _ h)), ?_, hnd.2, ?_⟩,
      hne, hnd.1, ?_⟩
    · intro k n hk ho
      dsimp only
      rw [List.getElem?_modify_ne _ _ (fun e => hne k n hk ho e.symm)]
      exact i.sample k n hk ho
    · intro c hc
      dsimp only
      rw [List.length_modify]
      exact i.bound c (hs.subset (List.mem_cons_of_mem _ hc))
    · dsimp only
      rw [List.getElem?_modify_eq, List.getElem?_eq_getElem (i.bound b hb)]
      rfl
  · next p hr =>
    have hp := h2 p hr
    subst hp
    refine ⟨⟨i.uniq, by simp, ?_, by simp, by simp⟩, fun k n hk ho e => ?_, by simp, by simp⟩
    · intro k n hk ho
      dsimp only
      rw [List.getElem?_append_left (hlt k n hk ho)]
      exact i.sample k n hk ho
    · have := hlt k n hk ho
      dsimp only at e
      omega

/-- A further node, with a buffer that no other one uses. -/
theorem BInv.schedule {s : State} (i : BInv s) (b x : Nat) (t w : Int)
    (h1 : ∀ (k : Nat) n, s.nodes[k]? = some n → n.over = false → n.buffer ≠ b) (h2 : b ∉ s.pool)
    (h3 : (s.buffers[b]?).map (·.2) = some x) : BInv (schedule s b x t w).2 := by
  have new : ∀ (k : Nat) n, (s.nodes ++ [(⟨b, x, t, w, false, false⟩ : Node)])[k]? = some n →
      s.nodes[k]? = some n ∨ (k = s.nodes.length ∧ n = ⟨b, x, t, w, false, false⟩) := by
    intro k n hk
    by_cases h : k < s.nodes.length
    · rw [List.getElem?_append_left h] at hk
      exact .inl hk
    · have hlt := (List.getElem?_eq_some_iff.mp hk).1
      simp at hlt
      have : k = s.nodes.length := by omega
      subst this
      rw [List.getElem?_concat_length] at hk
      injection hk with hk
      exact .inr ⟨rfl, hk.symm⟩
  unfold Schedule.schedule
  dsimp only
  refine ⟨?_, ?_, ?_, i.nodup, i.bound⟩
  · intro j k n m hj hk a1 a2 a3
    rcases new j n hj with hj | ⟨hj, rfl⟩ <;> rcases new k m hk with hk | ⟨hk, rfl⟩
    · exact i.uniq j k n m hj hk a1 a2 a3
    · exact absurd a3 (h1 j n hj a1)
    · exact absurd a3.symm (h1 k m hk a2)
    · omega
  · intro k n hk ho
    rcases new k n hk with hk | ⟨hk, rfl⟩
    · exact i.free k n hk ho
    · exact h2
  · intro k n hk ho
    rcases new k n hk with hk | ⟨hk, rfl⟩
    · exact i.sample k n hk ho
    · exact h3

/-- A node is over. -/
theorem BInv.noted {s : State} (i : BInv s) (k : Nat) (n : Node) (hk : s.nodes[k]? = some n) (ho : n.over = false) :
    BInv (noted s k n) ∧
    (∀ (j : Nat) m, (noted s k n).nodes[j]? = some m → m.over = false → s.nodes[j]? = some m ∧ m.buffer ≠ n.buffer) := by
  have hlt := (List.getElem?_eq_some_iff.mp hk).1
  have old : ∀ (j : Nat) m, (Schedule.noted s k n).nodes[j]? = some m → m.over = false → s.nodes[j]? = some m ∧ j ≠ k := by
    intro j m hj hm
    dsimp only [Schedule.noted] at hj
    by_cases hjk : k = j
    · subst hjk
      rw [List.getElem?_set_self hlt] at hj
      injection hj with hj
      rw [← hj] at hm
      cases hm
    · rw [List.getElem?_set_ne hjk] at hj
      exact ⟨hj, fun e => hjk e.symm⟩
  refine ⟨⟨fun a b x y ha hb h1 h2 h3 => i.uniq a b x y (old a x ha h1).1 (old b y hb h2).1 h1 h2 h3,
    fun a x ha h1 => i.free a x (old a x ha h1).1 h1, fun a x ha h1 => i.sample a x (old a x ha h1).1 h1,
    i.nodup, i.bound⟩, fun j m hj hm => ⟨(old j m hj hm).1, fun e => ?_⟩⟩
  exact (old j m hj hm).2 (i.uniq j k m n (old j m hj hm).1 hk hm ho e)

theorem binv_step {s s' : State} {op : Op} {o : Out} (i : BInv s) (k : Kind s op o s') : BInv s' := by
  cases k with
  | tick d => exact i.same (fun _ => rfl) rfl rfl
  | dropped t max format r hr h0 h => exact i.same (fun _ => rfl) rfl rfl
  | disable => exact i.same (stopAll_alike s) rfl rfl
  | invalid j h => exact i
  | done j n hk ho he hr =>
    obtain ⟨h1, h2⟩ := i.noted j n hk ho
    have hb : n.buffer < s.buffers.length := by
      have := i.sample j n hk ho
      cases hx : s.buffers[n.buffer]? with
      | none => rw [hx] at this; cases this
      | some y => exact (List.getElem?_eq_some_iff.mp hx).1
    refine ⟨h1.uniq, ?_, h1.sample, ?_, ?_⟩
    · intro a x ha hx
      rw [List.mem_append, List.mem_singleton]
      rintro (h | h)
      · exact i.free a x (h2 a x ha hx).1 hx h
      · exact (h2 a x ha hx).2 h
    · rw [List.nodup_append]
      refine ⟨i.nodup, by simp, ?_⟩
      rintro a ha b hb rfl
      rw [List.mem_singleton.mp hb] at ha
      exact i.free j n hk ho ha
    · intro b hb'
      rcases List.mem_append.mp hb' with h | h
      · exact i.bound b h
      · rw [List.mem_singleton.mp h]
        exact hb
  | again j n hk ho he r hr h0 h =>
    obtain ⟨h1, h2⟩ := i.noted j n hk ho
    exact h1.schedule _ _ _ _ (fun a x ha hx => (h2 a x ha hx).2) (i.free j n hk ho) (i.sample j n hk ho)
  | emit t max format h =>
    have ib : BInv (before s t max) :=
      i.same (before_alike s t max) (before_same s t max).2.2.2.2.2.1 (before_same s t max).2.2.2.2.2.2
    obtain ⟨h1, h2, h3, h4⟩ := createBuffer_spec ib s.samples format
    refine h1.schedule _ _ _ _ ?_ h3 h4
    rw [(createBuffer_same _ _ _).1]
    exact h2

theorem binv_reach {tr : Trace} {s : State} (h : machine.Reach tr s) : BInv s := by
  refine Machine.Reach.induct (M := machine) (P := fun _ s => BInv s) ?_ ?_ h
  · exact ⟨fun j k n m h => (by cases h), fun k n h => (by cases h), fun k n h => (by cases h), List.nodup_nil,
      fun b h => (by cases h)⟩
  · intro tr s op _ i
    exact binv_step i (step_kind s op)

/-! ## Formats -/

/-- The sample in a buffer has the format of the buffer. -/
def FInv (tr : Trace) (s : State) : Prop :=
  (formats tr).length = s.samples ∧ ∀ (b f x : Nat), s.buffers[b]? = some (f, x) → (formats tr)[x]? = some f

theorem FInv.same {tr : Trace} {s s' : State} {op : Op} {o : Out} (i : FInv tr s) (hb : s'.buffers = s.buffers)
    (hs : (formats (tr ++ [(op, o)])).length = s'.samples) : FInv (tr ++ [(op, o)]) s' := by
  refine ⟨hs, fun b f x h => ?_⟩
  rw [hb] at h
  have := i.2 b f x h
  rw [formats_snoc, List.getElem?_append_left (List.getElem?_eq_some_iff.mp this).1, this]

theorem finv_step {tr : Trace} {s s' : State} {op : Op} {o : Out} (i : FInv tr s) (k : Kind s op o s') :
    FInv (tr ++ [(op, o)]) s' := by
  have h0 : ∀ op o, (∀ t m f, op ≠ .emit t m f) → (formats (tr ++ [(op, o)])).length = s.samples := by
    intro op o h
    rw [formats_snoc, List.length_append, i.1]
    cases op with
    | emit t m f => exact absurd rfl (h t m f)
    | _ => rfl
  cases k with
  | tick d => exact i.same rfl (h0 _ _ (by simp))
  | dropped t max format r hr h0 h =>
    refine i.same rfl ?_
    rw [formats_snoc, List.length_append, i.1]
    rfl
  | disable => exact i.same rfl (h0 _ _ (by simp))
  | invalid j h => exact i.same rfl (h0 _ _ (by simp))
  | done j n hk ho he hr => exact i.same rfl (h0 _ _ (by simp))
  | again j n hk ho he r hr h1 h => exact i.same rfl (h0 _ _ (by simp))
  | emit t max format h =>
    have hf : ∀ o, formats (tr ++ [(.emit t max format, o)]) = formats tr ++ [format] := fun o => by rw [formats_snoc]
    have hlast : (formats tr ++ [format])[s.samples]? = some format := by rw [← i.1, List.getElem?_concat_length]
    have hbuf : (before s t max).buffers = s.buffers := (before_same s t max).2.2.2.2.2.1
    unfold FInv
    rw [hf]
    refine ⟨?_, fun b f x hb => ?_⟩
    · change _ = (createBuffer (before s t max) s.samples format).2.samples
      rw [(createBuffer_same _ _ _).2.2.2.2, (before_same s t max).2.2.2.2.1, List.length_append, i.1]
      rfl
    · change (createBuffer (before s t max) s.samples format).2.buffers[b]? = some (f, x) at hb
      have old : s.buffers[b]? = some (f, x) → (formats tr ++ [format])[x]? = some f := by
        intro h
        have := i.2 b f x h
        rw [List.getElem?_append_left (List.getElem?_eq_some_iff.mp this).1, this]
      unfold createBuffer at hb
      split at hb
      · next c p hr =>
        have hfc := ((reuse_spec _ _ _).1 c p hr).2
        rw [hbuf] at hfc
        dsimp only at hb
        rw [hbuf] at hb
        by_cases hbc : c = b
        · subst hbc
          rw [List.getElem?_modify_eq] at hb
          cases hx : s.buffers[c]? with
          | none => rw [hx] at hb; cases hb
          | some y =>
            rw [hx] at hb hfc
            injection hb with hb
            injection hb with h1 h2
            injection hfc with hfc
            dsimp only at hfc
            rw [← h2, ← h1, hfc]
            exact hlast
        · rw [List.getElem?_modify_ne _ _ hbc] at hb
          exact old hb
      · next p hr =>
        dsimp only at hb
        rw [hbuf] at hb
        by_cases hlt : b < s.buffers.length
        · rw [List.getElem?_append_left hlt] at hb
          exact old hb
        · have hl := (List.getElem?_eq_some_iff.mp hb).1
          simp at hl
          have hbe : b = s.buffers.length := by omega
          subst hbe
          rw [List.getElem?_concat_length] at hb
          injection hb with hb
          injection hb with h1 h2
          rw [← h1, ← h2]
          exact hlast

theorem finv_reach {tr : Trace} {s : State} (h : machine.Reach tr s) : FInv tr s := by
  refine Machine.Reach.induct (M := machine) (P := fun tr s => FInv tr s) ?_ ?_ h
  · exact ⟨rfl, fun b f x h => (by cases h)⟩
  · intro tr s op _ i
    exact finv_step i (step_kind s op)

/-! ## The list of active nodes -/

/-- Nodes end in the order in which they were started. -/
def InOrder (tr : Trace) : Prop :=
  ∀ pre k o post, tr = pre ++ (.ended k, o) :: post → o ≠ .invalid → ∀ j < k, Over pre j

theorem inOrder_init {tr : Trace} {e : Op × Out} (h : InOrder (tr ++ [e])) : InOrder tr :=
  fun pre k o post he => h pre k o (post ++ [e]) (by rw [he]; simp)

/-- The active nodes are the last ones, and not over; the others are. -/
def AInv (s : State) : Prop :=
  ∃ m, m ≤ s.nodes.length ∧ s.active = List.range' m (s.nodes.length - m) ∧
    ∀ (k : Nat) n, s.nodes[k]? = some n → (n.over = true ↔ k < m)

theorem AInv.same {s s' : State} (i : AInv s) (hn : Alike s'.nodes s.nodes) (hl : s'.nodes.length = s.nodes.length)
    (ha : s'.active = s.active) : AInv s' := by
  obtain ⟨m, h1, h2, h3⟩ := i
  refine ⟨m, by rw [hl]; exact h1, by rw [ha, hl]; exact h2, fun k n hk => ?_⟩
  obtain ⟨n', hk', -, -, -, -, a2⟩ := hn.get hk
  rw [← a2]
  exact h3 k n' hk'

theorem AInv.schedule {s : State} (i : AInv s) (b x : Nat) (t w : Int) : AInv (schedule s b x t w).2 := by
  obtain ⟨m, h1, h2, h3⟩ := i
  unfold Schedule.schedule
  dsimp only
  refine ⟨m, by simp; omega, ?_, ?_⟩
  · rw [h2, List.length_append, List.length_singleton, show s.nodes.length + 1 - m = (s.nodes.length - m) + 1 by omega,
      List.range'_concat, show m + 1 * (s.nodes.length - m) = s.nodes.length by omega]
  · intro k n hk
    dsimp only at hk
    by_cases h : k < s.nodes.length
    · rw [List.getElem?_append_left h] at hk
      exact h3 k n hk
    · have hlt := (List.getElem?_eq_some_iff.mp hk).1
      simp at hlt
      have : k = s.nodes.length := by omega
      subst this
      rw [List.getElem?_concat_length] at hk
      injection hk with hk
      subst hk
      refine ⟨fun h => (by cases h), fun h => by omega⟩

theorem AInv.noted {tr : Trace} {s : State} (i : AInv s) (it : TInv tr s) (k : Nat) (n : Node)
    (hk : s.nodes[k]? = some n) (ho : n.over = false) (hf : ∀ j < k, Over tr j) : AInv (noted s k n) := by
  obtain ⟨m, h1, h2, h3⟩ := i
  have hlt := (List.getElem?_eq_some_iff.mp hk).1
  have hge : m ≤ k := Nat.not_lt.mp fun h => by
    have := (h3 k n hk).mpr h
    rw [ho] at this
    cases this
  have hle : k ≤ m := by
    apply Nat.not_lt.mp
    intro h
    have hm : s.nodes[m]? = some s.nodes[m] := List.getElem?_eq_getElem (by omega)
    have := (h3 m _ hm).mp ((it.node m _ hm).2.2.mpr (hf m h))
    omega
  have e : k = m := by omega
  subst e
  unfold Schedule.noted
  refine ⟨k + 1, by simp; omega, ?_, ?_⟩
  · dsimp only
    rw [h2, List.length_set, show s.nodes.length - k = (s.nodes.length - (k + 1)) + 1 by omega, List.range'_succ,
      List.tail_cons]
  · intro j x hj
    dsimp only at hj
    by_cases hjk : k = j
    · subst hjk
      rw [List.getElem?_set_self hlt] at hj
      injection hj with hj
      subst hj
      simp
    · rw [List.getElem?_set_ne hjk] at hj
      rw [h3 j x hj]
      omega

theorem ainv_step {tr : Trace} {s s' : State} {op : Op} {o : Out} (i : AInv s) (it : TInv tr s) (k : Kind s op o s')
    (hf : ∀ k, op = .ended k → o ≠ .invalid → ∀ j < k, Over tr j) : AInv s' := by
  cases k with
  | tick d => exact i.same (fun _ => rfl) rfl rfl
  | dropped t max format r hr h0 h => exact i.same (fun _ => rfl) rfl rfl
  | disable => exact i.same (stopAll_alike s) (stopAll_length s) rfl
  | invalid j h => exact i
  | done j n hk ho he hr => exact (i.noted it j n hk ho (hf j rfl (by simp))).same (fun _ => rfl) rfl rfl
  | again j n hk ho he r hr h0 h => exact (i.noted it j n hk ho (hf j rfl (by simp))).schedule _ _ _ _
  | emit t max format h =>
    refine AInv.schedule ?_ _ _ _ _
    refine i.same ?_ ?_ ?_
    · rw [(createBuffer_same _ _ _).1]
      exact before_alike s t max
    · rw [(createBuffer_same _ _ _).1]
      exact (before_same s t max).1
    · rw [(createBuffer_same _ _ _).2.2.2.1]
      exact (before_same s t max).2.2.2.1

theorem ainv_reach {tr : Trace} {s : State} (h : machine.Reach tr s) (hf : InOrder tr) : AInv s := by
  refine Machine.Reach.induct (M := machine) (P := fun tr s => InOrder tr → AInv s) ?_ ?_ h hf
  · exact fun _ => ⟨0, Nat.le_refl _, rfl, fun k n h => (by cases h)⟩
  · intro tr s op hr i hf
    refine ainv_step (i (inOrder_init hf)) (tinv_reach hr) (step_kind s op) ?_
    rintro k rfl ho
    exact hf tr k _ [] rfl ho

end Verif.Js.Schedule
