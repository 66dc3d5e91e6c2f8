import Verif.Js.Unused

/-!
# Invariants of the count of consumers in the browser
-/

set_option autoImplicit false

namespace Verif.Js.Unused

open Verif

theorem open_snoc (tr : Trace) (op : Op) (o : Out) (c : Nat) : Open (tr ++ [(op, o)]) c ↔
    ((.consume, .handle c) ∈ tr ∨ (op = .consume ∧ o = .handle c)) ∧
    ((.closeHandle c, .ok) ∉ tr ∧ ¬ (op = .closeHandle c ∧ o = .ok)) := by
  unfold Open
  simp only [List.mem_append, List.mem_singleton, Prod.mk.injEq, not_or]
  constructor
  · rintro ⟨h1, h2, h3⟩
    exact ⟨h1.imp_right fun h => ⟨h.1.symm, h.2.symm⟩, h2, fun h => h3 ⟨h.1.symm, h.2.symm⟩⟩
  · rintro ⟨h1, h2, h3⟩
    exact ⟨h1.imp_right fun h => ⟨h.1.symm, h.2.symm⟩, h2, fun h => h3 ⟨h.1.symm, h.2.symm⟩⟩

theorem called_snoc (tr : Trace) (op : Op) (o : Out) (k : Nat) : Called (tr ++ [(op, o)]) k ↔
    Called tr k ∨ (op = .unused ∧ o = .call k) := by
  unfold Called
  simp only [List.mem_append, List.mem_singleton, Prod.mk.injEq]
  exact or_congr_right ⟨fun h => ⟨h.1.symm, h.2.symm⟩, fun h => ⟨h.1.symm, h.2.symm⟩⟩

theorem ended_snoc (tr : Trace) (op : Op) (o : Out) : Ended (tr ++ [(op, o)]) ↔
    Ended tr ∨ (o = .ok ∧ (op = .close ∨ op = .abort)) := by
  unfold Ended
  simp only [List.mem_append, List.mem_singleton, Prod.mk.injEq]
  constructor
  · rintro ((h | h) | (h | h))
    · exact .inl (.inl h)
    · exact .inr ⟨h.2.symm, .inl h.1.symm⟩
    · exact .inl (.inr h)
    · exact .inr ⟨h.2.symm, .inr h.1.symm⟩
  · rintro ((h | h) | ⟨h, h' | h'⟩)
    · exact .inl (.inl h)
    · exact .inr (.inl h)
    · exact .inl (.inr ⟨h'.symm, h.symm⟩)
    · exact .inr (.inr ⟨h'.symm, h.symm⟩)

theorem free_mono {tr : Trace} {k : Nat} (h : Free tr k) (e : Op × Out) : Free (tr ++ [e]) k := by
  obtain ⟨now, later, rfl, h1, h2⟩ := h
  exact ⟨now, later ++ [e], by simp, h1, h2⟩

theorem free_snoc {tr : Trace} {e : Op × Out} {k : Nat} (h : Free (tr ++ [e]) k) :
    Free tr k ∨ (Called (tr ++ [e]) k ∧ ∀ c, ¬ Open (tr ++ [e]) c) := by
  obtain ⟨now, later, ht, h1, h2⟩ := h
  rcases List.eq_nil_or_concat later with rfl | ⟨later', x, rfl⟩
  · rw [List.append_nil] at ht
    rw [ht]
    exact .inr ⟨h1, h2⟩
  · rw [List.concat_eq_append, ← List.append_assoc] at ht
    have := List.append_inj_left' ht rfl
    exact .inl ⟨now, later', this, h1, h2⟩

theorem endedSince_snoc {tr : Trace} {op : Op} {o : Out} {k : Nat}
    (h : EndedSince (tr ++ [(op, o)]) k) :
    EndedSince tr k ∨ (Called tr k ∧ o = .ok ∧ (op = .close ∨ op = .abort)) := by
  obtain ⟨before, op', after, ht, h1, h2⟩ := h
  rcases List.eq_nil_or_concat after with rfl | ⟨after', x, rfl⟩
  · obtain ⟨e1, e2⟩ := List.append_inj' ht rfl
    simp only [List.cons.injEq, Prod.mk.injEq, and_true] at e2
    obtain ⟨rfl, rfl⟩ := e2
    rw [e1]
    exact .inr ⟨h1, rfl, h2⟩
  · rw [List.concat_eq_append, ← List.cons_append, ← List.append_assoc] at ht
    have := List.append_inj_left' ht rfl
    exact .inl ⟨before, op', after', this, h1, h2⟩

theorem Tidy.init {tr : Trace} {e : Op × Out} (h : Tidy (tr ++ [e])) : Tidy tr := by
  intro c
  have := h c
  rw [List.count_append] at this
  omega

/-! ## What holds without assumptions -/

/-- The promise with this number. -/
def State.at? (s : State) (g : Nat) : Promise := s.promises[g]?.getD .pending

structure Base (tr : Trace) (s : State) : Prop where
  pos : 0 < s.promises.length
  calls : ∀ k, Called tr k ↔ k < s.calls.length
  gens : ∀ (k g : Nat), s.calls[k]? = some g → g < s.promises.length
  made : ∀ c, (.consume, .handle c) ∈ tr ↔ c < s.handles.length
  shut : ∀ c, (.closeHandle c, .ok) ∈ tr ↔ s.handles[c]? = some true

theorem settle_length (ps : List Promise) (to : Promise) : (settle ps to).length = ps.length := by
  unfold settle
  rw [List.length_modify]

theorem base_reach {tr : Trace} {s : State} (h : machine.Reach tr s) : Base tr s := by
  refine Machine.Reach.induct (M := machine) (P := Base) ?_ ?_ h
  · exact ⟨by simp [init], fun k => by simp [init, Called], fun k g hk => by simp [init] at hk,
      fun c => by simp [init], fun c => by simp [init]⟩
  · intro tr s op _ i
    show Base (tr ++ [(op, (step s op).1)]) (step s op).2
    have hpos := i.pos
    have keep : ∀ (op : Op) (o : Out) (s' : State), s.promises.length ≤ s'.promises.length →
        s'.calls = s.calls → s'.handles = s.handles → op ≠ .unused → op ≠ .consume →
        (∀ c, ¬ (op = .closeHandle c ∧ o = .ok)) → Base (tr ++ [(op, o)]) s' := by
      intro op o s' h1 h2 h3 n1 n2 n3
      refine ⟨by omega, ?_, ?_, ?_, ?_⟩
      · intro k
        rw [called_snoc, h2]
        simp only [n1, false_and, or_false]
        exact i.calls k
      · intro k g hk
        rw [h2] at hk
        have := i.gens k g hk
        omega
      · intro c
        rw [h3, ← i.made]
        simp only [List.mem_append, List.mem_singleton, Prod.mk.injEq, or_iff_left_iff_imp]
        exact fun x => absurd x.1.symm n2
      · intro c
        rw [h3, ← i.shut]
        simp only [List.mem_append, List.mem_singleton, Prod.mk.injEq, or_iff_left_iff_imp]
        intro x
        exact absurd ⟨x.1.symm, x.2.symm⟩ (n3 c)
    cases op with
    | consume =>
      rw [step]
      refine ⟨?_, ?_, ?_, ?_, ?_⟩
      · dsimp only
        split <;> (try rw [List.length_append]) <;> omega
      · intro k
        rw [called_snoc]
        simpa using i.calls k
      · intro k g hk
        have := i.gens k g hk
        dsimp only
        split <;> (try rw [List.length_append]) <;> omega
      · intro c
        simp only [List.mem_append, List.mem_singleton, Prod.mk.injEq, true_and, Out.handle.injEq,
          List.length_append, List.length_cons, List.length_nil, i.made]
        omega
      · intro c
        simp only [List.mem_append, List.mem_singleton, Prod.mk.injEq, reduceCtorEq, false_and,
          or_false, i.shut]
        rcases Nat.lt_trichotomy c s.handles.length with hlt | rfl | hgt
        · rw [List.getElem?_append_left hlt]
        · simp
        · rw [List.getElem?_eq_none (by omega), List.getElem?_eq_none (by simp; omega)]
    | closeHandle c =>
      rw [step]
      by_cases hc : c < s.handles.length
      · rw [if_pos hc]
        refine ⟨?_, ?_, ?_, ?_, ?_⟩
        · dsimp only
          split <;> (try rw [settle_length]) <;> omega
        · intro k
          rw [called_snoc]
          simpa using i.calls k
        · intro k g hk
          have := i.gens k g hk
          dsimp only
          split <;> (try rw [settle_length]) <;> omega
        · intro d
          simp [i.made]
        · intro d
          simp only [List.mem_append, List.mem_singleton, Prod.mk.injEq, Op.closeHandle.injEq, and_true,
            i.shut]
          by_cases hd : d = c
          · subst hd
            simp [List.getElem?_set_self hc]
          · rw [List.getElem?_set_ne (fun e => hd e.symm)]
            simp [hd]
      · rw [if_neg hc]
        exact keep _ _ _ (Nat.le_refl _) rfl rfl (by simp) (by simp) (by simp)
    | close =>
      rw [step]
      exact keep _ _ _ (by simp [settle_length]) rfl rfl (by simp) (by simp) (by simp)
    | abort =>
      rw [step]
      exact keep _ _ _ (by simp [settle_length]) rfl rfl (by simp) (by simp) (by simp)
    | unused =>
      rw [step]
      refine ⟨hpos, ?_, ?_, ?_, ?_⟩
      · intro k
        rw [called_snoc, i.calls]
        simp only [true_and, Out.call.injEq, List.length_append, List.length_cons, List.length_nil]
        omega
      · intro k g hk
        dsimp only at hk ⊢
        rcases Nat.lt_trichotomy k s.calls.length with hlt | rfl | hgt
        · rw [List.getElem?_append_left hlt] at hk
          exact i.gens k g hk
        · simp only [List.getElem?_concat_length, Option.some.injEq] at hk
          omega
        · rw [List.getElem?_eq_none (by simp; omega)] at hk
          cases hk
      · intro c
        simp [i.made]
      · intro c
        simp [i.shut]
    | poll k =>
      rw [step]
      cases hk : s.calls[k]? <;>
        exact keep _ _ _ (Nat.le_refl _) rfl rfl (by simp) (by simp) (by simp)

/-! ## With tidy consumers -/

/-- The consumers that are open. -/
def State.opens (s : State) : Nat := s.handles.countP (· = false)

structure Inv (tr : Trace) (s : State) : Prop where
  count : s.consumers = s.opens
  old : ∀ g, g + 1 < s.promises.length → s.at? g ≠ .pending
  zero : s.opens = 0 → s.at? (s.promises.length - 1) ≠ .pending
  early : s.at? (s.promises.length - 1) ≠ .pending → s.opens = 0 ∨ Ended tr
  sound : ∀ (k g : Nat), s.calls[k]? = some g → s.at? g ≠ .pending → Free tr k ∨ Ended tr
  complete : ∀ (k g : Nat), s.calls[k]? = some g → Free tr k ∨ EndedSince tr k → s.at? g ≠ .pending

theorem opens_zero {tr : Trace} {s : State} (b : Base tr s) :
    s.opens = 0 ↔ ∀ c, ¬ Open tr c := by
  unfold State.opens Open
  rw [List.countP_eq_zero]
  constructor
  · rintro h c ⟨h1, h2⟩
    rw [b.made] at h1
    have := h (s.handles[c]) (List.getElem_mem h1)
    have ht : s.handles[c] = true := by simpa using this
    exact h2 ((b.shut c).mpr (by rw [List.getElem?_eq_getElem h1, ht]))
  · intro h x hx
    obtain ⟨c, hc, rfl⟩ := List.mem_iff_getElem.mp hx
    have hs : (.closeHandle c, .ok) ∈ tr := Classical.byContradiction fun hn =>
      h c ⟨(b.made c).mpr hc, hn⟩
    rw [b.shut, List.getElem?_eq_getElem hc] at hs
    simp only [Option.some.injEq] at hs
    simp [hs]

theorem settle_at (s : State) (hpos : 0 < s.promises.length) (to : Promise) (g : Nat) :
    ({ s with promises := settle s.promises to } : State).at? g =
      if g = s.promises.length - 1 then (s.at? g).settle to else s.at? g := by
  unfold State.at? settle
  dsimp only
  rw [List.getElem?_modify]
  by_cases hg : g = s.promises.length - 1
  · rw [if_pos hg]
    have hlt : g < s.promises.length := by omega
    rw [List.getElem?_eq_getElem hlt]
    simp [hg]
  · rw [if_neg hg]
    have : ¬ s.promises.length - 1 = g := fun e => hg e.symm
    cases s.promises[g]? <;> simp [this]

theorem settle_ne (p to : Promise) (h : to ≠ .pending) : p.settle to ≠ .pending := by
  cases p <;> simp [Promise.settle, h]

theorem inv_reach {tr : Trace} {s : State} (h : machine.Reach tr s) : Tidy tr → Inv tr s := by
  refine Machine.Reach.induct (M := machine) (P := fun tr s => Tidy tr → Inv tr s) ?_ ?_ h
  · intro _
    exact ⟨rfl, fun g hg => by simp [init] at hg, fun _ => by simp [init, State.at?],
      fun _ => .inl rfl, fun k g hk => by simp [init] at hk, fun k g hk => by simp [init] at hk⟩
  · intro tr s op hr ih ht
    have i := ih ht.init
    have b := base_reach hr
    have b' := base_reach (Machine.Reach.step (M := machine) op hr)
    show Inv (tr ++ [(op, (step s op).1)]) (step s op).2
    have b'' : Base (tr ++ [(op, (step s op).1)]) (step s op).2 := b'
    have hpos := b.pos
    -- a step after which the current promise is settled
    have done : ∀ (o : Out) (to : Promise) (s' : State), to ≠ .pending →
        s'.promises = settle s.promises to → s'.calls = s.calls → s'.consumers = s'.opens →
        (Ended (tr ++ [(op, o)]) ∨ s'.opens = 0) → Base (tr ++ [(op, o)]) s' →
        Inv (tr ++ [(op, o)]) s' := by
      intro o to s' hto hp hc hn he hb
      have hat : ∀ g, s'.at? g = if g = s.promises.length - 1 then (s.at? g).settle to else s.at? g := by
        intro g
        rw [← settle_at s hpos to g]
        unfold State.at?
        rw [hp]
      have hlen : s'.promises.length = s.promises.length := by rw [hp, settle_length]
      have hall : ∀ g, g < s.promises.length → s'.at? g ≠ .pending := by
        intro g hg
        rw [hat]
        by_cases hgl : g = s.promises.length - 1
        · rw [if_pos hgl]
          exact settle_ne _ _ hto
        · rw [if_neg hgl]
          exact i.old g (by omega)
      have hfree : ∀ k g : Nat, s.calls[k]? = some g →
          Free (tr ++ [(op, o)]) k ∨ Ended (tr ++ [(op, o)]) := by
        intro k g hk
        rcases he with he | he
        · exact .inr he
        · refine .inl ⟨tr ++ [(op, o)], [], by simp, ?_, (opens_zero hb).mp he⟩
          rw [hb.calls, hc]
          exact (List.getElem?_eq_some_iff.mp hk).1
      refine ⟨hn, ?_, ?_, ?_, ?_, ?_⟩
      · intro g hg
        exact hall g (by omega)
      · intro _
        rw [hlen]
        exact hall _ (by omega)
      · intro _
        exact he.symm
      · intro k g hk _
        rw [hc] at hk
        exact hfree k g hk
      · intro k g hk _
        rw [hc] at hk
        exact hall g (b.gens k g hk)
    -- a step that changes no promise and no consumer
    have quiet : ∀ (o : Out) (s' : State), s'.promises = s.promises → s'.calls = s.calls →
        s'.handles = s.handles → s'.consumers = s.consumers →
        Base (tr ++ [(op, o)]) s' → ¬ (o = .ok ∧ (op = .close ∨ op = .abort)) →
        Inv (tr ++ [(op, o)]) s' := by
      intro o s' hp hc hh hn hb hnot
      have hat : ∀ g, s'.at? g = s.at? g := fun g => by unfold State.at?; rw [hp]
      have hop : s'.opens = s.opens := by unfold State.opens; rw [hh]
      have hend : Ended tr → Ended (tr ++ [(op, o)]) := fun h => (ended_snoc tr op o).mpr (.inl h)
      refine ⟨by rw [hn, hop]; exact i.count, ?_, ?_, ?_, ?_, ?_⟩
      · intro g hg
        rw [hat]
        exact i.old g (by rw [hp] at hg; exact hg)
      · rw [hop, hat, hp]
        exact i.zero
      · rw [hop, hat, hp]
        exact fun h => (i.early h).imp_right hend
      · intro k g hk hg
        rw [hat] at hg
        rw [hc] at hk
        exact (i.sound k g hk hg).imp (free_mono · _) hend
      · intro k g hk hx
        rw [hat]
        rw [hc] at hk
        rcases hx with hx | hx
        · rcases free_snoc hx with hx | ⟨-, hx⟩
          · exact i.complete k g hk (.inl hx)
          · have hz := (opens_zero hb).mpr hx
            rw [hop] at hz
            have hg := b.gens k g hk
            by_cases hgl : g = s.promises.length - 1
            · rw [hgl]
              exact i.zero hz
            · exact i.old g (by omega)
        · rcases endedSince_snoc hx with hx | ⟨-, hx⟩
          · exact i.complete k g hk (.inr hx)
          · exact absurd hx hnot
    cases op with
    | consume =>
      rw [step] at b'' ⊢
      have hopens : ({ s with
          promises := if s.consumers = 0 then s.promises ++ [.pending] else s.promises
          consumers := s.consumers + 1
          handles := s.handles ++ [false] } : State).opens = s.opens + 1 := by
        simp [State.opens]
      have hend : ∀ o, Ended tr → Ended (tr ++ [(.consume, o)]) := fun o h =>
        (ended_snoc tr _ o).mpr (.inl h)
      have hno : ∀ {k}, Free (tr ++ [(.consume, .handle s.handles.length)]) k →
          Free tr k := by
        intro k hx
        rcases free_snoc hx with hx | ⟨-, hx⟩
        · exact hx
        · refine absurd ?_ (hx s.handles.length)
          rw [open_snoc]
          refine ⟨.inr ⟨rfl, rfl⟩, fun hm => ?_, by simp⟩
          rw [b.shut, List.getElem?_eq_none (Nat.le_refl _)] at hm
          cases hm
      have hno2 : ∀ {k}, EndedSince (tr ++ [(.consume, .handle s.handles.length)]) k →
          EndedSince tr k := by
        intro k hx
        rcases endedSince_snoc hx with hx | ⟨-, hx, -⟩
        · exact hx
        · cases hx
      refine ⟨?_, ?_, ?_, ?_, ?_, ?_⟩
      · rw [hopens]
        dsimp only
        rw [i.count]
        simp
      · intro g hg
        unfold State.at?
        dsimp only at hg ⊢
        by_cases hz : s.consumers = 0
        · rw [if_pos hz] at hg ⊢
          rw [List.length_append, List.length_cons, List.length_nil] at hg
          rw [List.getElem?_append_left (by omega)]
          by_cases hgl : g = s.promises.length - 1
          · have := i.zero (by have := i.count; omega)
            rw [hgl]
            exact this
          · exact i.old g (by omega)
        · rw [if_neg hz] at hg ⊢
          exact i.old g hg
      · rw [hopens]
        intro h
        omega
      · rw [hopens]
        intro hp
        right
        unfold State.at? at hp
        dsimp only at hp
        by_cases hz : s.consumers = 0
        · rw [if_pos hz] at hp
          simp at hp
        · rw [if_neg hz] at hp
          refine hend _ ((i.early hp).resolve_left ?_)
          have := i.count
          omega
      · intro k g hk hp
        have hg := b.gens k g hk
        have : s.at? g ≠ .pending := by
          unfold State.at? at hp ⊢
          dsimp only at hp
          split at hp
          · rwa [List.getElem?_append_left hg] at hp
          · exact hp
        exact (i.sound k g hk this).imp (free_mono · _) (hend _)
      · intro k g hk hx
        have hg := b.gens k g hk
        have := i.complete k g hk (hx.imp hno hno2)
        unfold State.at? at this ⊢
        dsimp only
        split
        · rwa [List.getElem?_append_left hg]
        · exact this
    | closeHandle c =>
      rw [step] at b'' ⊢
      by_cases hc : c < s.handles.length
      · rw [if_pos hc] at b'' ⊢
        have hopen : s.handles[c] = false := by
          cases hh : s.handles[c] with
          | false => rfl
          | true =>
            have hm : (.closeHandle c, .ok) ∈ tr := (b.shut c).mpr (by
              rw [List.getElem?_eq_getElem hc, hh])
            have e : (machine.step s (.closeHandle c)).1 = .ok := by simp [step, hc]
            have h2 := ht c
            rw [e, List.count_append] at h2
            have h3 : 0 < tr.count (.closeHandle c, .ok) := List.count_pos_iff.mpr hm
            simp at h2
            omega
        have hcount : (s.handles.set c true).countP (· = false) + 1 = s.handles.countP (· = false) := by
          rw [List.countP_set hc]
          have : 0 < s.handles.countP (· = false) :=
            List.countP_pos_iff.mpr ⟨s.handles[c], List.getElem_mem hc, by simp [hopen]⟩
          rw [if_pos (by simp [hopen]), if_neg (by simp)]
          omega
        have hn : s.consumers - 1 = ((s.handles.set c true).countP (· = false) : Nat) := by
          have := i.count
          unfold State.opens at this
          omega
        by_cases hz : s.consumers - 1 = 0
        · rw [if_pos hz] at b'' ⊢
          refine done .ok .resolved _ (by simp) rfl rfl ?_ (.inr ?_) b''
          · exact hn
          · show (s.handles.set c true).countP (· = false) = 0
            omega
        · rw [if_neg hz] at b'' ⊢
          have hpos' : 0 < (s.handles.set c true).countP (· = false) := by omega
          have hend : Ended tr → Ended (tr ++ [(.closeHandle c, .ok)]) := fun h =>
            (ended_snoc tr _ _).mpr (.inl h)
          refine ⟨hn, i.old, ?_, ?_, ?_, ?_⟩
          · intro hz'
            unfold State.opens at hz'
            dsimp only at hz'
            omega
          · intro hp
            refine .inr (hend ((i.early hp).resolve_left ?_))
            unfold State.opens
            omega
          · intro k g hk hp
            exact (i.sound k g hk hp).imp (free_mono · _) hend
          · intro k g hk hx
            refine i.complete k g hk ?_
            rcases hx with hx | hx
            · rcases free_snoc hx with hx | ⟨-, hx⟩
              · exact .inl hx
              · have hz' := (opens_zero b'').mpr hx
                unfold State.opens at hz'
                dsimp only at hz'
                omega
            · rcases endedSince_snoc hx with hx | ⟨-, -, hx⟩
              · exact .inr hx
              · simp at hx
      · rw [if_neg hc] at b'' ⊢
        exact quiet _ _ rfl rfl rfl rfl b'' (by simp)
    | close =>
      rw [step] at b'' ⊢
      exact done .ok .resolved _ (by simp) rfl rfl i.count
        (.inl ((ended_snoc tr _ _).mpr (.inr ⟨rfl, .inl rfl⟩))) b''
    | abort =>
      rw [step] at b'' ⊢
      exact done .ok .rejected _ (by simp) rfl rfl i.count
        (.inl ((ended_snoc tr _ _).mpr (.inr ⟨rfl, .inr rfl⟩))) b''
    | unused =>
      rw [step] at b'' ⊢
      have hend : ∀ o, Ended tr → Ended (tr ++ [(.unused, o)]) := fun o h =>
        (ended_snoc tr _ o).mpr (.inl h)
      have hlook : ∀ (k g : Nat), (s.calls ++ [s.promises.length - 1])[k]? = some g →
          s.calls[k]? = some g ∨ (k = s.calls.length ∧ g = s.promises.length - 1) := by
        intro k g hk
        rcases Nat.lt_trichotomy k s.calls.length with hlt | rfl | hgt
        · rw [List.getElem?_append_left hlt] at hk
          exact .inl hk
        · simp only [List.getElem?_concat_length, Option.some.injEq] at hk
          exact .inr ⟨rfl, hk.symm⟩
        · rw [List.getElem?_eq_none (by simp; omega)] at hk
          cases hk
      refine ⟨i.count, i.old, i.zero, fun hp => (i.early hp).imp_right (hend _), ?_, ?_⟩
      · intro k g hk hp
        rcases hlook k g hk with hk | ⟨rfl, rfl⟩
        · exact (i.sound k g hk hp).imp (free_mono · _) (hend _)
        · rcases i.early hp with hz | he
          · refine .inl ⟨_, [], (List.append_nil _).symm, ?_, (opens_zero b'').mp hz⟩
            rw [called_snoc]
            exact .inr ⟨rfl, rfl⟩
          · exact .inr (hend _ he)
      · intro k g hk hx
        have hz : ∀ k, Called (tr ++ [(.unused, .call s.calls.length)]) k →
            (∀ c, ¬ Open (tr ++ [(.unused, .call s.calls.length)]) c) →
            ∀ g, g < s.promises.length → s.at? g ≠ .pending := by
          intro k _ hx g hg
          have hz' : s.opens = 0 := (opens_zero b'').mpr hx
          by_cases hgl : g = s.promises.length - 1
          · rw [hgl]
            exact i.zero hz'
          · exact i.old g (by omega)
        have hg : g < s.promises.length := b''.gens k g hk
        rcases hx with hx | hx
        · rcases free_snoc hx with hx | ⟨h1, h2⟩
          · rcases hlook k g hk with hk | ⟨rfl, rfl⟩
            · exact i.complete k g hk (.inl hx)
            · obtain ⟨now, later, rfl, hcall, -⟩ := hx
              have : Called (now ++ later) s.calls.length := List.mem_append_left _ hcall
              rw [b.calls] at this
              omega
          · exact hz k h1 h2 g hg
        · rcases endedSince_snoc hx with hx | ⟨-, hx, -⟩
          · rcases hlook k g hk with hk | ⟨rfl, rfl⟩
            · exact i.complete k g hk (.inr hx)
            · obtain ⟨before, op, after, rfl, hcall, -⟩ := hx
              have : Called (before ++ (op, .ok) :: after) s.calls.length :=
                List.mem_append_left _ hcall
              rw [b.calls] at this
              omega
          · cases hx
    | poll k =>
      rw [step] at b'' ⊢
      cases hk : s.calls[k]? with
      | none =>
        rw [hk] at b''
        exact quiet _ _ rfl rfl rfl rfl b'' (by simp)
      | some g =>
        rw [hk] at b''
        exact quiet _ _ rfl rfl rfl rfl b'' (by simp)

end Verif.Js.Unused
