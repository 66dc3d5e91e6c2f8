import Verif.Session.RequestsSpec
import Verif.Model.BroadcastLemmas
import Verif.Model.OriginLemmas

/-!
# Lemmas about subscribe requests
-/

set_option autoImplicit false

namespace Verif.Session.Requests

open Verif Verif.Session Verif.Session.Requests.Spec Verif.Message Verif.Coding

/-- The operation can make a track. -/
def makes : Model.Broadcast.Op → Bool
  | .newTrack _ | .create _ _ | .subscribe _ _ => true
  | _ => false

/-- The operation returned track `t`. -/
def gives (t : Nat) : Model.Broadcast.Out → Bool
  | .track r => r.id == t
  | _ => false

theorem gives_iff {t : Nat} {o : Model.Broadcast.Out} :
    gives t o = true ↔ ∃ r, o = .track r ∧ r.id = t := by
  cases o <;> simp [gives]

open Model.Broadcast in
/-- Either no track is made and only tracks that exist are returned, or one is. -/
theorem grow_cases {tr : Model.Broadcast.Spec.Trace} {s : Model.Broadcast.State}
    (h : Model.Broadcast.machine.Reach tr s) (op : Model.Broadcast.Op) :
    ((Model.Broadcast.step s op).2.tracks.length = s.tracks.length ∧
      (makes op = true → ∀ r, (Model.Broadcast.step s op).1 = .track r → r.id < s.tracks.length)) ∨
    ((Model.Broadcast.step s op).2.tracks.length = s.tracks.length + 1 ∧ makes op = true ∧
      ∃ n, (Model.Broadcast.step s op).1 = .track ⟨n, s.tracks.length⟩) := by
  cases op with
  | newTrack n => exact .inr ⟨by simp [Model.Broadcast.step], rfl, n, rfl⟩
  | create p n =>
    simp only [Model.Broadcast.step]
    split
    · exact .inr ⟨by simp [State.insertTrack], rfl, n, rfl⟩
    · exact .inl ⟨rfl, fun _ r hr => by cases hr⟩
  | subscribe c n =>
    simp only [Model.Broadcast.step]
    split
    · exact .inl ⟨rfl, fun _ r hr => by cases hr⟩
    · split
      · rename_i t ht
        refine .inl ⟨rfl, fun _ r hr => ?_⟩
        injection hr with hr
        subst hr
        exact (mem_refs.1 ((trks_reach h).pub n t ht)).1
      · split
        · exact .inr ⟨by simp, rfl, n, rfl⟩
        · exact .inr ⟨by simp, rfl, n, rfl⟩
  | _ =>
    refine .inl ⟨?_, fun hx => by cases hx⟩
    simp only [Model.Broadcast.step]
    (repeat' split) <;> simp [State.setClosed, State.setHeld, State.insertTrack]

theorem bcTrace_snoc (b : Nat) (tr : Trace) (e : Op × Out) :
    bcTrace b (tr ++ [e]) = bcTrace b tr ++ bcTrace b [e] := by
  simp [bcTrace]

theorem originTrace_snoc (tr : Trace) (e : Op × Out) :
    originTrace (tr ++ [e]) = originTrace tr ++ originTrace [e] := by
  simp [originTrace]

theorem priority_snoc (b t : Nat) (tr : Trace) (e : Op × Out) :
    priority b t (tr ++ [e]) = (priority b t tr).or (priorityIn b t e) := by
  simp only [priority, List.findSome?_append, List.findSome?_cons, List.findSome?_nil]
  cases priorityIn b t e <;> rfl

/-- What is known of broadcast `b`. -/
structure BcOk (tr : Trace) (b : Nat) (bc : Bc) : Prop where
  reach : Model.Broadcast.machine.Reach (bcTrace b tr) bc.state
  len : bc.prio.length = bc.state.tracks.length
  prio : ∀ t, priority b t tr = bc.prio[t]?
  consumer : bc.state.consumers.get 0 = some ()

/-- The invariant. -/
structure Inv (tr : Trace) (s : State) : Prop where
  origin : Model.Origin.machine.Reach (originTrace tr) s.origin
  bcs : ∀ (b : Nat) (bc : Bc), s.bcs[b]? = some bc → BcOk tr b bc
  rest : ∀ b, s.bcs.length ≤ b → bcTrace b tr = [] ∧ ∀ t, priority b t tr = none

theorem BcOk.quiet {tr : Trace} {b : Nat} {bc : Bc} (h : BcOk tr b bc) {e : Op × Out}
    (h1 : bcTrace b [e] = []) (h2 : ∀ t, priorityIn b t e = none) : BcOk (tr ++ [e]) b bc := by
  refine ⟨?_, h.len, ?_, h.consumer⟩
  · rw [bcTrace_snoc, h1, List.append_nil]; exact h.reach
  · intro t; rw [priority_snoc, h2, Option.or_none]; exact h.prio t

/-- The broadcasts do not change. -/
theorem Inv.quiet {tr : Trace} {s s' : State} (h : Inv tr s) {e : Op × Out}
    (ho : Model.Origin.machine.Reach (originTrace (tr ++ [e])) s'.origin) (hb : s'.bcs = s.bcs)
    (h1 : ∀ b, bcTrace b [e] = []) (h2 : ∀ b t, priorityIn b t e = none) :
    Inv (tr ++ [e]) s' := by
  refine ⟨ho, ?_, ?_⟩
  · intro b bc hbc
    rw [hb] at hbc
    exact (h.bcs b bc hbc).quiet (h1 b) (h2 b)
  · intro b hl
    rw [hb] at hl
    obtain ⟨g1, g2⟩ := h.rest b hl
    refine ⟨by rw [bcTrace_snoc, h1, g1]; rfl, fun t => by rw [priority_snoc, h2, g2]; rfl⟩

/-- One broadcast changes. -/
theorem Inv.update {tr : Trace} {s : State} (h : Inv tr s) {e : Op × Out} {b : Nat} {bc bc' : Bc}
    (hb : s.bcs[b]? = some bc) (ho : originTrace [e] = []) (hok : BcOk (tr ++ [e]) b bc')
    (hother : ∀ i, i ≠ b → bcTrace i [e] = [] ∧ ∀ t, priorityIn i t e = none) :
    Inv (tr ++ [e]) { s with bcs := s.bcs.set b bc' } := by
  have hlt := (List.getElem?_eq_some_iff.1 hb).1
  refine ⟨?_, ?_, ?_⟩
  · rw [originTrace_snoc, ho, List.append_nil]; exact h.origin
  · intro i bi hi
    simp only [List.getElem?_set] at hi
    split at hi
    · rename_i hbi
      subst hbi
      cases hi; exact hok
    · rename_i hbi
      obtain ⟨g1, g2⟩ := hother i (Ne.symm hbi)
      exact (h.bcs i bi hi).quiet g1 g2
  · intro i hi
    simp only [List.length_set] at hi
    obtain ⟨g1, g2⟩ := h.rest i hi
    obtain ⟨k1, k2⟩ := hother i (by omega)
    refine ⟨by rw [bcTrace_snoc, k1, g1]; rfl, fun t => by rw [priority_snoc, k2, g2]; rfl⟩

/-- A broadcast makes a step. -/
theorem BcOk.step {tr : Trace} {b : Nat} {bc : Bc} (h : BcOk tr b bc) {e : Op × Out}
    (op : Model.Broadcast.Op) (p : UInt8) (ha : allowed op = true)
    (ht : bcTrace b [e] = [(op, (bc.step op p).1)])
    (hp : ∀ t, priorityIn b t e =
      if makes op = true ∧ gives t (bc.step op p).1 = true then some p else none) :
    BcOk (tr ++ [e]) b (bc.step op p).2 := by
  have hreach : Model.Broadcast.machine.Reach (bcTrace b (tr ++ [e])) (bc.step op p).2.state := by
    rw [bcTrace_snoc, ht]
    exact Machine.Reach.step (M := Model.Broadcast.machine) op h.reach
  have hcons : (bc.step op p).2.state.consumers.get 0 = some () := by
    have := h.consumer
    show (Model.Broadcast.step bc.state op).2.consumers.get 0 = some ()
    cases op with
    | dropConsumer c =>
      simp only [Model.Broadcast.step]
      split
      · exact this
      · rw [Slots.get_put_ne]
        · exact this
        · intro hx; subst hx; simp [allowed] at ha
    | consume q =>
      simp only [Model.Broadcast.step]
      split
      · rw [Slots.get_add, if_neg]
        · exact this
        · have := Slots.get_some_lt this; omega
      · exact this
    | cloneConsumer q =>
      simp only [Model.Broadcast.step]
      split
      · exact this
      · rw [Slots.get_add, if_neg]
        · exact this
        · have := Slots.get_some_lt this; omega
    | _ =>
      simp only [Model.Broadcast.step]
      (repeat' split) <;> first
        | exact this
        | (simp only [Model.Broadcast.State.setClosed, Model.Broadcast.State.setHeld,
            Model.Broadcast.State.insertTrack]; exact this)
  rcases grow_cases h.reach op with ⟨g1, g2⟩ | ⟨g1, g2, n, g3⟩
  · refine ⟨hreach, ?_, ?_, hcons⟩
    · simp only [Bc.step]
      rw [if_neg (by omega), g1]; exact h.len
    · intro t
      rw [priority_snoc, hp]
      have : (bc.step op p).2.prio = bc.prio := by
        simp only [Bc.step]; rw [if_neg (by omega)]
      rw [this, ← h.prio]
      split
      · rename_i hx
        obtain ⟨hm, hx⟩ := hx
        obtain ⟨r, hr, rfl⟩ := gives_iff.1 hx
        have hlt := g2 hm _ hr
        have : (priority b r.id tr).isSome := by
          rw [h.prio, List.getElem?_eq_getElem (by rw [h.len]; exact hlt)]; rfl
        cases hq : priority b r.id tr with
        | none => rw [hq] at this; cases this
        | some q => rfl
      · rw [Option.or_none]
  · have hprio : (bc.step op p).2.prio = bc.prio ++ [p] := by
      simp only [Bc.step]; rw [if_pos (by omega)]
    refine ⟨hreach, ?_, ?_, hcons⟩
    · rw [hprio]
      show _ = (Model.Broadcast.step bc.state op).2.tracks.length
      simp [g1, h.len]
    · intro t
      have g3' : (bc.step op p).1 = .track ⟨n, bc.state.tracks.length⟩ := g3
      rw [priority_snoc, hp, hprio, h.prio, g3', ← h.len]
      rcases Nat.lt_trichotomy t bc.prio.length with hlt | heq | hgt
      · rw [List.getElem?_append_left hlt, List.getElem?_eq_getElem hlt]; rfl
      · subst heq
        simp [g2, gives]
      · have h1 : bc.prio[t]? = none := List.getElem?_eq_none (by omega)
        have h2 : (bc.prio ++ [p])[t]? = none :=
          List.getElem?_eq_none (by simp only [List.length_append, List.length_singleton]; omega)
        rw [h1, h2, if_neg]
        · rfl
        · rintro ⟨_, hm⟩
          simp [gives] at hm
          omega

theorem newBc_ok {tr : Trace} {b : Nat} (ht : bcTrace b tr = [(.consume 0, .handle 0)])
    (hp : ∀ t, priority b t tr = none) : BcOk tr b newBc := by
  refine ⟨?_, rfl, ?_, rfl⟩
  · rw [ht]
    exact Machine.Reach.step (M := Model.Broadcast.machine) (.consume 0) .init
  · intro t; rw [hp]; rfl

theorem Inv.step {tr : Trace} {s : State} (h : Inv tr s) (op : Op) :
    Inv (tr ++ [(op, (step s op).1)]) (Requests.step s op).2 := by
  have q : ∀ o, (o = .invalid ∨ o = .blocked ∨ ∃ c, o = .reset c) → Inv (tr ++ [(op, o)]) s := by
    intro o ho
    refine h.quiet ?_ rfl ?_ ?_
    · have : originTrace [(op, o)] = [] := by
        rcases ho with rfl | rfl | ⟨c, rfl⟩ <;> cases op <;> rfl
      rw [originTrace_snoc, this, List.append_nil]; exact h.origin
    · intro b
      rcases ho with rfl | rfl | ⟨c, rfl⟩ <;> cases op <;> rfl
    · intro b t
      rcases ho with rfl | rfl | ⟨c, rfl⟩ <;> cases op <;> first | rfl | skip
      all_goals (rename_i x _; cases x <;> rfl)
  cases op with
  | broadcast =>
    simp only [Requests.step]
    refine ⟨?_, ?_, ?_⟩
    · rw [originTrace_snoc]
      show Model.Origin.machine.Reach (originTrace tr ++ []) s.origin
      rw [List.append_nil]; exact h.origin
    · intro b bc hb
      have hpr : ∀ t, priority b t (tr ++ [(Op.broadcast, Out.made s.bcs.length)]) = priority b t tr := by
        intro t; rw [priority_snoc]
        show (priority b t tr).or none = _
        rw [Option.or_none]
      by_cases hlt : b < s.bcs.length
      · simp only [List.getElem?_append_left hlt] at hb
        refine (h.bcs b bc hb).quiet ?_ fun t => rfl
        have : ¬ s.bcs.length = b := by omega
        simp [bcTrace, this]
      · rw [List.getElem?_append_right (by omega), List.getElem?_singleton] at hb
        split at hb
        · cases hb
          obtain ⟨g1, g2⟩ := h.rest b (by omega)
          refine newBc_ok ?_ fun t => ?_
          · rw [bcTrace_snoc, g1]
            have : s.bcs.length = b := by omega
            simp [bcTrace, this]
          · rw [hpr, g2]
        · cases hb
    · intro b hb
      simp only [List.length_append, List.length_singleton] at hb
      obtain ⟨g1, g2⟩ := h.rest b (by omega)
      refine ⟨?_, fun t => ?_⟩
      · rw [bcTrace_snoc, g1]
        have : ¬ s.bcs.length = b := by omega
        simp [bcTrace, this]
      · rw [priority_snoc, g2]; rfl
  | origin op =>
    refine h.quiet ?_ rfl (fun b => rfl) (fun b t => rfl)
    rw [originTrace_snoc]
    exact Machine.Reach.step (M := Model.Origin.machine) op h.origin
  | use b op p =>
    simp only [Requests.step]
    split
    · exact q _ (.inl rfl)
    · rename_i bc hb
      split
      · rename_i ha
        have ht : ∀ i, bcTrace i [(Op.use b op p, Out.used (bc.step op p).1)] =
            if b = i then [(op, (bc.step op p).1)] else [] := by
          intro i
          by_cases hi : b = i <;> simp [bcTrace, hi]
        have hp : ∀ i t, priorityIn i t (Op.use b op p, Out.used (bc.step op p).1) =
            if b = i ∧ makes op = true ∧ gives t (bc.step op p).1 = true then some p else none := by
          intro i t
          generalize (bc.step op p).1 = o
          cases op <;> cases o <;> simp [priorityIn, makes, gives]
        refine h.update hb rfl ((h.bcs b bc hb).step op p ha ?_ ?_) ?_
        · rw [ht, if_pos rfl]
        · intro t; rw [hp]; simp
        · intro i hi
          refine ⟨by rw [ht, if_neg (Ne.symm hi)], fun t => ?_⟩
          rw [hp, if_neg]; rintro ⟨hx, _⟩; exact hi hx.symm
      · exact q _ (.inl rfl)
  | request path name p =>
    simp only [Requests.step]
    split
    · rename_i b _
      split
      · exact q _ (.inl rfl)
      · rename_i bc hb
        have hok := h.bcs b bc hb
        generalize hx : bc.step (.subscribe 0 name) p = x
        obtain ⟨o, bc'⟩ := x
        cases o with
        | track r =>
          simp only
          split
          · rename_i p' hp'
            have ht : ∀ i w, bcTrace i [(Op.request path name p, Out.ack b r w)] =
                if b = i then [(.subscribe 0 name, .track r)] else [] := by
              intro i w
              by_cases hi : b = i <;> simp [bcTrace, hi]
            have hp : ∀ i t w, priorityIn i t (Op.request path name p, Out.ack b r w) =
                if b = i ∧ r.id = t then some p else none := by
              intro i t w; rfl
            have hfst : (bc.step (.subscribe 0 name) p).1 = .track r := by rw [hx]
            have hsnd : (bc.step (.subscribe 0 name) p).2 = bc' := by rw [hx]
            refine h.update hb rfl ?_ ?_
            · rw [← hsnd]
              refine hok.step (.subscribe 0 name) p rfl ?_ ?_
              · rw [ht, if_pos rfl, hfst]
              · intro t
                rw [hp, hfst]
                simp [makes, gives]
            · intro i hi
              refine ⟨by rw [ht, if_neg (Ne.symm hi)], fun t => ?_⟩
              rw [hp, if_neg]; rintro ⟨hx, _⟩; exact hi hx.symm
          · exact q _ (.inl rfl)
        | _ => exact q _ (.inl rfl)
    · exact q _ (.inr (.inr ⟨_, rfl⟩))
    · exact q _ (.inr (.inl rfl))
    · exact q _ (.inl rfl)

theorem inv_reach {tr : Trace} {s : State} (h : machine.Reach tr s) : Inv tr s :=
  Machine.Reach.induct (M := machine) (P := fun tr s => Inv tr s)
    ⟨.init, fun b bc hb => by simp [init] at hb, fun b _ => ⟨rfl, fun _ => rfl⟩⟩
    (fun _ _ op _ ih => ih.step op) h

end Verif.Session.Requests
