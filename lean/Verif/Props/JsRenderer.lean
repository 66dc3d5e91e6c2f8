import Verif.Js.Renderer

/-!
# Property C116: drawing video on a canvas
-/

set_option autoImplicit false

namespace Verif.Props.JsRenderer

open Verif Verif.Js.Renderer

/-! ## Specification -/

/-- The signals `canvas` and `paused`, as they were set last. -/
def sig (tr : Trace) : Option Nat × Bool :=
  tr.foldl (fun g e => match e.1 with | .set c p => (c, p) | _ => g) (none, false)

/-- The renderer was closed. -/
def Shut (tr : Trace) : Prop := ∃ o, (.close, o) ∈ tr

/-- A canvas is in use: it is set, not paused, and the renderer is not closed. -/
def Used (tr : Trace) (c : Nat) : Prop := sig tr = (some c, false) ∧ ¬ Shut tr

/-! ## Lemmas -/

theorem sig_snoc (tr : Trace) (op : Op) (o : Out) :
    sig (tr ++ [(op, o)]) = match op with | .set c p => (c, p) | _ => sig tr := by
  unfold sig
  rw [List.foldl_append]
  cases op <;> rfl

theorem shut_snoc (tr : Trace) (op : Op) (o : Out) : Shut (tr ++ [(op, o)]) ↔ Shut tr ∨ op = .close := by
  unfold Shut
  simp only [List.mem_append, List.mem_singleton, Prod.mk.injEq]
  constructor
  · rintro ⟨x, h | h⟩
    · exact .inl ⟨x, h⟩
    · exact .inr h.1.symm
  · rintro (⟨x, h⟩ | h)
    · exact ⟨x, .inl h⟩
    · exact ⟨o, .inr ⟨h.symm, rfl⟩⟩

theorem target_iff (c : Option Nat) (p : Bool) (x : Nat) : target c p = some x ↔ (c, p) = (some x, false) := by
  cases c <;> cases p <;> simp [target]

theorem modify_self {l : List Observer} {i : Nat} {o : Observer} (h : l[i]? = some o) (f : Observer → Observer) :
    (l.modify i f)[i]? = some (f o) := by
  simp [h]

/-- `#animate` is what is scheduled. -/
def Frames (s : State) : Prop := s.scheduled = s.animate.toList

theorem filter_self (a : Nat) : [a].filter (· != a) = [] := by simp

/-- What is scheduled, and the rest stays. -/
structure Sched (s t : State) : Prop where
  frames : Frames t
  some : t.animate.isSome = (s.ctx.isSome && !s.paused)
  ctx : t.ctx = s.ctx
  canvas : t.canvas = s.canvas
  paused : t.paused = s.paused
  observers : t.observers = s.observers
  enabled : t.enabled = s.enabled
  closed : t.closed = s.closed

theorem schedule_spec {s : State} (h : Frames s) : Sched s (schedule s) := by
  unfold Frames at h
  unfold schedule
  cases ha : s.animate with
  | none =>
    rw [ha] at h
    split
    · next hc => exact ⟨by simp [Frames, h], by simp [hc], rfl, rfl, rfl, rfl, rfl, rfl⟩
    · next hc => exact ⟨by simp [Frames, h, ha], by simp [ha, hc], rfl, rfl, rfl, rfl, rfl, rfl⟩
  | some a =>
    rw [ha] at h
    split
    · next hc => exact ⟨by simp [Frames, h, ha], by simp [ha, hc], rfl, rfl, rfl, rfl, rfl, rfl⟩
    · next hc => exact ⟨by simp [Frames, h], by simp [hc], rfl, rfl, rfl, rfl, rfl, rfl⟩

/-- The observers. -/
structure Eyes (os : List Observer) (t : Option Nat) : Prop where
  one : ∀ i o, os[i]? = some o → o.connected = true → i + 1 = os.length ∧ t = some o.canvas
  has : ∀ c, t = some c → ∃ o, os.getLast? = some o ∧ o.connected = true ∧ o.canvas = c

/-- Entries that are not delivered late are dropped. -/
def Dropped (e : Env) (os : List Observer) : Prop :=
  e.late = false → ∀ o ∈ os, o.connected = false → o.queue = []

structure Inv (e : Env) (tr : Trace) (s : State) : Prop where
  sig : (s.canvas, s.paused) = sig tr
  shut : s.closed = true ↔ Shut tr
  ctx : s.closed = false → s.ctx = context e s.canvas
  frames : Frames s
  animate : s.animate.isSome = (s.ctx.isSome && !s.paused && !s.closed)
  eyes : Eyes s.observers (if s.closed then none else target s.canvas s.paused)
  dropped : Dropped e s.observers
  enabled : e.late = false → s.enabled = true → s.closed = false ∧ ∃ c, target s.canvas s.paused = some c

theorem Eyes.push {os : List Observer} (h : ∀ o ∈ os, o.connected = false) (c : Nat) :
    Eyes (os ++ [⟨c, true, []⟩]) (some c) := by
  refine ⟨fun i o hi ho => ?_, fun x hx => ⟨⟨c, true, []⟩, by simp, rfl, by simpa using hx⟩⟩
  by_cases hl : i < os.length
  · rw [List.getElem?_append_left hl] at hi
    rw [h o (List.mem_of_getElem? hi)] at ho
    cases ho
  · rw [List.getElem?_append_right (by omega)] at hi
    have : i - os.length < [(⟨c, true, []⟩ : Observer)].length := (List.getElem?_eq_some_iff.1 hi).1
    have hz : i = os.length := by simp at this; omega
    subst hz
    simp at hi
    subst hi
    simp

theorem Eyes.idle {os : List Observer} (h : ∀ o ∈ os, o.connected = false) : Eyes os none :=
  ⟨fun _ o hi ho => absurd ((h o (List.mem_of_getElem? hi)).symm.trans ho) (by simp), fun _ h => (by cases h)⟩

theorem Eyes.none {os : List Observer} (h : Eyes os none) : ∀ o ∈ os, o.connected = false := by
  intro o ho
  obtain ⟨i, hi⟩ := List.mem_iff_getElem?.1 ho
  cases hc : o.connected with
  | false => rfl
  | true => exact absurd (h.one i o hi hc).2 (by simp)

theorem disconnect_off (e : Env) (o : Observer) : (disconnect e o).connected = false := by
  unfold disconnect
  split
  · rfl
  · next h => simpa using h

/-- After disconnecting the last observer, none is connected. -/
theorem Eyes.off {os : List Observer} {t : Option Nat} (h : Eyes os t) (e : Env) :
    ∀ o ∈ os.modify (os.length - 1) (disconnect e), o.connected = false := by
  intro o ho
  obtain ⟨i, hi⟩ := List.mem_iff_getElem?.1 ho
  rw [List.getElem?_modify] at hi
  cases hx : os[i]? with
  | none => rw [hx] at hi; cases hi
  | some x =>
    rw [hx] at hi
    cases hi
    by_cases he : os.length - 1 = i
    · simp only [he, if_true]
      exact disconnect_off e x
    · simp only [he, if_false]
      cases hc : x.connected with
      | false => rfl
      | true => exact absurd (h.one i x hx hc).1 (by omega)

theorem Dropped.off {e : Env} {os : List Observer} (h : Dropped e os) (i : Nat) :
    Dropped e (os.modify i (disconnect e)) := by
  intro hl o ho hc
  obtain ⟨j, hj⟩ := List.mem_iff_getElem?.1 ho
  rw [List.getElem?_modify] at hj
  cases hx : os[j]? with
  | none => rw [hx] at hj; cases hj
  | some x =>
    rw [hx] at hj
    cases hj
    by_cases he : i = j
    · simp only [he, if_true] at hc ⊢
      unfold disconnect
      split
      · simp [hl]
      · next hn => exact h hl x (List.mem_of_getElem? hx) (by simpa using hn)
    · simp only [he, if_false] at hc ⊢
      exact h hl x (List.mem_of_getElem? hx) hc

/-- The cleanup, if the renderer is not closed. -/
structure Clean (e : Env) (s t : State) : Prop where
  off : ∀ o ∈ t.observers, o.connected = false
  dropped : Dropped e t.observers
  enabled : e.late = false → t.enabled = false
  ctx : t.ctx = s.ctx
  scheduled : t.scheduled = s.scheduled
  animate : t.animate = s.animate
  canvas : t.canvas = s.canvas
  paused : t.paused = s.paused
  closed : t.closed = s.closed

theorem cleanup_spec {e : Env} {tr : Trace} {s : State} (h : Inv e tr s) (hc : s.closed = false) : Clean e s (cleanup e s) := by
  have he := h.eyes
  rw [hc] at he
  simp only [Bool.false_eq_true, if_false] at he
  unfold cleanup
  split
  · next ht =>
    rw [ht] at he
    refine ⟨he.none, h.dropped, fun hl => ?_, rfl, rfl, rfl, rfl, rfl, rfl⟩
    cases hx : s.enabled with
    | false => rfl
    | true =>
      obtain ⟨-, c, hx⟩ := h.enabled hl hx
      rw [ht] at hx
      cases hx
  · next c ht => exact ⟨he.off e, h.dropped.off _, fun _ => rfl, rfl, rfl, rfl, rfl, rfl, rfl⟩

theorem Eyes.modify {os : List Observer} {t : Option Nat} (h : Eyes os t) (i : Nat) (f : Observer → Observer)
    (h1 : ∀ o, (f o).connected = o.connected) (h2 : ∀ o, (f o).canvas = o.canvas) : Eyes (os.modify i f) t := by
  have get : ∀ (j : Nat) (o : Observer), (os.modify i f)[j]? = some o → ∃ x : Observer, os[j]? = some x ∧ o.connected = x.connected ∧ o.canvas = x.canvas := by
    intro j o hj
    rw [List.getElem?_modify] at hj
    cases hx : os[j]? with
    | none => rw [hx] at hj; cases hj
    | some x =>
      rw [hx] at hj
      cases hj
      refine ⟨x, rfl, ?_⟩
      split
      · exact ⟨h1 x, h2 x⟩
      · exact ⟨rfl, rfl⟩
  constructor
  · intro j o hj hc
    obtain ⟨x, hx, e1, e2⟩ := get j o hj
    rw [List.length_modify, e2]
    exact h.one j x hx (e1 ▸ hc)
  · intro c hc
    obtain ⟨o, ho, h3, h4⟩ := h.has c hc
    rw [List.getLast?_eq_getElem?] at ho
    rw [List.getLast?_eq_getElem?, List.length_modify, List.getElem?_modify, ho]
    split
    · exact ⟨f o, rfl, (h1 o).trans h3, (h2 o).trans h4⟩
    · exact ⟨o, rfl, h3, h4⟩

theorem set_inv {e : Env} {tr : Trace} {s : State} (h : Inv e tr s) (c : Option Nat) (p : Bool) :
    Inv e (tr ++ [(.set c p, .ok)]) (Js.Renderer.set e s c p) := by
  have hsig : sig (tr ++ [(.set c p, .ok)]) = (c, p) := sig_snoc ..
  have hshut : Shut (tr ++ [(.set c p, .ok)]) ↔ Shut tr := by rw [shut_snoc]; simp
  cases hc : s.closed with
  | true =>
    unfold Js.Renderer.set
    rw [if_pos hc]
    have ha := h.animate
    have hy := h.eyes
    rw [hc] at ha hy
    refine ⟨hsig.symm, by rw [hshut]; exact h.shut, fun h' => absurd (hc.symm.trans h') (by simp), h.frames, ?_, ?_, h.dropped, ?_⟩
    · simp only [hc]
      simpa using ha
    · simpa [hc] using hy
    · intro hl hen
      exact absurd (hc.symm.trans (h.enabled hl hen).1) (by simp)
  | false =>
    -- the observers
    have mid : ∀ t : State, t = (if target c p = target s.canvas s.paused then { s with canvas := c, paused := p }
        else runEnabled { cleanup e s with canvas := c, paused := p }) →
        t.canvas = c ∧ t.paused = p ∧ t.scheduled = s.scheduled ∧ t.animate = s.animate ∧ t.closed = false ∧
        Eyes t.observers (target c p) ∧ Dropped e t.observers ∧
        (e.late = false → t.enabled = true → ∃ x, target c p = some x) := by
      intro t ht
      have hy := h.eyes
      rw [hc] at hy
      simp only [Bool.false_eq_true, if_false] at hy
      split at ht
      · next heq =>
        subst ht
        refine ⟨rfl, rfl, rfl, rfl, hc, ?_, h.dropped, ?_⟩
        · rw [heq]; exact hy
        · rw [heq]; exact fun hl he => (h.enabled hl he).2
      · have k := cleanup_spec h hc
        unfold runEnabled at ht
        dsimp only at ht
        cases hT : target c p with
        | none =>
          rw [hT] at ht
          subst ht
          refine ⟨rfl, rfl, k.scheduled, k.animate, k.closed.trans hc, Eyes.idle k.off, k.dropped, ?_⟩
          intro hl he
          exact absurd ((k.enabled hl).symm.trans he) (by simp)
        | some x =>
          rw [hT] at ht
          subst ht
          refine ⟨rfl, rfl, k.scheduled, k.animate, k.closed.trans hc, Eyes.push k.off x, ?_, fun _ _ => ⟨x, rfl⟩⟩
          intro hl o ho hco
          rcases List.mem_append.1 ho with ho | ho
          · exact k.dropped hl o ho hco
          · rw [List.mem_singleton.1 ho]
    unfold Js.Renderer.set
    rw [if_neg (by simp [hc])]
    dsimp only
    generalize ht : (if target c p = target s.canvas s.paused then { s with canvas := c, paused := p }
        else runEnabled { cleanup e s with canvas := c, paused := p }) = t
    obtain ⟨m1, m2, m3, m4, m5, m6, m7, m8⟩ := mid t ht.symm
    have w := schedule_spec (s := { t with ctx := context e c }) (by
      have := h.frames
      unfold Frames at this ⊢
      dsimp only
      rw [m3, m4]
      exact this)
    have wc : (schedule { t with ctx := context e c }).closed = false := w.closed.trans m5
    refine ⟨?_, ?_, ?_, w.frames, ?_, ?_, ?_, ?_⟩
    · rw [w.canvas, w.paused, hsig, ← m1, ← m2]
    · rw [wc, hshut, ← h.shut, hc]
    · intro _
      rw [w.ctx, w.canvas]
      dsimp only
      rw [m1]
    · rw [w.some, wc, w.ctx, w.paused]
      simp
    · rw [wc, w.observers, w.canvas, w.paused]
      simp only [Bool.false_eq_true, if_false, m1, m2]
      exact m6
    · rw [w.observers]; exact m7
    · rw [w.enabled, w.canvas, w.paused]
      simp only [m1, m2]
      exact fun hl he => ⟨by simpa only [m1, m2] using wc, m8 hl he⟩

theorem close_inv {e : Env} {tr : Trace} {s : State} (h : Inv e tr s) (o : Out) :
    Inv e (tr ++ [(.close, o)]) (close e s) := by
  have hsig : sig (tr ++ [(.close, o)]) = sig tr := sig_snoc ..
  have hshut : Shut (tr ++ [(.close, o)]) := by rw [shut_snoc]; exact .inr rfl
  -- without the animation frame
  have mid : ∀ t : State, t = (if s.closed then s else { cleanup e s with closed := true }) →
      t.canvas = s.canvas ∧ t.paused = s.paused ∧ Frames t ∧ t.closed = true ∧ Eyes t.observers none ∧
      Dropped e t.observers ∧ (e.late = false → t.enabled = false) := by
    intro t ht
    cases hc : s.closed with
    | true =>
      rw [hc] at ht
      simp only [if_true] at ht
      subst ht
      have hy := h.eyes
      simp only [hc, if_true] at hy
      refine ⟨rfl, rfl, h.frames, hc, hy, h.dropped, fun hl => ?_⟩
      cases hx : t.enabled with
      | false => rfl
      | true => exact absurd (hc.symm.trans (h.enabled hl hx).1) (by simp)
    | false =>
      rw [hc] at ht
      simp only [Bool.false_eq_true, if_false] at ht
      subst ht
      have k := cleanup_spec h hc
      refine ⟨k.canvas, k.paused, ?_, rfl, Eyes.idle k.off, k.dropped, k.enabled⟩
      have := h.frames
      unfold Frames at this ⊢
      dsimp only
      rw [k.scheduled, k.animate]
      exact this
  have fin : ∀ t u : State, t.canvas = s.canvas ∧ t.paused = s.paused ∧ Frames t ∧ t.closed = true ∧ Eyes t.observers none ∧
      Dropped e t.observers ∧ (e.late = false → t.enabled = false) →
      u = { t with animate := none, scheduled := [] } → Inv e (tr ++ [(.close, o)]) u := by
    rintro t u ⟨m1, m2, m3, m4, m5, m6, m7⟩ rfl
    refine ⟨?_, ?_, ?_, rfl, ?_, ?_, m6, ?_⟩
    · rw [hsig, ← h.sig]; simp only [m1, m2]
    · exact ⟨fun _ => hshut, fun _ => m4⟩
    · intro h'; exact absurd (m4.symm.trans h') (by simp)
    · simp [m4]
    · simp only [m4, if_true]; exact m5
    · intro hl he; exact absurd ((m7 hl).symm.trans he) (by simp)
  unfold close
  dsimp only
  generalize ht : (if s.closed then s else { cleanup e s with closed := true }) = t
  have m := mid t ht.symm
  refine fin t _ m ?_
  have hf := m.2.2.1
  unfold Frames at hf
  cases ha : t.animate with
  | none =>
    rw [ha] at hf
    obtain ⟨⟩ := t
    simp_all
  | some a =>
    rw [ha] at hf
    simp [hf]

theorem foldl_last (l : List Bool) (b : Bool) : l.foldl (fun _ v => v) b = l.getLast?.getD b := by
  induction l generalizing b with
  | nil => rfl
  | cons x l ih =>
    rw [List.foldl_cons, ih, List.getLast?_cons]
    rfl

theorem Inv.keep {e : Env} {tr : Trace} {s : State} (h : Inv e tr s) (op : Op) (o : Out) (hs : ∀ c p, op ≠ .set c p)
    (hc : op ≠ .close) : Inv e (tr ++ [(op, o)]) s := by
  refine ⟨?_, ?_, h.ctx, h.frames, h.animate, h.eyes, h.dropped, h.enabled⟩
  · rw [h.sig, sig_snoc]
    cases op with
    | set c p => exact absurd rfl (hs c p)
    | _ => rfl
  · rw [shut_snoc, h.shut]
    simp [hc]

theorem Dropped.modify {e : Env} {os : List Observer} (h : Dropped e os) (i : Nat) (f : Observer → Observer)
    (hf : ∀ o, os[i]? = some o → (f o).connected = false → (o.connected = false → o.queue = []) → (f o).queue = []) :
    Dropped e (os.modify i f) := by
  intro hl o ho hc
  obtain ⟨j, hj⟩ := List.mem_iff_getElem?.1 ho
  rw [List.getElem?_modify] at hj
  cases hx : os[j]? with
  | none => rw [hx] at hj; cases hj
  | some x =>
    rw [hx] at hj
    cases hj
    have hq := h hl x (List.mem_of_getElem? hx)
    by_cases he : i = j
    · subst he
      simp only [if_true] at hc ⊢
      exact hf x hx hc hq
    · simp only [he, if_false] at hc ⊢
      exact hq hc

theorem step_inv {e : Env} {tr : Trace} {s : State} (h : Inv e tr s) (op : Op) :
    Inv e (tr ++ [(op, (step e s op).1)]) (step e s op).2 := by
  cases op with
  | set c p => exact set_inv h c p
  | close => exact close_inv h _
  | render id =>
    refine Inv.keep (tr := tr) ?_ _ _ (by simp) (by simp)
    show Inv e tr (render s id).2
    unfold render
    split
    · next hm =>
      have hf := h.frames
      unfold Frames at hf
      have ha := h.animate
      have hs : s.scheduled = [id] ∧ s.animate.isSome = true := by
        cases hx : s.animate with
        | none => rw [hf, hx] at hm; cases hm
        | some a =>
          rw [hf, hx] at hm
          rw [hf, hx, List.mem_singleton.1 hm]
          exact ⟨rfl, rfl⟩
      rw [hs.2] at ha
      have hcl : s.closed = false := by
        cases hx : s.closed with
        | false => rfl
        | true => rw [hx] at ha; simp at ha
      dsimp only
      have w := schedule_spec (s := { s with scheduled := s.scheduled.filter (· != id), animate := none }) (by
        unfold Frames
        simp [hs.1])
      generalize schedule { s with scheduled := s.scheduled.filter (· != id), animate := none } = t at w
      suffices hh : Inv e tr t by split <;> exact hh
      obtain ⟨w1, w2, w3, w4, w5, w6, w7, w8⟩ := w
      dsimp only at w2 w3 w4 w5 w6 w7 w8
      refine ⟨?_, ?_, ?_, w1, ?_, ?_, ?_, ?_⟩
      · rw [w4, w5]; exact h.sig
      · rw [w8]; exact h.shut
      · rw [w8, w3, w4]; exact h.ctx
      · rw [w2, w3, w5, w8, hcl]; simp
      · rw [w6, w8, w4, w5]; exact h.eyes
      · rw [w6]; exact h.dropped
      · rw [w7, w8, w4, w5]; exact h.enabled
    · exact h
  | entry i v =>
    refine Inv.keep (tr := tr) ?_ _ _ (by simp) (by simp)
    show Inv e tr (entry s i v).2
    unfold entry
    split
    · next o ho =>
      split
      · next hc =>
        refine ⟨h.sig, h.shut, h.ctx, h.frames, h.animate, ?_, ?_, h.enabled⟩
        · exact h.eyes.modify i _ (fun _ => rfl) fun _ => rfl
        · refine h.dropped.modify i _ fun x hx hd _ => ?_
          rw [ho] at hx
          cases hx
          rw [hc] at hd
          cases hd
      · exact h
    · exact h
  | notify i =>
    refine Inv.keep (tr := tr) ?_ _ _ (by simp) (by simp)
    show Inv e tr (notify s i).2
    unfold notify
    split
    · next o ho =>
      split
      · exact h
      · next hq =>
        refine ⟨h.sig, h.shut, h.ctx, h.frames, h.animate, ?_, ?_, ?_⟩
        · exact h.eyes.modify i _ (fun _ => rfl) fun _ => rfl
        · exact h.dropped.modify i _ fun _ _ _ _ => rfl
        · intro hl _
          have hco : o.connected = true := by
            cases hx : o.connected with
            | true => rfl
            | false => exact absurd (h.dropped hl o (List.mem_of_getElem? ho) hx) hq
          have := (h.eyes.one i o ho hco).2
          dsimp only
          cases hx : s.closed with
          | true => rw [hx] at this; simp at this
          | false =>
            rw [hx] at this
            simp only [Bool.false_eq_true, if_false] at this
            exact ⟨rfl, _, this⟩
    · exact h

theorem inv_init (e : Env) : Inv e [] init :=
  ⟨rfl, ⟨fun h => (by cases h), fun ⟨_, h⟩ => (by cases h)⟩, fun _ => rfl, rfl, rfl, Eyes.idle (fun _ h => (by cases h)),
    fun _ _ h => (by cases h), fun _ h => (by cases h)⟩

theorem inv_reach {e : Env} {tr : Trace} {s : State} (h : (machine e).Reach tr s) : Inv e tr s :=
  Machine.Reach.induct (M := machine e) (P := Inv e) (inv_init e) (fun _ _ op _ ih => step_inv ih op) h

theorem Inv.used {e : Env} {tr : Trace} {s : State} (h : Inv e tr s) (c : Nat) :
    Used tr c ↔ s.closed = false ∧ target s.canvas s.paused = some c := by
  unfold Used
  rw [target_iff, h.sig, ← h.shut]
  constructor
  · exact fun ⟨h1, h2⟩ => ⟨by simpa using h2, h1⟩
  · exact fun ⟨h1, h2⟩ => ⟨h2, by simp [h1]⟩

/-! ## Theorems -/

/-- One animation frame is scheduled while a canvas is in use that has a context, and none otherwise. -/
theorem c116_scheduled {e : Env} {tr : Trace} {s : State} (h : (machine e).Reach tr s) :
    ((∃ c, Used tr c ∧ e.ctxOf c = true) → s.scheduled.length = 1) ∧
    ((¬ ∃ c, Used tr c ∧ e.ctxOf c = true) → s.scheduled = []) := by
  have v := inv_reach h
  have ha := v.animate
  have hf := v.frames
  unfold Frames at hf
  constructor
  · rintro ⟨c, hu, hc⟩
    obtain ⟨h1, h2⟩ := (v.used c).1 hu
    rw [target_iff, Prod.mk.injEq] at h2
    rw [v.ctx h1, h2.1, h2.2, h1] at ha
    simp [context, hc] at ha
    obtain ⟨a, ha⟩ := Option.isSome_iff_exists.1 ha
    rw [hf, ha]
    rfl
  · intro hn
    cases hx : s.animate with
    | none => rw [hf, hx]; rfl
    | some a =>
      rw [hx] at ha
      simp at ha
      obtain ⟨⟨h1, h2⟩, h3⟩ := ha
      rw [v.ctx h3] at h1
      exfalso
      unfold context at h1
      obtain ⟨c, hc⟩ := Option.isSome_iff_exists.1 h1
      rw [Option.filter_eq_some_iff] at hc
      exact hn ⟨c, (v.used c).2 ⟨h3, by rw [target_iff, hc.1, h2]⟩, hc.2⟩

/-- When the browser calls back, the canvas in use is drawn on, and one frame is scheduled again. -/
theorem c116_draws {e : Env} {tr : Trace} {s : State} (h : (machine e).Reach tr s) (id : Nat) (hm : id ∈ s.scheduled) :
    ∃ c, Used tr c ∧ e.ctxOf c = true ∧ (step e s (.render id)).1 = .drew c ∧
      (step e s (.render id)).2.scheduled.length = 1 := by
  by_cases hu : ∃ c, Used tr c ∧ e.ctxOf c = true
  · obtain ⟨c, hu, hc⟩ := hu
    have v := inv_reach h
    obtain ⟨h1, h2⟩ := (v.used c).1 hu
    rw [target_iff, Prod.mk.injEq] at h2
    have hx : s.ctx = some c := by rw [v.ctx h1, h2.1]; simp [context, hc]
    have w := schedule_spec (s := { s with scheduled := s.scheduled.filter (· != id), animate := none }) (by
      have hl := (c116_scheduled h).1 ⟨c, hu, hc⟩
      obtain ⟨a, ha⟩ := List.length_eq_one_iff.1 hl
      rw [ha, List.mem_singleton] at hm
      subst hm
      unfold Frames
      simp [ha])
    have e1 : (step e s (.render id)).1 = .drew c := by
      show (render s id).1 = _
      unfold render
      rw [if_pos hm]
      dsimp only
      rw [w.ctx]
      dsimp only
      rw [hx]
    refine ⟨c, hu, hc, e1, ?_⟩
    have hr := Machine.Reach.step (M := machine e) (.render id) h
    refine (c116_scheduled hr).1 ⟨c, ?_, hc⟩
    refine ⟨(sig_snoc ..).trans hu.1, ?_⟩
    rw [shut_snoc]
    rintro (h | h)
    · exact hu.2 h
    · cases h
  · rw [(c116_scheduled h).2 hu] at hm
    cases hm

/-- "scheduled without a canvas" never happens. -/
theorem c116_no_throw {e : Env} {tr : Trace} {s : State} (h : (machine e).Reach tr s) (op : Op) :
    (step e s op).1 ≠ .threw := by
  cases op with
  | set c p => exact fun h => by cases h
  | close => exact fun h => by cases h
  | entry i v =>
    unfold step entry
    dsimp only
    split
    · split <;> exact fun h => by cases h
    · exact fun h => by cases h
  | notify i =>
    unfold step notify
    dsimp only
    split
    · split <;> exact fun h => by cases h
    · exact fun h => by cases h
  | render id =>
    by_cases hm : id ∈ s.scheduled
    · obtain ⟨c, -, -, h1, -⟩ := c116_draws h id hm
      rw [h1]
      exact fun h => by cases h
    · unfold step render
      dsimp only
      rw [if_neg hm]
      exact fun h => by cases h

/-- One observer is connected, to the canvas in use, and none if no canvas is in use. -/
theorem c116_observed {e : Env} {tr : Trace} {s : State} (h : (machine e).Reach tr s) :
    (∀ i o, s.observers[i]? = some o → o.connected = true → Used tr o.canvas ∧ i + 1 = s.observers.length) ∧
    (∀ c, Used tr c → ∃ o, s.observers.getLast? = some o ∧ o.connected = true ∧ o.canvas = c) := by
  have v := inv_reach h
  constructor
  · intro i o ho hc
    obtain ⟨h1, h2⟩ := v.eyes.one i o ho hc
    cases hx : s.closed with
    | true => rw [hx] at h2; simp at h2
    | false =>
      rw [hx] at h2
      simp only [Bool.false_eq_true, if_false] at h2
      exact ⟨(v.used _).2 ⟨hx, h2⟩, h1⟩
  · intro c hu
    obtain ⟨h1, h2⟩ := (v.used c).1 hu
    exact v.eyes.has c (by rw [h1]; simpa using h2)

/-- If entries are dropped on `disconnect()`, the player downloads only while a canvas is in use. -/
theorem c116_enabled_partial {e : Env} {tr : Trace} {s : State} (h : (machine e).Reach tr s) (hl : e.late = false)
    (he : s.enabled = true) : ∃ c, Used tr c := by
  have v := inv_reach h
  obtain ⟨h1, c, h2⟩ := v.enabled hl he
  exact ⟨c, (v.used c).2 ⟨h1, h2⟩⟩

/-- When the browser reports that the canvas in use is visible, or is not, the player starts or stops downloading. -/
theorem c116_visible {e : Env} {tr : Trace} {s : State} (h : (machine e).Reach tr s) (c : Nat) (hu : Used tr c) (v : Bool) :
    ((machine e).runFrom s [.entry (s.observers.length - 1) v, .notify (s.observers.length - 1)]).2.enabled = v := by
  obtain ⟨o, ho, hc, -⟩ := (c116_observed h).2 c hu
  rw [List.getLast?_eq_getElem?] at ho
  have e1 : step e s (.entry (s.observers.length - 1) v) =
      (.ok, { s with observers := s.observers.modify (s.observers.length - 1) fun o => { o with queue := o.queue ++ [v] } }) := by
    unfold step entry
    dsimp only
    rw [ho]
    simp only [hc, if_true]
  simp only [Machine.runFrom, e1]
  unfold step notify
  dsimp only
  rw [modify_self ho]
  simp [foldl_last]

/-- Where queued reports and `enabled` come from. -/
structure Heard (tr : Trace) (s : State) : Prop where
  queue : ∀ o ∈ s.observers, true ∈ o.queue → ∃ i, (.entry i true, .ok) ∈ tr
  enabled : s.enabled = true → ∃ i, (.entry i true, .ok) ∈ tr

theorem schedule_rest (s : State) : (schedule s).observers = s.observers ∧ (schedule s).enabled = s.enabled := by
  unfold schedule
  split <;> split <;> exact ⟨rfl, rfl⟩

theorem modify_mem {l : List Observer} {i : Nat} {f : Observer → Observer} {y : Observer} (h : y ∈ l.modify i f) :
    y ∈ l ∨ ∃ x, l[i]? = some x ∧ y = f x := by
  obtain ⟨j, hj⟩ := List.mem_iff_getElem?.1 h
  rw [List.getElem?_modify] at hj
  cases hx : l[j]? with
  | none => rw [hx] at hj; cases hj
  | some x =>
    rw [hx] at hj
    cases hj
    by_cases he : i = j
    · subst he
      exact .inr ⟨x, hx, by simp⟩
    · simp only [he, if_false]
      exact .inl (List.mem_of_getElem? hx)

theorem Heard.mono {tr : Trace} {s t : State} (h : Heard tr s) (e : Op × Out) (ho : t.observers = s.observers)
    (he : t.enabled = s.enabled) : Heard (tr ++ [e]) t := by
  constructor
  · intro o hm hq
    rw [ho] at hm
    obtain ⟨i, hi⟩ := h.queue o hm hq
    exact ⟨i, List.mem_append_left _ hi⟩
  · intro hx
    rw [he] at hx
    obtain ⟨i, hi⟩ := h.enabled hx
    exact ⟨i, List.mem_append_left _ hi⟩

theorem Heard.cleanup {tr : Trace} {s : State} (h : Heard tr s) (e : Env) : Heard tr (cleanup e s) := by
  unfold Js.Renderer.cleanup
  split
  · exact h
  · refine ⟨fun o hm hq => ?_, fun h => (by cases h)⟩
    rcases modify_mem hm with hm | ⟨x, hx, rfl⟩
    · exact h.queue o hm hq
    · refine h.queue x (List.mem_of_getElem? hx) ?_
      unfold disconnect at hq
      split at hq
      · dsimp only at hq
        split at hq
        · exact hq
        · cases hq
      · exact hq

theorem Heard.step {e : Env} {tr : Trace} {s : State} (h : Heard tr s) (op : Op) :
    Heard (tr ++ [(op, (step e s op).1)]) (step e s op).2 := by
  cases op with
  | set c p =>
    show Heard _ (Js.Renderer.set e s c p)
    unfold Js.Renderer.set
    split
    · exact h.mono _ rfl rfl
    · dsimp only
      split
      · exact h.mono _ (schedule_rest _).1 (schedule_rest _).2
      · have k := h.cleanup e
        have k' : Heard tr (runEnabled { Js.Renderer.cleanup e s with canvas := c, paused := p }) := by
          unfold runEnabled
          split
          · exact ⟨k.queue, k.enabled⟩
          · refine ⟨fun o hm hq => ?_, k.enabled⟩
            rcases List.mem_append.1 hm with hm | hm
            · exact k.queue o hm hq
            · rw [List.mem_singleton.1 hm] at hq
              cases hq
        exact k'.mono _ (schedule_rest _).1 (schedule_rest _).2
  | close =>
    have k : Heard tr (if s.closed then s else { Js.Renderer.cleanup e s with closed := true }) := by
      split
      · exact h
      · exact ⟨(h.cleanup e).queue, (h.cleanup e).enabled⟩
    show Heard _ (close e s)
    unfold close
    dsimp only
    split
    · exact k.mono _ rfl rfl
    · exact k.mono _ rfl rfl
  | render id =>
    show Heard _ (render s id).2
    unfold render
    split
    · dsimp only
      split
      · exact h.mono _ (schedule_rest _).1 (schedule_rest _).2
      · exact h.mono _ (schedule_rest _).1 (schedule_rest _).2
    · exact h.mono _ rfl rfl
  | entry i v =>
    show Heard (tr ++ [(.entry i v, (entry s i v).1)]) (entry s i v).2
    unfold entry
    split
    · split
      · refine ⟨fun o hm hq => ?_, fun hx => ?_⟩
        · rcases modify_mem hm with hm | ⟨x, hx, rfl⟩
          · obtain ⟨j, hj⟩ := h.queue o hm hq
            exact ⟨j, List.mem_append_left _ hj⟩
          · rcases List.mem_append.1 hq with hq | hq
            · obtain ⟨j, hj⟩ := h.queue x (List.mem_of_getElem? hx) hq
              exact ⟨j, List.mem_append_left _ hj⟩
            · rw [← List.mem_singleton.1 hq]
              exact ⟨i, List.mem_append_right _ (List.mem_singleton.2 rfl)⟩
        · obtain ⟨j, hj⟩ := h.enabled hx
          exact ⟨j, List.mem_append_left _ hj⟩
      · exact h.mono _ rfl rfl
    · exact h.mono _ rfl rfl
  | notify i =>
    show Heard (tr ++ [(.notify i, (notify s i).1)]) (notify s i).2
    unfold notify
    split
    · next o ho =>
      split
      · exact h.mono _ rfl rfl
      · refine ⟨fun o hm hq => ?_, fun hx => ?_⟩
        · rcases modify_mem hm with hm | ⟨x, hx, rfl⟩
          · obtain ⟨j, hj⟩ := h.queue o hm hq
            exact ⟨j, List.mem_append_left _ hj⟩
          · cases hq
        · dsimp only at hx
          rw [foldl_last] at hx
          cases hl : o.queue.getLast? with
          | none =>
            rw [hl] at hx
            obtain ⟨j, hj⟩ := h.enabled hx
            exact ⟨j, List.mem_append_left _ hj⟩
          | some v =>
            rw [hl] at hx
            have hv : v = true := hx
            subst hv
            obtain ⟨j, hj⟩ := h.queue o (List.mem_of_getElem? ho) (List.mem_of_getLast? hl)
            exact ⟨j, List.mem_append_left _ hj⟩
    · exact h.mono _ rfl rfl

/-- The player downloads only if the browser reported a canvas as visible. -/
theorem c116_reported {e : Env} {tr : Trace} {s : State} (h : (machine e).Reach tr s) (he : s.enabled = true) :
    ∃ i, (.entry i true, .ok) ∈ tr :=
  (Machine.Reach.induct (M := machine e) (P := Heard) ⟨fun _ h => (by cases h), fun h => (by cases h)⟩
    (fun _ _ op _ ih => ih.step op) h).enabled he

/-- Of several reports the last one counts. -/
theorem c116_last {e : Env} (s : State) (i : Nat) (o : Observer) (ho : s.observers[i]? = some o) (q : List Bool) (v : Bool)
    (hq : o.queue = q ++ [v]) : (step e s (.notify i)).2.enabled = v := by
  unfold step notify
  dsimp only
  rw [ho]
  simp [hq, foldl_last]

/-- A canvas that is no longer in use is no reason to download. -/
theorem c116_off {e : Env} {tr : Trace} {s : State} (h : (machine e).Reach tr s) (c : Nat) (hu : Used tr c) (op : Op)
    (hn : ¬ Used (tr ++ [(op, (step e s op).1)]) c) : (step e s op).2.enabled = false := by
  have v := inv_reach h
  obtain ⟨h1, h2⟩ := (v.used c).1 hu
  have hcl : (cleanup e s).enabled = false := by
    unfold cleanup
    rw [h2]
  have keep : (∀ c p, op ≠ .set c p) → op ≠ .close → False := by
    intro ho hc
    apply hn
    refine ⟨?_, ?_⟩
    · rw [sig_snoc]
      cases op with
      | set c p => exact absurd rfl (ho c p)
      | _ => exact hu.1
    · rw [shut_snoc]
      rintro (h | h)
      · exact hu.2 h
      · exact hc h
  cases op with
  | render id => exact (keep (by simp) (by simp)).elim
  | entry i v => exact (keep (by simp) (by simp)).elim
  | notify i => exact (keep (by simp) (by simp)).elim
  | close =>
    show (close e s).enabled = _
    unfold close
    rw [h1]
    simp only [Bool.false_eq_true, if_false]
    split <;> exact hcl
  | set x p =>
    have hne : ¬ target x p = target s.canvas s.paused := by
      intro he
      apply hn
      refine ⟨?_, ?_⟩
      · rw [sig_snoc]
        exact (target_iff x p c).1 (he.trans h2)
      · rw [shut_snoc]
        rintro (h | h)
        · exact hu.2 h
        · cases h
    show (Js.Renderer.set e s x p).enabled = _
    unfold Js.Renderer.set
    rw [h1]
    simp only [Bool.false_eq_true, if_false]
    rw [if_neg hne]
    have en : ∀ t : State, (schedule t).enabled = t.enabled := by
      intro t
      unfold schedule
      split <;> split <;> rfl
    rw [en]
    dsimp only
    unfold runEnabled
    split <;> exact hcl

/-- And nothing else changes it: as long as the same canvas is in use, only reports do. -/
theorem c116_kept {e : Env} {tr : Trace} {s : State} (h : (machine e).Reach tr s) (op : Op) (ho : ∀ i, op ≠ .notify i)
    (hs : ∀ c, Used tr c ↔ Used (tr ++ [(op, (step e s op).1)]) c) : (step e s op).2.enabled = s.enabled := by
  have v := inv_reach h
  have en : ∀ t : State, (schedule t).enabled = t.enabled := by
    intro t
    unfold schedule
    split <;> split <;> rfl
  cases op with
  | notify i => exact absurd rfl (ho i)
  | entry i v =>
    unfold step entry
    dsimp only
    split
    · split <;> rfl
    · rfl
  | render id =>
    unfold step render
    dsimp only
    split
    · split <;> exact en _
    · rfl
  | close =>
    show (close e s).enabled = _
    have : (if s.closed then s else { cleanup e s with closed := true }).enabled = s.enabled := by
      split
      · rfl
      · next hc =>
        have hc : s.closed = false := by simpa using hc
        show (cleanup e s).enabled = _
        unfold cleanup
        split
        · rfl
        · next c hx =>
          have := (hs c).1 ((v.used c).2 ⟨hc, hx⟩)
          exact absurd ((shut_snoc ..).2 (.inr rfl)) this.2
    unfold close
    dsimp only
    split <;> exact this
  | set x p =>
    show (Js.Renderer.set e s x p).enabled = _
    unfold Js.Renderer.set
    split
    · rfl
    · next hc =>
      have hc : s.closed = false := by simpa using hc
      dsimp only
      rw [en]
      dsimp only
      rw [if_pos]
      have w := step_inv v (.set x p)
      have hT : ∀ c, target s.canvas s.paused = some c ↔ target x p = some c := by
        intro c
        have hs := hs c
        rw [v.used c] at hs
        rw [show target s.canvas s.paused = some c ↔ s.closed = false ∧ target s.canvas s.paused = some c from
          ⟨fun h => ⟨hc, h⟩, fun h => h.2⟩, hs]
        unfold Used
        rw [sig_snoc, shut_snoc, ← v.shut, hc, target_iff]
        simp
      cases h1 : target s.canvas s.paused with
      | some c => exact (hT c).1 h1
      | none =>
        cases h2 : target x p with
        | none => rfl
        | some c => exact absurd (h1.symm.trans ((hT c).2 h2)) (by simp)

/-! ## Violations -/

/-- If entries are delivered late, a renderer may let its player download although it is closed, or paused. -/
theorem c116_late {e : Env} (hl : e.late = true) {tr : Trace} {s : State} (h : (machine e).Reach tr s) (c : Nat) (hu : Used tr c)
    (op : Op) (ho : op = .close ∨ op = .set (some c) true) :
    ((machine e).runFrom s [.entry (s.observers.length - 1) true, op, .notify (s.observers.length - 1)]).2.enabled = true := by
  obtain ⟨o, hlast, hc, -⟩ := (c116_observed h).2 c hu
  obtain ⟨h1, h2⟩ := ((inv_reach h).used c).1 hu
  rw [List.getLast?_eq_getElem?] at hlast
  have e1 : step e s (.entry (s.observers.length - 1) true) =
      (.ok, { s with observers := s.observers.modify (s.observers.length - 1) fun o => { o with queue := o.queue ++ [true] } }) := by
    unfold step entry
    dsimp only
    rw [hlast]
    simp only [hc, if_true]
  generalize ht : ({ s with observers := s.observers.modify (s.observers.length - 1) fun o => { o with queue := o.queue ++ [true] } } : State) = t at e1
  have tl : t.observers.length = s.observers.length := by subst ht; simp
  have tx : t.observers[t.observers.length - 1]? = some { o with queue := o.queue ++ [true] } := by
    rw [tl]
    subst ht
    dsimp only
    rw [modify_self hlast]
  have hcl : ∃ x, (cleanup e t).observers[s.observers.length - 1]? = some x ∧ x.queue = o.queue ++ [true] := by
    have : target t.canvas t.paused = some c := by subst ht; exact h2
    unfold cleanup
    rw [this]
    dsimp only
    rw [← tl, modify_self tx]
    refine ⟨_, rfl, ?_⟩
    simp [disconnect, hc, hl]
  have tc : t.closed = false := by subst ht; exact h1
  have so : ∀ u : State, (schedule u).observers = u.observers := by
    intro u
    unfold schedule
    split <;> split <;> rfl
  have e2 : ∃ x, (step e t op).2.observers[s.observers.length - 1]? = some x ∧ x.queue = o.queue ++ [true] := by
    rcases ho with rfl | rfl
    · show ∃ x, (close e t).observers[_]? = some x ∧ _
      unfold close
      rw [tc]
      simp only [Bool.false_eq_true, if_false]
      split <;> exact hcl
    · show ∃ x, (Js.Renderer.set e t (some c) true).observers[_]? = some x ∧ _
      unfold Js.Renderer.set
      rw [tc]
      simp only [Bool.false_eq_true, if_false]
      rw [so, if_neg]
      · dsimp only
        unfold runEnabled
        exact hcl
      · have : target t.canvas t.paused = some c := by subst ht; exact h2
        rw [this]
        simp [target]
  obtain ⟨x, hx, hq⟩ := e2
  simp only [Machine.runFrom, e1]
  exact c116_last (e := e) _ _ x hx o.queue true hq

/-- For a canvas without a context, video is downloaded but never drawn. -/
theorem c116_blind {e : Env} (c : Nat) (hc : e.ctxOf c = false) {tr : Trace} {s : State} (h : (machine e).Reach tr s)
    (hu : Used tr c) :
    ((machine e).runFrom s [.entry (s.observers.length - 1) true, .notify (s.observers.length - 1)]).2.enabled = true ∧
    s.scheduled = [] := by
  refine ⟨c116_visible h c hu true, (c116_scheduled h).2 ?_⟩
  rintro ⟨c', hu', hc'⟩
  have := hu.1.symm.trans hu'.1
  simp at this
  rw [← this, hc] at hc'
  cases hc'

/-! ## Examples -/

def e₀ : Env := ⟨fun c => c != 9, false⟩
def e₁ : Env := ⟨fun c => c != 9, true⟩

def ops₁ : List Op :=
  [.set (some 3) false, .entry 0 true, .notify 0, .render 1, .render 2, .set (some 4) false, .render 3, .entry 1 true, .entry 1 false,
   .notify 1, .set (some 4) true, .set (some 9) false, .close]

example : ((machine e₀).run ops₁).1.map (·.2) =
    [.ok, .ok, .ok, .drew 3, .drew 3, .ok, .drew 4, .ok, .ok, .ok, .ok, .ok, .ok] := by decide +kernel

/-- The hypotheses of `c116_scheduled`, `c116_draws`, `c116_visible`, `c116_off` and `c116_late`. -/
example : Used ((machine e₀).run (ops₁.take 3)).1 3 ∧ e₀.ctxOf 3 = true ∧ 1 ∈ ((machine e₀).run (ops₁.take 3)).2.scheduled ∧
    ((machine e₀).run (ops₁.take 3)).2.enabled = true := by
  refine ⟨⟨rfl, ?_⟩, by decide +kernel⟩
  rintro ⟨o, h⟩
  have e : ((machine e₀).run (ops₁.take 3)).1 = [(.set (some 3) false, .ok), (.entry 0 true, .ok), (.notify 0, .ok)] := by decide +kernel
  rw [e] at h
  simp at h

example : ((machine e₀).run (ops₁.take 11)).2.enabled = false ∧ ((machine e₀).run (ops₁.take 11)).2.scheduled = [] ∧
    ((machine e₀).run (ops₁.take 9)).2.observers = [⟨3, false, []⟩, ⟨4, true, [true, false]⟩] := by decide +kernel

/-- A late report, and one that is dropped. -/
example : ((machine e₁).run [.set (some 3) false, .entry 0 true, .close, .notify 0]).2.enabled = true ∧
    ((machine e₀).run [.set (some 3) false, .entry 0 true, .close, .notify 0]).2.enabled = false := by decide +kernel

/-- The canvas of `c116_blind`. -/
example : e₀.ctxOf 9 = false ∧ ((machine e₀).run [.set (some 9) false, .entry 0 true, .notify 0]).2.enabled = true ∧
    ((machine e₀).run [.set (some 9) false, .entry 0 true, .notify 0]).2.scheduled = [] := by decide +kernel

end Verif.Props.JsRenderer
