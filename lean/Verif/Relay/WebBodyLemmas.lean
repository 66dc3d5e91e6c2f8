import Verif.Relay.WebBodySpec
import Verif.Model.GroupLemmas

/-!
# Invariants of the response body of `/fetch`
-/

set_option autoImplicit false

namespace Verif.Relay.WebBody

open Verif Verif.Session Verif.Model Verif.Relay.WebBody.Spec

/-- Events that only concern readers. -/
def quiet : Group.Op × Group.Out → Bool
  | (.nextFrame _, _) => true
  | (.cloneConsumer _, _) => true
  | (.frame _ (.readAll _), _) => true
  | (.frame _ (.dropConsumer _), _) => true
  | _ => false

/-- A history without the events of readers. -/
def core (t : Group.Spec.Trace) : Group.Spec.Trace := t.filter fun e => !quiet e

theorem core_append (t u : Group.Spec.Trace) : core (t ++ u) = core t ++ core u := by
  simp [core]

theorem mem_core {t : Group.Spec.Trace} {e : Group.Op × Group.Out} (he : quiet e = false) :
    e ∈ core t ↔ e ∈ t := by
  simp [core, he]

theorem filterMap_core {β : Type} (φ : Group.Op × Group.Out → Option β)
    (h : ∀ e, quiet e = true → φ e = none) (t : Group.Spec.Trace) :
    (core t).filterMap φ = t.filterMap φ := by
  unfold core
  induction t with
  | nil => rfl
  | cons e t ih =>
    by_cases hq : quiet e = true
    · rw [List.filter_cons_of_neg (by simp [hq]), ih, List.filterMap_cons_none (h e hq)]
    · rw [List.filter_cons_of_pos (by simpa using hq), List.filterMap_cons, List.filterMap_cons, ih]

theorem appended_core (t : Group.Spec.Trace) :
    Group.Spec.appended (core t) = Group.Spec.appended t := by
  refine filterMap_core _ ?_ t
  rintro ⟨op, out⟩ h
  cases op <;> simp_all [quiet]

theorem closing_core (t : Group.Spec.Trace) :
    Group.Spec.closing (core t) = Group.Spec.closing t := by
  refine congrArg List.getLast? (filterMap_core _ ?_ t)
  rintro ⟨op, out⟩ h
  cases op <;> simp_all [quiet]

theorem abandoned_core (t : Group.Spec.Trace) :
    Group.Spec.Abandoned (core t) ↔ Group.Spec.Abandoned t := by
  simp [Group.Spec.Abandoned, Group.Spec.ProducerMade, Group.Spec.ProducerGone,
    Group.Spec.FutureMade, Group.Spec.FutureGone, core, quiet]

/-- Frame events that only concern readers. -/
def fquiet : Frame.Op × Frame.Out → Bool
  | (.readAll _, _) => true
  | (.dropConsumer _, _) => true
  | (.consume _, _) => true
  | _ => false

def fcore (t : Frame.Spec.Trace) : Frame.Spec.Trace := t.filter fun e => !fquiet e

theorem mem_fcore {t : Frame.Spec.Trace} {e : Frame.Op × Frame.Out} (he : fquiet e = false) :
    e ∈ fcore t ↔ e ∈ t := by
  simp [fcore, he]

theorem filterMap_fcore {β : Type} (φ : Frame.Op × Frame.Out → Option β)
    (h : ∀ e, fquiet e = true → φ e = none) (t : Frame.Spec.Trace) :
    (fcore t).filterMap φ = t.filterMap φ := by
  unfold fcore
  induction t with
  | nil => rfl
  | cons e t ih =>
    by_cases hq : fquiet e = true
    · rw [List.filter_cons_of_neg (by simp [hq]), ih, List.filterMap_cons_none (h e hq)]
    · rw [List.filter_cons_of_pos (by simpa using hq), List.filterMap_cons, List.filterMap_cons, ih]

theorem fcore_frameTrace (f : Nat) (t : Group.Spec.Trace) :
    fcore (Group.Spec.frameTrace f (core t)) = fcore (Group.Spec.frameTrace f t) := by
  induction t with
  | nil => rfl
  | cons e t ih =>
    have split : ∀ u : Group.Spec.Trace, Group.Spec.frameTrace f (e :: u) =
        Group.Spec.frameTrace f [e] ++ Group.Spec.frameTrace f u := fun u => by
      rw [← List.singleton_append]; simp only [Group.Spec.frameTrace, List.filterMap_append]
    have fa : ∀ a b : Frame.Spec.Trace, fcore (a ++ b) = fcore a ++ fcore b := fun a b => by
      simp [fcore]
    by_cases hq : quiet e = true
    · have h1 : core (e :: t) = core t := List.filter_cons_of_neg (by simp [hq])
      rw [h1, ih, split t, fa]
      have h2 : fcore (Group.Spec.frameTrace f [e]) = [] := by
        obtain ⟨op, out⟩ := e
        cases op <;> cases out <;> simp [quiet] at hq <;>
          simp only [Group.Spec.frameTrace, List.filterMap_cons, List.filterMap_nil]
        all_goals (try rfl)
        · rename_i g op o
          by_cases hg : g = f
          · rw [if_pos hg]
            cases op <;> simp_all [fcore, fquiet]
          · rw [if_neg hg]; rfl
        · rename_i g id
          by_cases hg : g = f
          · rw [if_pos hg]; rfl
          · rw [if_neg hg]; rfl
      rw [h2, List.nil_append]
    · have h1 : core (e :: t) = e :: core t := List.filter_cons_of_pos (by simpa using hq)
      rw [h1, split t, split (core t), fa, fa, ih]

theorem written_fcore (t : Frame.Spec.Trace) : Frame.Spec.written (fcore t) = Frame.Spec.written t := by
  refine filterMap_fcore _ ?_ t
  rintro ⟨op, out⟩ h
  cases op <;> simp_all [fquiet]

theorem closing_fcore (t : Frame.Spec.Trace) : Frame.Spec.closing (fcore t) = Frame.Spec.closing t := by
  refine congrArg List.getLast? (filterMap_fcore _ ?_ t)
  rintro ⟨op, out⟩ h
  cases op <;> simp_all [fquiet]

theorem abandoned_fcore (t : Frame.Spec.Trace) :
    Frame.Spec.Abandoned (fcore t) ↔ Frame.Spec.Abandoned t := by
  simp [Frame.Spec.Abandoned, Frame.Spec.ProducerMade, Frame.Spec.ProducerGone,
    Frame.Spec.FutureMade, Frame.Spec.FutureGone, fcore, fquiet]

/-- Two histories that differ only in readers. -/
def Same (t u : Group.Spec.Trace) : Prop := core t = core u

theorem Same.appended {t u} (h : Same t u) : Group.Spec.appended t = Group.Spec.appended u := by
  rw [← appended_core t, h, appended_core]

theorem Same.closing {t u} (h : Same t u) : Group.Spec.closing t = Group.Spec.closing u := by
  rw [← closing_core t, h, closing_core]

theorem Same.frame {t u} (h : Same t u) (f : Nat) :
    fcore (Group.Spec.frameTrace f t) = fcore (Group.Spec.frameTrace f u) := by
  rw [← fcore_frameTrace f t, h, fcore_frameTrace]

theorem Same.written {t u} (h : Same t u) (f : Nat) :
    Frame.Spec.written (Group.Spec.frameTrace f t) = Frame.Spec.written (Group.Spec.frameTrace f u) := by
  rw [← written_fcore, h.frame f, written_fcore]

theorem Same.fclosing {t u} (h : Same t u) (f : Nat) :
    Frame.Spec.closing (Group.Spec.frameTrace f t) = Frame.Spec.closing (Group.Spec.frameTrace f u) := by
  rw [← closing_fcore, h.frame f, closing_fcore]

theorem Same.atEnd {t u} (h : Same t u) : Group.Spec.atEnd t = Group.Spec.atEnd u := by
  unfold Group.Spec.atEnd
  have : Group.Spec.Abandoned t ↔ Group.Spec.Abandoned u := by
    rw [← abandoned_core t, h, abandoned_core]
  rw [h.closing]
  split
  · rfl
  · rfl
  · by_cases ha : Group.Spec.Abandoned u
    · rw [if_pos ha, if_pos (this.2 ha)]
    · rw [if_neg ha, if_neg (fun x => ha (this.1 x))]

theorem Same.wholeFrame {t u} (h : Same t u) (f : Nat) :
    Group.Spec.wholeFrame t f = Group.Spec.wholeFrame u f := by
  unfold Group.Spec.wholeFrame
  have : Frame.Spec.Abandoned (Group.Spec.frameTrace f t) ↔
      Frame.Spec.Abandoned (Group.Spec.frameTrace f u) := by
    rw [← abandoned_fcore, h.frame f, abandoned_fcore]
  rw [h.fclosing f, h.written f]
  split
  · rfl
  · rfl
  · by_cases ha : Frame.Spec.Abandoned (Group.Spec.frameTrace f u)
    · rw [if_pos ha, if_pos (this.2 ha)]
    · rw [if_neg ha, if_neg (fun x => ha (this.1 x))]

theorem Same.snoc {t u} (h : Same t u) (e : Group.Op × Group.Out) : Same (t ++ [e]) (u ++ [e]) := by
  unfold Same at *
  rw [core_append, core_append, h]

theorem Same.skip {t u} (h : Same t u) {e : Group.Op × Group.Out} (he : quiet e = true) :
    Same (t ++ [e]) u := by
  unfold Same at *
  rw [core_append, h]
  simp [core, he]

/-! ## What one operation on the group can change -/

theorem get_put_of {α : Type} {l : Slots α} {c d : Nat} {x : α} {v : Option α}
    (h : l.get c = some x) (hne : d ≠ c) : (l.put d v).get c = some x := by
  rw [Slots.get_put_ne _ hne]; exact h

theorem get_add_of {α : Type} {l : Slots α} {c : Nat} {x v : α}
    (h : l.get c = some x) : (l.add v).get c = some x := by
  rw [Slots.get_add, if_neg (Nat.ne_of_lt (Slots.get_some_lt h))]; exact h

/-- What a frame keeps. -/
structure Keeps (fs fs' : Frame.State) (used : Nat → Bool) : Prop where
  closed : fs.closed ≠ none → fs'.closed ≠ none ∧ fs'.chunks = fs.chunks
  reader : ∀ id i, fs.consumers.get id = some i → used id = false → fs'.consumers.get id = some i

theorem Keeps.refl (fs : Frame.State) (used : Nat → Bool) : Keeps fs fs used :=
  ⟨fun h => ⟨h, rfl⟩, fun _ _ h _ => h⟩

theorem keeps_step (size : Nat) (fs : Frame.State) (op : Frame.Op) :
    Keeps fs (Frame.step size fs op).2 (fun id => usesReader id op) := by
  constructor
  · intro h
    cases hc : fs.closed with
    | none => exact absurd hc h
    | some r =>
      cases op <;> simp only [Frame.step] <;> repeat' split
      all_goals simp_all
  · intro id i h hu
    cases op <;> simp only [usesReader, beq_eq_false_iff_ne, ne_eq] at hu <;>
      simp only [Frame.step] <;> repeat' split
    all_goals first
      | exact h
      | exact get_add_of h
      | exact get_put_of h hu

/-- The operation uses consumer `c` of the group. -/
def usesConsumer (c : Nat) : Group.Op → Bool
  | .nextFrame d | .readFrameStart d | .readFrame d | .cloneConsumer d | .dropConsumer d => d == c
  | _ => false

/-- The operation uses consumer `id` of frame `f`. -/
def usesFrame (f : Nat) (op : Group.Op) (id : Nat) : Bool :=
  match op with
  | .frame g op => g == f && usesReader id op
  | _ => false

theorem list_step (g : Group.State) (op : Group.Op) (k f : Nat) (h : g.list[k]? = some f) :
    (Group.step g op).2.list[k]? = some f := by
  have hlt : k < g.list.length := by rw [List.getElem?_eq_some_iff] at h; exact h.1
  have gr : ∀ c i f, (Group.giveReader g c i f).2.list = g.list := by
    intro c i f; unfold Group.giveReader; split <;> rfl
  have ra : ∀ c i f, (Group.readActive g c i f).2.list = g.list := by
    intro c i f; unfold Group.readActive; split
    · rfl
    · split <;> rfl
  cases op <;> simp only [Group.step] <;> repeat' split
  all_goals first
    | exact h
    | (rw [gr]; exact h)
    | (rw [ra]; exact h)
    | (rw [List.getElem?_append_left hlt]; exact h)

theorem consumer_step (g : Group.State) (op : Group.Op) (c : Nat) (x : Nat × Option Nat)
    (h : g.consumers.get c = some x) (hu : usesConsumer c op = false) :
    (Group.step g op).2.consumers.get c = some x := by
  have gr : ∀ d i f, d ≠ c → (Group.giveReader g d i f).2.consumers.get c = some x := by
    intro d i f hd; unfold Group.giveReader; split
    · exact h
    · exact get_put_of h hd
  have ra : ∀ d i f, d ≠ c → (Group.readActive g d i f).2.consumers.get c = some x := by
    intro d i f hd; unfold Group.readActive; split
    · exact h
    · split <;> exact get_put_of h hd
  cases op <;> simp only [usesConsumer, beq_eq_false_iff_ne, ne_eq] at hu <;>
    simp only [Group.step] <;> repeat' split
  all_goals first
    | exact h
    | exact get_add_of h
    | exact get_put_of h hu
    | exact gr _ _ _ hu
    | exact ra _ _ _ hu

theorem frame_step (g : Group.State) (op : Group.Op) (f size : Nat) (fs : Frame.State)
    (h : g.frames[f]? = some (size, fs)) :
    ∃ fs', (Group.step g op).2.frames[f]? = some (size, fs') ∧ Keeps fs fs' (usesFrame f op) := by
  have hlt : f < g.frames.length := by rw [List.getElem?_eq_some_iff] at h; exact h.1
  have same : ∀ g' : Group.State, g'.frames = g.frames →
      ∃ fs', g'.frames[f]? = some (size, fs') ∧ Keeps fs fs' (usesFrame f op) := fun g' e =>
    ⟨fs, by rw [e]; exact h, Keeps.refl _ _⟩
  have gr : ∀ d i f', ∃ fs', (Group.giveReader g d i f').2.frames[f]? = some (size, fs') ∧
      Keeps fs fs' (usesFrame f op) := by
    intro d i f'
    unfold Group.giveReader
    split
    · exact same _ rfl
    · rename_i size' fs1 hf
      by_cases e : f' = f
      · subst e
        rw [h] at hf
        injection hf with hf
        injection hf with h1 h2
        subst h1 h2
        refine ⟨{ fs with consumers := fs.consumers.add 0 }, ?_, ⟨fun h => ⟨h, rfl⟩, fun id i h _ => get_add_of h⟩⟩
        simp only
        rw [List.getElem?_set_self hlt]
      · refine ⟨fs, ?_, Keeps.refl _ _⟩
        simp only
        rw [List.getElem?_set_ne e]; exact h
  have ra : ∀ d i f', (Group.readActive g d i f').2.frames = g.frames := by
    intro d i f'; unfold Group.readActive; split
    · rfl
    · split <;> rfl
  cases op with
  | newFrame n =>
    refine ⟨fs, ?_, Keeps.refl _ _⟩
    simp only [Group.step]
    rw [List.getElem?_append_left hlt]; exact h
  | frame f' op =>
    simp only [Group.step]
    split
    · exact same _ rfl
    · rename_i size' fs1 hf
      split
      · exact same _ rfl
      · by_cases e : f' = f
        · subst e
          rw [h] at hf
          injection hf with hf
          injection hf with h1 h2
          subst h1 h2
          have hk := keeps_step size fs op
          refine ⟨(Frame.step size fs op).2, ?_, ⟨hk.closed, fun id i h hu => hk.reader id i h ?_⟩⟩
          · simp only
            rw [List.getElem?_set_self hlt]
          · simpa [usesFrame] using hu
        · refine ⟨fs, ?_, Keeps.refl _ _⟩
          simp only
          rw [List.getElem?_set_ne e]; exact h
  | nextFrame c =>
    simp only [Group.step]
    repeat' split
    all_goals first
      | exact same _ rfl
      | exact gr _ _ _
  | readFrame c =>
    simp only [Group.step]
    repeat' split
    all_goals exact same _ (by first | rfl | exact ra _ _ _)
  | _ =>
    simp only [Group.step]
    repeat' split
    all_goals exact same _ rfl

/-! ## The invariant -/

/-- What has been sent is right. -/
def SentOk (g : Group.State) (l : List Bytes) : Prop :=
  ∀ (k : Nat) (b : Bytes), l[k]? = some b → ∃ f size fs, g.list[k]? = some f ∧
    g.frames[f]? = some (size, fs) ∧ fs.closed ≠ none ∧ b = fs.chunks.flatten

theorem SentOk.step {g : Group.State} {l : List Bytes} (h : SentOk g l) (op : Group.Op) :
    SentOk (Group.step g op).2 l := by
  intro k b hb
  obtain ⟨f, size, fs, h1, h2, h3, h4⟩ := h k b hb
  obtain ⟨fs', h5, h6⟩ := frame_step g op f size fs h2
  obtain ⟨h7, h8⟩ := h6.closed h3
  exact ⟨f, size, fs', list_step g op k f h1, h5, h7, by rw [h8]; exact h4⟩

/-- The state of a response that has sent `l`. -/
structure BodyOk (g : Group.State) (l : List Bytes) (b : Body) : Prop where
  idle : b.frame = none → g.consumers.get b.c = some (l.length, none)
  busy : ∀ f id, b.frame = some (f, id) → g.consumers.get b.c = some (l.length + 1, none) ∧
    g.list[l.length]? = some f ∧
    ∃ size fs, g.frames[f]? = some (size, fs) ∧ fs.consumers.get id = some 0

theorem BodyOk.step {g : Group.State} {l : List Bytes} {b : Body} (h : BodyOk g l b) (op : Group.Op)
    (ho : b.owns op = false) : BodyOk (Group.step g op).2 l b := by
  have hu : usesConsumer b.c op = false := by
    cases op <;> simp_all [Body.owns, usesConsumer]
  constructor
  · intro hb
    exact consumer_step g op _ _ (h.idle hb) hu
  · intro f id hb
    obtain ⟨h1, h2, size, fs, h3, h4⟩ := h.busy f id hb
    obtain ⟨fs', h5, h6⟩ := frame_step g op f size fs h3
    refine ⟨consumer_step g op _ _ h1 hu, list_step g op _ _ h2, size, fs', h5, h6.reader id 0 h4 ?_⟩
    cases op with
    | frame g op => simpa [Body.owns, usesFrame, hb] using ho
    | _ => rfl

/-- The invariant of the machine. -/
structure Inv (tr : Trace) (s : State) : Prop where
  history : ∃ t, Group.machine.Reach t s.g ∧ Same t (others tr)
  sentOk : SentOk s.g (sent tr)
  body : ∀ b, s.body = some b → BodyOk s.g (sent tr) b
  empty : s.body = none → sent tr = []
  responding : s.body.isSome ↔ Responding tr
  reg : s.reg = none

theorem others_snoc (tr : Trace) (e : Op × Out) : others (tr ++ [e]) = others tr ++ others [e] := by
  simp [others]

theorem sent_snoc (tr : Trace) (e : Op × Out) : sent (tr ++ [e]) = sent tr ++ sent [e] := by
  simp [sent]

theorem responding_snoc (tr : Trace) (e : Op × Out) :
    Responding (tr ++ [e]) ↔ Responding tr ∨ ∃ d, e = (.respond d, .ok) := by
  unfold Responding
  simp only [List.mem_append, List.mem_singleton, exists_or]
  constructor <;> rintro (h | ⟨d, h⟩)
  · exact .inl h
  · exact .inr ⟨d, h.symm⟩
  · exact .inl h
  · exact .inr ⟨d, h.symm⟩

theorem inv_init : Inv [] init := by
  refine ⟨⟨[], Machine.Reach.init, rfl⟩, ?_, ?_, ?_, ?_, rfl⟩
  · intro k b h; simp [sent] at h
  · intro b h; cases h
  · intro _; rfl
  · simp [init, Responding]

/-- An event that changes nothing. -/
theorem Inv.idle {tr s} (h : Inv tr s) {e : Op × Out} (h1 : others [e] = []) (h2 : sent [e] = [])
    (h3 : ∀ d, e ≠ (.respond d, .ok)) : Inv (tr ++ [e]) s := by
  refine ⟨?_, ?_, ?_, ?_, ?_, h.reg⟩
  · rw [others_snoc, h1, List.append_nil]; exact h.history
  · rw [sent_snoc, h2, List.append_nil]; exact h.sentOk
  · rw [sent_snoc, h2, List.append_nil]; exact h.body
  · rw [sent_snoc, h2, List.append_nil]; exact h.empty
  · rw [responding_snoc, h.responding]
    constructor
    · exact .inl
    · rintro (h | ⟨d, h⟩)
      · exact h
      · exact absurd h (h3 d)

theorem Inv.env {tr s} (h : Inv tr s) (op : Group.Op) :
    Inv (tr ++ [(.env op, (step s (.env op)).1)]) (step s (.env op)).2 := by
  simp only [step]
  split
  · exact h.idle rfl rfl (by intro d h; cases h)
  · rename_i ho
    have hw : ((s.reg.map (notifies · op (Group.step s.g op).1)).getD false) = false := by
      rw [h.reg]; rfl
    rw [hw]
    obtain ⟨t, h1, h2⟩ := h.history
    refine ⟨⟨t ++ [(op, (Group.step s.g op).1)], Machine.Reach.step (M := Group.machine) op h1, ?_⟩,
      ?_, ?_, ?_, ?_, ?_⟩
    · rw [others_snoc]; exact h2.snoc _
    · rw [sent_snoc]; simpa [sent] using h.sentOk.step op
    · intro b hb
      rw [sent_snoc]
      have : b.owns op = false := by
        have hb' : s.body = some b := hb
        simpa [hb'] using ho
      simpa [sent] using (h.body b hb).step op this
    · intro hb
      rw [sent_snoc, h.empty hb]; rfl
    · rw [responding_snoc]
      rw [show ({ s with g := (Group.step s.g op).2, reg := if false = true then none else s.reg } : State).body = s.body from rfl,
        h.responding]
      constructor
      · exact .inl
      · rintro (h | ⟨d, h⟩)
        · exact h
        · cases h
    · exact h.reg

theorem Inv.respond {tr s} (h : Inv tr s) (d : Nat) :
    Inv (tr ++ [(.respond d, (step s (.respond d)).1)]) (step s (.respond d)).2 := by
  simp only [step]
  split
  · rename_i hb hd
    have e : Group.step s.g (.cloneConsumer d) = (.handle s.g.consumers.length,
        { s.g with consumers := s.g.consumers.add (0, none) }) := by
      simp only [Group.step, hd]
    obtain ⟨t, h1, h2⟩ := h.history
    have hs := h.empty hb
    refine ⟨⟨t ++ [(.cloneConsumer d, (Group.step s.g (.cloneConsumer d)).1)],
      Machine.Reach.step (M := Group.machine) _ h1, ?_⟩, ?_, ?_, ?_, ?_, h.reg⟩
    · rw [others_snoc]
      simpa [others] using h2.skip (by rfl)
    · rw [sent_snoc, hs]
      intro k b hb; simp [sent] at hb
    · intro b hb
      rw [sent_snoc, hs]
      injection hb with hb
      subst hb
      constructor
      · intro _
        simp only [e]
        rw [Slots.get_add, if_pos rfl]; rfl
      · intro f id hf; cases hf
    · intro hb; cases hb
    · rw [responding_snoc]
      exact ⟨fun _ => .inr ⟨d, rfl⟩, fun _ => rfl⟩
  · exact h.idle rfl rfl (by intro d h; cases h)

/-- `next_frame` of the response. -/
theorem nextFrame_eq {g : Group.State} {c i : Nat} (h : g.consumers.get c = some (i, none)) :
    Group.step g (.nextFrame c) =
      match g.list[i]? with
      | some f => Group.giveReader g c (i + 1) f
      | none => (g.atEnd, g) := by
  simp only [Group.step, h]
  cases g.list[i]? <;> rfl

theorem atEnd_cases (g : Group.State) :
    g.atEnd = .ended ∨ (∃ e, g.atEnd = .err e) ∨ g.atEnd = .pending := by
  unfold Group.State.atEnd
  split
  · exact .inl rfl
  · exact .inr (.inl ⟨_, rfl⟩)
  · split
    · exact .inr (.inl ⟨_, rfl⟩)
    · exact .inr (.inr rfl)

/-- A poll without a frame. -/
theorem pollGroup_cases {s : State} {b : Body} {l : List Bytes} (hb : BodyOk s.g l b)
    (hf : b.frame = none) (he : ∀ f ∈ s.g.list, f < s.g.frames.length) :
    (∃ f id, s.g.list[l.length]? = some f ∧
      Group.step s.g (.nextFrame b.c) = (.reader f id, (Group.giveReader s.g b.c (l.length + 1) f).2) ∧
      pollGroup s b = (.busy, { s with
        g := (Group.giveReader s.g b.c (l.length + 1) f).2
        body := some { b with frame := some (f, id) } }) ∧
      BodyOk (Group.giveReader s.g b.c (l.length + 1) f).2 l { b with frame := some (f, id) }) ∨
    (s.g.list[l.length]? = none ∧ (pollGroup s b).1 = asBody s.g.atEnd ∧
      (pollGroup s b).2.g = s.g ∧ (pollGroup s b).2.body = s.body ∧
      ((pollGroup s b).2.reg = s.reg ∨ (pollGroup s b).2.reg = none)) := by
  have hn := nextFrame_eq (hb.idle hf)
  cases hl : s.g.list[l.length]? with
  | none =>
    right
    rw [hl] at hn
    refine ⟨rfl, ?_⟩
    unfold pollGroup
    simp only [hn]
    rcases atEnd_cases s.g with h | ⟨e, h⟩ | h <;> rw [h] <;> simp [asBody, dropFuture]
  | some f =>
    left
    rw [hl] at hn
    have hlt := he f (List.mem_of_getElem? hl)
    obtain ⟨⟨size, fs⟩, hfs⟩ : ∃ x, s.g.frames[f]? = some x := ⟨_, List.getElem?_eq_getElem hlt⟩
    have hg : Group.giveReader s.g b.c (l.length + 1) f =
        (.reader f fs.consumers.length,
          { s.g with
            frames := s.g.frames.set f (size, { fs with consumers := fs.consumers.add 0 })
            consumers := s.g.consumers.put b.c (some (l.length + 1, none)) }) := by
      unfold Group.giveReader; rw [hfs]
    refine ⟨f, fs.consumers.length, rfl, ?_, ?_, ?_⟩
    · rw [hn]; simp only [hg]
    · unfold pollGroup; simp only [hn, hg]
    · constructor
      · intro h; cases h
      · intro f' id' h
        injection h with h
        injection h with h1 h2
        subst h1 h2
        rw [hg]
        refine ⟨?_, hl, size, { fs with consumers := fs.consumers.add 0 }, ?_, ?_⟩
        · exact Slots.get_put_self _ (hb.idle hf)
        · simp only; rw [List.getElem?_set_self hlt]
        · simp only; rw [Slots.get_add, if_pos rfl]

/-- A poll with a frame. -/
theorem pollFrame_cases {s : State} {b : Body} {l : List Bytes} {f id : Nat} (hb : BodyOk s.g l b)
    (hf : b.frame = some (f, id)) :
    ∃ size fs, s.g.list[l.length]? = some f ∧ s.g.frames[f]? = some (size, fs) ∧
      ((fs.closed = some (.ok ()) ∧
        pollFrame s b f id = (.data fs.chunks.flatten,
          { s with
            g := (Group.step (Group.step s.g (.frame f (.readAll id))).2 (.frame f (.dropConsumer id))).2
            body := some { b with frame := none } })) ∨
      (fs.closed ≠ some (.ok ()) ∧
        (pollFrame s b f id).1 = (match fs.closed with
          | some (.error e) => .err e
          | _ => if fs.senders = 0 then .err .cancel else .pending) ∧
        (pollFrame s b f id).2.g = (Group.step s.g (.frame f (.readAll id))).2 ∧
        (Group.step s.g (.frame f (.readAll id))).2 = s.g ∧
        (pollFrame s b f id).2.body = s.body ∧
        ((pollFrame s b f id).2.reg = s.reg ∨ (pollFrame s b f id).2.reg = none))) := by
  obtain ⟨h1, h2, size, fs, h3, h4⟩ := hb.busy f id hf
  have hlt : f < s.g.frames.length := by rw [List.getElem?_eq_some_iff] at h3; exact h3.1
  refine ⟨size, fs, h2, h3, ?_⟩
  have e : Group.step s.g (.frame f (.readAll id)) = (.frame (Frame.step size fs (.readAll id)).1,
      { s.g with frames := s.g.frames.set f (size, (Frame.step size fs (.readAll id)).2) }) := by
    simp only [Group.step, h3, Frame.Op.isPollUnused]
    rfl
  have keep : { s.g with frames := s.g.frames.set f (size, fs) } = s.g := by
    have : s.g.frames.set f (size, fs) = s.g.frames := by
      have := List.getElem?_eq_some_iff.1 h3
      obtain ⟨hl, hx⟩ := this
      rw [← hx]; exact List.set_getElem_self hl
    rw [this]
  cases hc : fs.closed with
  | some r =>
    cases r with
    | ok u =>
      left
      refine ⟨rfl, ?_⟩
      have hr : (Frame.step size fs (.readAll id)).1 = .data fs.chunks.flatten := by
        simp only [Frame.step, h4, Frame.State.readAllAt, hc, Nat.zero_le, if_true, List.drop_zero]
      unfold pollFrame
      simp only [e, hr]
    | error x =>
      right
      have hr : Frame.step size fs (.readAll id) = (.err x, fs) := by
        simp only [Frame.step, h4, Frame.State.readAllAt, hc]
      refine ⟨by simp, ?_⟩
      unfold pollFrame
      simp only [e, hr, keep]
      simp
  | none =>
    right
    have hr : Frame.step size fs (.readAll id) =
        (if fs.senders = 0 then .err .cancel else .pending, fs) := by
      simp only [Frame.step, h4, Frame.State.readAllAt, hc, Frame.State.wait]
      by_cases hz : fs.senders = 0
      · simp only [if_pos hz]
      · simp only [if_neg hz]
    refine ⟨by simp, ?_⟩
    unfold pollFrame
    by_cases hz : fs.senders = 0
    · simp only [if_pos hz] at hr ⊢
      simp only [e, hr, keep]
      simp
    · simp only [if_neg hz] at hr ⊢
      simp only [e, hr, keep]
      simp [dropFuture]

/-- An event of the response that changes neither the group nor the body. -/
theorem Inv.same {tr s} {s' : State} (h : Inv tr s) {e : Op × Out} (h1 : others [e] = [])
    (h2 : sent [e] = []) (h3 : ∀ d, e ≠ (.respond d, .ok)) (hg : s'.g = s.g) (hb : s'.body = s.body)
    (hr : s'.reg = s.reg ∨ s'.reg = none) : Inv (tr ++ [e]) s' := by
  have hr' : s'.reg = none := by
    rcases hr with hr | hr
    · rw [hr]; exact h.reg
    · exact hr
  have i := h.idle h1 h2 h3
  refine ⟨?_, ?_, ?_, ?_, ?_, hr'⟩
  · rw [hg]; exact i.history
  · rw [hg]; exact i.sentOk
  · intro b hx; rw [hg]; exact i.body b (by rw [← hb]; exact hx)
  · rw [hb]; exact i.empty
  · rw [hb]; exact i.responding

theorem Inv.exist {tr s} (h : Inv tr s) : ∀ f ∈ s.g.list, f < s.g.frames.length := by
  obtain ⟨t, h1, _⟩ := h.history
  exact (Group.inv_reach h1).serves.exist

theorem Inv.poll {tr s} (h : Inv tr s) :
    Inv (tr ++ [(.poll, (step s .poll).1)]) (step s .poll).2 := by
  cases hb : s.body with
  | none =>
    have e : step s .poll = (.invalid, s) := by simp only [step, hb]
    rw [e]
    exact h.idle rfl rfl (by intro d h; cases h)
  | some b =>
    have hB := h.body b hb
    obtain ⟨t, h1, h2⟩ := h.history
    cases hf : b.frame with
    | none =>
      have e : step s .poll = pollGroup s b := by simp only [step, hb, hf]
      rw [e]
      rcases pollGroup_cases hB hf h.exist with ⟨f, id, h3, h4, h5, h6⟩ | ⟨h3, h4, h5, h6, h7⟩
      · rw [h5]
        have hst : (Group.step s.g (.nextFrame b.c)).2 =
            (Group.giveReader s.g b.c ((sent tr).length + 1) f).2 := by rw [h4]
        have hs : sent (tr ++ [(.poll, Out.busy)]) = sent tr := by rw [sent_snoc]; simp [sent]
        refine ⟨⟨t ++ [(.nextFrame b.c, (Group.step s.g (.nextFrame b.c)).1)], ?_, ?_⟩,
          ?_, ?_, ?_, ?_, h.reg⟩
        · have := Machine.Reach.step (M := Group.machine) (.nextFrame b.c) h1
          rw [← hst]; exact this
        · rw [others_snoc]
          simpa [others] using h2.skip (by rfl)
        · rw [hs, ← hst]; exact h.sentOk.step _
        · intro b' hb'
          injection hb' with hb'
          subst hb'
          rw [hs]; exact h6
        · intro hx; cases hx
        · rw [responding_snoc, ← h.responding, hb]
          simp
      · have hno : sent [(Op.poll, (pollGroup s b).1)] = [] ∧ others [(Op.poll, (pollGroup s b).1)] = [] := by
          rw [h4]
          rcases atEnd_cases s.g with h | ⟨e, h⟩ | h <;> rw [h] <;> exact ⟨rfl, rfl⟩
        exact h.same hno.2 hno.1 (by intro d h; cases h) h5 h6 h7
    | some x =>
      obtain ⟨f, id⟩ := x
      have e : step s .poll = pollFrame s b f id := by simp only [step, hb, hf]
      rw [e]
      obtain ⟨size, fs, h3, h4, h5 | h5⟩ := pollFrame_cases hB hf
      · obtain ⟨h5, h6⟩ := h5
        rw [h6]
        have r1 := Machine.Reach.step (M := Group.machine) (.frame f (.readAll id)) h1
        have r2 := Machine.Reach.step (M := Group.machine) (.frame f (.dropConsumer id)) r1
        have hs : sent (tr ++ [(.poll, Out.data fs.chunks.flatten)]) =
            sent tr ++ [fs.chunks.flatten] := by rw [sent_snoc]; simp [sent]
        have hlen := hB.busy f id hf
        refine ⟨⟨_, r2, ?_⟩, ?_, ?_, ?_, ?_, h.reg⟩
        · rw [others_snoc]
          simpa [others] using (h2.skip (by rfl)).skip (by rfl)
        · rw [hs]
          apply SentOk.step
          apply SentOk.step
          intro k x hx
          by_cases hk : k < (sent tr).length
          · rw [List.getElem?_append_left hk] at hx
            exact h.sentOk k x hx
          · rw [List.getElem?_append_right (by omega)] at hx
            have hk0 : k - (sent tr).length = 0 := by
              rcases Nat.eq_zero_or_pos (k - (sent tr).length) with h0 | h0
              · exact h0
              · rw [List.getElem?_eq_none (by simp; omega)] at hx; cases hx
            have hk1 : k = (sent tr).length := by omega
            subst hk1
            rw [hk0] at hx
            injection hx with hx
            exact ⟨f, size, fs, h3, h4, by rw [h5]; simp, hx.symm⟩
        · intro b' hb'
          injection hb' with hb'
          subst hb'
          rw [hs]
          constructor
          · intro _
            have := consumer_step _ (.frame f (.dropConsumer id)) b.c _
              (consumer_step s.g (.frame f (.readAll id)) b.c _ hlen.1 rfl) rfl
            simpa using this
          · intro f' id' hx; cases hx
        · intro hx; cases hx
        · rw [responding_snoc, ← h.responding, hb]
          simp
      · obtain ⟨_, h6, h7, h8, h9, h10⟩ := h5
        have hno : sent [(Op.poll, (pollFrame s b f id).1)] = [] ∧
            others [(Op.poll, (pollFrame s b f id).1)] = [] := by
          rw [h6]
          split
          · exact ⟨rfl, rfl⟩
          · split <;> exact ⟨rfl, rfl⟩
        exact h.same hno.2 hno.1 (by intro d h; cases h) (by rw [h7, h8]) h9 h10

theorem inv_reach {tr : Trace} {s : State} (h : machine.Reach tr s) : Inv tr s :=
  Machine.Reach.induct (M := machine) (P := Inv) inv_init
    (fun _ _ op _ ih => match op with
      | .env op => ih.env op
      | .respond d => ih.respond d
      | .poll => ih.poll) h

/-- What a reachable state says about the frames. -/
theorem Inv.frameAt {tr s} (h : Inv tr s) {f size : Nat} {fs : Frame.State}
    (hf : s.g.frames[f]? = some (size, fs)) :
    Frame.Spec.written (Group.Spec.frameTrace f (others tr)) = fs.chunks ∧
    Frame.Spec.closing (Group.Spec.frameTrace f (others tr)) = fs.closed ∧
    asBody (Group.Spec.wholeFrame (others tr) f) = (match fs.closed with
      | some (.ok _) => .data fs.chunks.flatten
      | some (.error e) => .err e
      | none => if fs.senders = 0 then .err .cancel else .pending) := by
  obtain ⟨t, h1, h2⟩ := h.history
  have ha := ((Group.inv_reach h1).frames.agrees f size fs hf).1
  refine ⟨by rw [← h2.written, ha.chunks], by rw [← h2.fclosing, ha.closed], ?_⟩
  rw [← h2.wholeFrame]
  unfold Group.Spec.wholeFrame
  rw [ha.closed, ha.chunks]
  cases hc : fs.closed with
  | some r => cases r <;> rfl
  | none =>
    simp only
    have := ha.senders
    by_cases hx : Frame.Spec.Abandoned (Group.Spec.frameTrace f t)
    · rw [if_pos hx, if_pos (this.2 hx)]; rfl
    · rw [if_neg hx, if_neg (fun y => hx (this.1 y))]; rfl

theorem Inv.list {tr s} (h : Inv tr s) : Group.Spec.appended (others tr) = s.g.list := by
  obtain ⟨t, h1, h2⟩ := h.history
  rw [← h2.appended]; exact (Group.inv_reach h1).agrees.list

theorem Inv.atEnd {tr s} (h : Inv tr s) : Group.Spec.atEnd (others tr) = s.g.atEnd := by
  obtain ⟨t, h1, h2⟩ := h.history
  rw [← h2.atEnd]; exact (Group.inv_reach h1).agrees.atEnd.symm

end Verif.Relay.WebBody
