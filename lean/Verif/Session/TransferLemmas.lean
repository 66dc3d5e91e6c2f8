import Verif.Session.TransferSpec
import Verif.Session.ReaderLemmas
import Verif.Model.GroupLemmas
import Verif.Message.Lemmas

/-!
# Lemmas about the transfer of groups
-/

set_option autoImplicit false

namespace Verif.Session.Transfer

open Verif Verif.Coding Verif.Message Verif.Session Verif.Session.Transfer.Spec
open Verif.Model (Group.Op Group.Out Group.State Group.machine Group.init Group.step)
open Verif.Model.Group.Spec (Trace received ConsumerAlive appended frameTrace closing)

/-! ## How one operation changes a group -/

/-- The change of one frame by one operation on the group. -/
def Change (op : Group.Op) (f size : Nat) (fs fs' : Model.Frame.State) : Prop :=
  fs' = fs ∨ ((∃ d, op = .nextFrame d) ∧ fs' = { fs with consumers := fs.consumers.add 0 }) ∨
    ∃ fop, op = .frame f fop ∧ fs' = (Model.Frame.step size fs fop).2

theorem frames_step (s : Group.State) (op : Group.Op) {f size : Nat} {fs : Model.Frame.State}
    (h : s.frames[f]? = some (size, fs)) :
    ∃ fs', (Group.step s op).2.frames[f]? = some (size, fs') ∧ Change op f size fs fs' := by
  have quiet : ∀ s' : Group.State, s'.frames = s.frames →
      ∃ fs', s'.frames[f]? = some (size, fs') ∧ Change op f size fs fs' :=
    fun s' hs => ⟨fs, by rw [hs]; exact h, .inl rfl⟩
  have gr : ∀ c i g, (∃ d, op = .nextFrame d) →
      ∃ fs', (Model.Group.giveReader s c i g).2.frames[f]? = some (size, fs') ∧
        Change op f size fs fs' := by
    intro c i g hd
    unfold Model.Group.giveReader
    split
    · exact quiet _ rfl
    · rename_i size' gs hg
      simp only [List.getElem?_set]
      by_cases hgf : g = f
      · subst hgf
        rw [h] at hg
        cases hg
        have := (List.getElem?_eq_some_iff.1 h).1
        exact ⟨_, by simp [this], .inr (.inl ⟨hd, rfl⟩)⟩
      · exact ⟨fs, by simp [hgf, h], .inl rfl⟩
  have ra : ∀ c i g, ∃ fs', (Model.Group.readActive s c i g).2.frames[f]? = some (size, fs') ∧
        Change op f size fs fs' := by
    intro c i g
    unfold Model.Group.readActive
    repeat' split
    all_goals exact quiet _ rfl
  cases op with
  | newFrame n =>
    refine ⟨fs, ?_, .inl rfl⟩
    simp only [Model.Group.step]
    have := (List.getElem?_eq_some_iff.1 h).1
    rw [List.getElem?_append_left this]; exact h
  | frame g fop =>
    simp only [Model.Group.step]
    split
    · exact quiet _ rfl
    · rename_i size' gs hg
      split
      · exact quiet _ rfl
      · simp only [List.getElem?_set]
        by_cases hgf : g = f
        · subst hgf
          rw [h] at hg
          cases hg
          have := (List.getElem?_eq_some_iff.1 h).1
          exact ⟨_, by simp [this], .inr (.inr ⟨fop, rfl, rfl⟩)⟩
        · exact ⟨fs, by simp [hgf, h], .inl rfl⟩
  | nextFrame c =>
    simp only [Model.Group.step]
    (repeat' split) <;> first | exact quiet _ rfl | exact gr _ _ _ ⟨_, rfl⟩
  | readFrame c =>
    simp only [Model.Group.step]
    (repeat' split) <;> first | exact quiet _ rfl | exact ra _ _ _
  | _ =>
    simp only [Model.Group.step]
    (repeat' split) <;> exact quiet _ rfl

theorem frames_new (s : Group.State) (op : Group.Op) {f size : Nat} {fs : Model.Frame.State}
    (h : s.frames[f]? = none) (h' : (Group.step s op).2.frames[f]? = some (size, fs)) :
    op = .newFrame size ∧ fs = Model.Frame.init := by
  have quiet : ∀ s' : Group.State, s'.frames.length = s.frames.length →
      s'.frames[f]? = some (size, fs) → op = .newFrame size ∧ fs = Model.Frame.init := by
    intro s' hs hx
    have := (List.getElem?_eq_some_iff.1 hx).1
    rw [List.getElem?_eq_none_iff] at h
    omega
  have gr : ∀ c i g, (Model.Group.giveReader s c i g).2.frames.length = s.frames.length := by
    intro c i g
    unfold Model.Group.giveReader
    split <;> simp
  have ra : ∀ c i g, (Model.Group.readActive s c i g).2.frames.length = s.frames.length := by
    intro c i g
    unfold Model.Group.readActive
    repeat' split
    all_goals rfl
  revert h'
  cases op with
  | newFrame n =>
    simp only [Model.Group.step]
    intro h'
    rw [List.getElem?_append_right (List.getElem?_eq_none_iff.1 h)] at h'
    rw [List.getElem?_singleton] at h'
    split at h'
    · cases h'; exact ⟨rfl, rfl⟩
    · cases h'
  | nextFrame c =>
    simp only [Model.Group.step]
    (repeat' split) <;> first | exact quiet _ rfl | exact quiet _ (gr _ _ _)
  | readFrame c =>
    simp only [Model.Group.step]
    (repeat' split) <;> first | exact quiet _ rfl | exact quiet _ (ra _ _ _)
  | _ =>
    simp only [Model.Group.step]
    (repeat' split) <;> first | exact quiet _ rfl | exact quiet _ (by simp)

/-- The fields other than frames and consumers: list, closing, producers. -/
theorem core_step (s : Group.State) (op : Group.Op) :
    (∃ l, (Group.step s op).2.list = s.list ++ l ∧ (s.closed.isSome → l = [])) ∧
    (s.closed.isSome → (Group.step s op).2.closed.isSome) := by
  have quiet : ∀ s' : Group.State, s'.list = s.list → s'.closed = s.closed →
      (∃ l, s'.list = s.list ++ l ∧ (s.closed.isSome → l = [])) ∧
      (s.closed.isSome → s'.closed.isSome) :=
    fun s' h1 h2 => ⟨⟨[], by rw [h1, List.append_nil], fun _ => rfl⟩, by rw [h2]; exact id⟩
  have gr : ∀ c i g, (Model.Group.giveReader s c i g).2.list = s.list ∧
      (Model.Group.giveReader s c i g).2.closed = s.closed := by
    intro c i g
    unfold Model.Group.giveReader
    split <;> exact ⟨rfl, rfl⟩
  have ra : ∀ c i g, (Model.Group.readActive s c i g).2.list = s.list ∧
      (Model.Group.readActive s c i g).2.closed = s.closed := by
    intro c i g
    unfold Model.Group.readActive
    repeat' split
    all_goals exact ⟨rfl, rfl⟩
  cases op with
  | appendFrame p f =>
    simp only [Model.Group.step]
    split
    · split
      · exact quiet _ rfl rfl
      · rename_i hc
        exact ⟨⟨[f], rfl, fun hx => absurd hx hc⟩, id⟩
    · exact quiet _ rfl rfl
  | nextFrame c =>
    simp only [Model.Group.step]
    (repeat' split) <;> first | exact quiet _ rfl rfl | exact quiet _ (gr _ _ _).1 (gr _ _ _).2
  | readFrame c =>
    simp only [Model.Group.step]
    (repeat' split) <;> first | exact quiet _ rfl rfl | exact quiet _ (ra _ _ _).1 (ra _ _ _).2
  | finish p | abort p e =>
    simp only [Model.Group.step]
    (repeat' split) <;> first
      | exact quiet _ rfl rfl
      | exact ⟨⟨[], (List.append_nil _).symm, fun _ => rfl⟩, fun _ => rfl⟩
  | _ =>
    simp only [Model.Group.step]
    (repeat' split) <;> exact quiet _ rfl rfl

theorem Change.prefix {op : Group.Op} {f size : Nat} {fs fs' : Model.Frame.State}
    (h : Change op f size fs fs') : ∃ xs, fs'.chunks = fs.chunks ++ xs := by
  rcases h with rfl | ⟨_, rfl⟩ | ⟨fop, _, rfl⟩
  · exact ⟨[], (List.append_nil _).symm⟩
  · exact ⟨[], (List.append_nil _).symm⟩
  · exact Model.Frame.step_extends size fs fop

/-- Without clones of frame producers, every frame of a group is exact. -/
theorem exact_frames {tr : Trace} {s : Group.State} (h : Group.machine.Reach tr s)
    (hn : NoClones tr) : ∀ (f size : Nat) fs, s.frames[f]? = some (size, fs) →
      Model.Frame.Exact size fs := by
  revert hn
  refine Machine.Reach.induct (M := Group.machine)
    (P := fun tr s => NoClones tr → ∀ (f size : Nat) fs, s.frames[f]? = some (size, fs) →
      Model.Frame.Exact size fs) ?_ ?_ h
  · intro _ f size fs hf
    simp [Model.Group.init] at hf
  · intro tr s op _ ih hn f size fs' hf
    have ih := ih fun f p id hx => hn f p id (List.mem_append_left _ hx)
    cases hs : s.frames[f]? with
    | none =>
      obtain ⟨_, rfl⟩ := frames_new s op hs hf
      exact Model.Frame.exact_init size
    | some e =>
      obtain ⟨size', fs⟩ := e
      obtain ⟨fs'', hf', hc⟩ := frames_step s op hs
      have he : (size, fs') = (size', fs'') := by
        have := hf.symm.trans hf'; exact Option.some.inj this
      cases he
      have hx := ih f size fs hs
      rcases hc with rfl | ⟨_, rfl⟩ | ⟨fop, rfl, rfl⟩
      · exact hx
      · exact ⟨hx.single, hx.bound, hx.counter, hx.finished, hx.open_⟩
      · refine hx.step fop ?_
        rintro p id ⟨rfl, ho⟩
        refine hn f p id (List.mem_append_right _ ?_)
        have : (Group.step s (.frame f (.cloneProducer p))).1 = .frame (.handle id) := by
          simp only [Model.Group.step, hs]
          rw [if_neg (by simp [Model.Frame.Op.isPollUnused]), ho]
        exact List.mem_singleton.2 (by
          show _ = (_, (Group.step s (.frame f (.cloneProducer p))).1)
          rw [this])

theorem sizes_snoc (tr : Trace) (e : Group.Op × Group.Out) :
    sizes (tr ++ [e]) = sizes tr ++ sizes [e] := by
  simp [sizes]

theorem sizes_reach {tr : Trace} {s : Group.State} (h : Group.machine.Reach tr s) :
    sizes tr = s.frames.map (·.1) := by
  refine Machine.Reach.induct (M := Group.machine)
    (P := fun tr s => sizes tr = s.frames.map (·.1)) rfl ?_ h
  intro tr s op _ ih
  have quiet : ∀ (o : Group.Out) (s' : Group.State), (∀ n id, ¬ (op = .newFrame n ∧ o = .handle id)) →
      s'.frames.map (·.1) = s.frames.map (·.1) → sizes (tr ++ [(op, o)]) = s'.frames.map (·.1) := by
    intro o s' ho hs
    rw [sizes_snoc, hs, ih]
    have : sizes [(op, o)] = [] := by
      unfold sizes
      simp only [List.filterMap_cons, List.filterMap_nil]
      split
      · rfl
      · rename_i heq
        split at heq
        · rename_i h; cases h; exact absurd ⟨rfl, rfl⟩ (ho _ _)
        · cases heq
    rw [this, List.append_nil]
  have setm : ∀ (f size : Nat) (fs fs' : Model.Frame.State), s.frames[f]? = some (size, fs) →
      (s.frames.set f (size, fs')).map (·.1) = s.frames.map (·.1) := by
    intro f size fs fs' hf
    rw [List.map_set]
    apply List.ext_getElem?
    intro k
    rw [List.getElem?_set]
    split
    · rename_i hk
      subst hk
      have := (List.getElem?_eq_some_iff.1 hf).1
      simp [this]
      have h2 := (List.getElem?_eq_some_iff.1 hf).2
      rw [h2]
    · rfl
  have gr : ∀ c i g, (Model.Group.giveReader s c i g).2.frames.map (·.1) = s.frames.map (·.1) := by
    intro c i g
    unfold Model.Group.giveReader
    split
    · rfl
    · rename_i hg; exact setm _ _ _ _ hg
  have ra : ∀ c i g, (Model.Group.readActive s c i g).2.frames.map (·.1) = s.frames.map (·.1) := by
    intro c i g
    unfold Model.Group.readActive
    repeat' split
    all_goals rfl
  cases op with
  | newFrame n =>
    show sizes (tr ++ [(Group.Op.newFrame n, Group.Out.handle s.frames.length)]) = _
    rw [sizes_snoc, ih]
    simp [Model.Group.step, sizes]
  | frame g fop =>
    show sizes (tr ++ [(Group.Op.frame g fop, (Group.step s (.frame g fop)).1)]) = _
    refine quiet _ _ (fun _ _ hx => by cases hx.1) ?_
    simp only [Model.Group.step]
    repeat' split
    · rfl
    · rfl
    · rename_i hg _
      exact setm _ _ _ _ hg
  | nextFrame c =>
    refine quiet _ _ (fun _ _ hx => by cases hx.1) ?_
    simp only [Model.Group.step]
    (repeat' split) <;> first | rfl | exact gr _ _ _
  | readFrame c =>
    refine quiet _ _ (fun _ _ hx => by cases hx.1) ?_
    simp only [Model.Group.step]
    (repeat' split) <;> first | rfl | exact ra _ _ _
  | _ =>
    refine quiet _ _ (fun _ _ hx => by cases hx.1) ?_
    simp only [Model.Group.step]
    (repeat' split) <;> rfl

/-- The frames of the group as the model holds them. -/
def frameAt (s : Group.State) (f : Nat) : Nat × Bytes :=
  match s.frames[f]? with
  | some (size, fs) => (size, fs.chunks.flatten)
  | none => (0, [])

theorem contents_reach {tr : Trace} {s : Group.State} (h : Group.machine.Reach tr s) :
    contents tr = s.list.map (frameAt s) := by
  have hI := Model.Group.inv_reach h
  unfold contents
  rw [hI.agrees.list]
  refine List.map_congr_left fun f hf => ?_
  have hlt := hI.serves.exist f hf
  have hg : s.frames[f]? = some (s.frames[f].1, s.frames[f].2) := List.getElem?_eq_getElem hlt
  unfold frameAt
  rw [hg, sizes_reach h]
  simp only
  rw [(hI.frames.agrees f _ _ hg).1.chunks]
  simp [hlt]

/-- The state-level form of `Finished`. -/
theorem finished_reach {tr : Trace} {s : Group.State} (h : Group.machine.Reach tr s) (k : Nat) :
    Finished tr k ↔ ∃ f size fs, s.list[k]? = some f ∧ s.frames[f]? = some (size, fs) ∧
      fs.closed = some (.ok ()) := by
  have hI := Model.Group.inv_reach h
  unfold Finished
  rw [hI.agrees.list]
  constructor
  · rintro ⟨f, hf, hc⟩
    have hlt := hI.serves.exist f (List.mem_of_getElem? hf)
    have hg : s.frames[f]? = some (s.frames[f].1, s.frames[f].2) := List.getElem?_eq_getElem hlt
    exact ⟨f, _, _, hf, hg, by rw [← (hI.frames.agrees f _ _ hg).1.closed]; exact hc⟩
  · rintro ⟨f, size, fs, hf, hg, hc⟩
    exact ⟨f, hf, by rw [(hI.frames.agrees f _ _ hg).1.closed]; exact hc⟩

/-! ## Consumers and readers of others -/

theorem consumers_step (s : Group.State) (op : Group.Op) {c : Nat} {x : Nat × Option Nat}
    (h : s.consumers.get c = some x) (phase : SendPhase) (hu : ¬ Uses c phase op) :
    (Group.step s op).2.consumers.get c = some x := by
  have quiet : ∀ s' : Group.State, s'.consumers = s.consumers → s'.consumers.get c = some x :=
    fun s' hs => by rw [hs]; exact h
  have put : ∀ d v, d ≠ c → (s.consumers.put d v).get c = some x := by
    intro d v hd
    rw [Slots.get_put_ne _ hd]; exact h
  have gr : ∀ d i g, d ≠ c → (Model.Group.giveReader s d i g).2.consumers.get c = some x := by
    intro d i g hd
    unfold Model.Group.giveReader
    split
    · exact quiet _ rfl
    · exact put _ _ hd
  have ra : ∀ d i g, d ≠ c → (Model.Group.readActive s d i g).2.consumers.get c = some x := by
    intro d i g hd
    unfold Model.Group.readActive
    (repeat' split) <;> first | exact quiet _ rfl | exact put _ _ hd
  have add : ∀ v, (s.consumers.add v).get c = some x := by
    intro v
    rw [Slots.get_add]
    have := Slots.get_some_lt h
    rw [if_neg (by omega)]; exact h
  cases op <;> simp only [Model.Group.step] <;> (repeat' split) <;>
    first
      | exact quiet _ rfl
      | exact add _
      | exact put _ _ hu
      | exact gr _ _ _ hu
      | exact ra _ _ _ hu

theorem readers_step {op : Group.Op} {f size id i : Nat} {fs fs' : Model.Frame.State}
    (h : Change op f size fs fs') (hi : fs.consumers.get id = some i) (c : Nat)
    (hu : ¬ Uses c (.payload f id) op) : fs'.consumers.get id = some i := by
  have add : ∀ v, (fs.consumers.add v).get id = some i := by
    intro v
    rw [Slots.get_add]
    have := Slots.get_some_lt hi
    rw [if_neg (by omega)]; exact hi
  rcases h with rfl | ⟨_, rfl⟩ | ⟨fop, rfl, rfl⟩
  · exact hi
  · exact add 0
  · have put : ∀ d v, d ≠ id → (fs.consumers.put d v).get id = some i := by
      intro d v hd
      rw [Slots.get_put_ne _ hd]; exact hi
    have ne : ∀ d, ¬ (SendPhase.payload f id = SendPhase.payload f d) → d ≠ id :=
      fun d hd hx => hd (by rw [hx])
    cases fop <;> simp only [Model.Frame.step] <;> (repeat' split) <;>
      first
        | exact hi
        | exact add _
        | exact put _ _ (ne _ hu)

theorem _root_.Verif.Model.Frame.Exact.closed_step {size : Nat} {fs : Model.Frame.State}
    (h : Model.Frame.Exact size fs) {r : Except Error Unit} (hc : fs.closed = some r)
    (op : Model.Frame.Op) : (Model.Frame.step size fs op).2.closed = some r := by
  have dead : ∀ p w, fs.producers.get p ≠ some w := fun p w hp => by
    have := h.open_ p w hp; rw [hc] at this; cases this
  cases op <;> simp only [Model.Frame.step] <;> (repeat' split) <;>
    first
      | exact hc
      | (rename_i hp _; exact absurd hp (dead _ _))
      | (rename_i hp; exact absurd hp (dead _ _))

theorem Change.closed {op : Group.Op} {f size : Nat} {fs fs' : Model.Frame.State}
    (h : Change op f size fs fs') (hx : Model.Frame.Exact size fs) {r : Except Error Unit}
    (hc : fs.closed = some r) : fs'.closed = some r := by
  rcases h with rfl | ⟨_, rfl⟩ | ⟨fop, _, rfl⟩
  · exact hc
  · exact hc
  · exact hx.closed_step hc fop

/-! ## The sender -/

/-- Consumer `c` gets the `k`-th frame next. -/
def Next (s : Group.State) (c k : Nat) : Prop :=
  s.consumers.get c = some (k, none) ∨
    ∃ f, s.consumers.get c = some (k + 1, some f) ∧ s.list[k]? = some f

theorem Next.step {s : Group.State} {c k : Nat} (h : Next s c k) (op : Group.Op)
    (phase : SendPhase) (hu : ¬ Uses c phase op) : Next (Group.step s op).2 c k := by
  rcases h with h | ⟨f, h, hf⟩
  · exact .inl (consumers_step s op h phase hu)
  · refine .inr ⟨f, consumers_step s op h phase hu, ?_⟩
    obtain ⟨⟨l, hl, _⟩, _⟩ := core_step s op
    rw [hl, List.getElem?_append_left (List.getElem?_eq_some_iff.1 hf).1]; exact hf

theorem Next.cases {s : Group.State} {c k : Nat} (h : Next s c k)
    (hE : ∀ f ∈ s.list, f < s.frames.length) :
    (∃ (f size : Nat) (fs : Model.Frame.State), s.list[k]? = some f ∧
      s.frames[f]? = some (size, fs) ∧
      Group.step s (.nextFrame c) = (.reader f fs.consumers.length,
        { s with
          frames := s.frames.set f (size, { fs with consumers := fs.consumers.add 0 })
          consumers := s.consumers.put c (some (k + 1, none)) })) ∨
    (s.list[k]? = none ∧ Group.step s (.nextFrame c) = (s.atEnd, s)) := by
  have go : ∀ f, s.list[k]? = some f → ∃ (size : Nat) (fs : Model.Frame.State),
      s.frames[f]? = some (size, fs) ∧
      Model.Group.giveReader s c (k + 1) f = (.reader f fs.consumers.length,
        { s with
          frames := s.frames.set f (size, { fs with consumers := fs.consumers.add 0 })
          consumers := s.consumers.put c (some (k + 1, none)) }) := by
    intro f hf
    have hlt := hE f (List.mem_of_getElem? hf)
    have hg : s.frames[f]? = some (s.frames[f].1, s.frames[f].2) := List.getElem?_eq_getElem hlt
    refine ⟨_, _, hg, ?_⟩
    unfold Model.Group.giveReader
    rw [hg]
  rcases h with h | ⟨f, h, hf⟩
  · cases hk : s.list[k]? with
    | none =>
      right
      refine ⟨rfl, ?_⟩
      simp only [Model.Group.step, h, hk]
    | some f =>
      left
      obtain ⟨size, fs, hg, hr⟩ := go f hk
      refine ⟨f, size, fs, rfl, hg, ?_⟩
      simp only [Model.Group.step, h, hk]
      exact hr
  · left
    obtain ⟨size, fs, hg, hr⟩ := go f hf
    refine ⟨f, size, fs, hf, hg, ?_⟩
    simp only [Model.Group.step, h]
    exact hr

/-- The invariant of the sender: it has sent the frames `G`. -/
structure Sent (c : Nat) (header : Bytes) (tr : Trace) (s : Group.State) (x : Sending)
    (G : List (Nat × Bytes)) : Prop where
  wire : ∃ w, WireOf G w ∧ x.sent = header ++ w
  frames : ∀ (k size : Nat) (d : Bytes), G[k]? = some (size, d) →
    ∃ (f : Nat) (fs : Model.Frame.State), s.list[k]? = some f ∧ s.frames[f]? = some (size, fs) ∧
      d <+: fs.chunks.flatten ∧
      ((k + 1 < G.length ∨ x.phase = .frames ∨ x.ending = .fin) →
        fs.closed = some (.ok ()) ∧ d.length = size)
  idle : x.phase ≠ .done → x.ending = .idle ∧ Next s c G.length
  payload : ∀ f id, x.phase = .payload f id → ∃ (G' : List (Nat × Bytes)) (size i : Nat)
    (fs : Model.Frame.State), G = G' ++ [(size, (fs.chunks.take i).flatten)] ∧
      s.list[G'.length]? = some f ∧ s.frames[f]? = some (size, fs) ∧
      fs.consumers.get id = some i ∧ i ≤ fs.chunks.length
  fin : x.ending = .fin → s.list.length = G.length ∧ (∃ p, (Group.Op.finish p, Group.Out.ok) ∈ tr) ∧
    s.closed.isSome ∧ x.phase = .done

theorem wireOf_append {A B : List (Nat × Bytes)} {a b : Bytes} (ha : WireOf A a) (hb : WireOf B b) :
    WireOf (A ++ B) (a ++ b) := by
  induction A generalizing a with
  | nil => cases ha; exact hb
  | cons e A ih =>
    obtain ⟨size, d⟩ := e
    obtain ⟨h, r, hh, hr, rfl⟩ := ha
    exact ⟨h, r ++ b, hh, ih hr, by simp⟩

theorem wireOf_append_inv {A B : List (Nat × Bytes)} {w : Bytes} (h : WireOf (A ++ B) w) :
    ∃ a b, WireOf A a ∧ WireOf B b ∧ w = a ++ b := by
  induction A generalizing w with
  | nil => exact ⟨[], w, rfl, h, rfl⟩
  | cons e A ih =>
    obtain ⟨size, d⟩ := e
    obtain ⟨h', r, hh, hr, rfl⟩ := h
    obtain ⟨a, b, ha, hb, rfl⟩ := ih hr
    exact ⟨h' ++ d ++ a, b, ⟨h', a, hh, ha, rfl⟩, hb, by simp⟩

theorem wireOf_extend {A : List (Nat × Bytes)} {size : Nat} {d w : Bytes} (e : Bytes)
    (h : WireOf (A ++ [(size, d)]) w) : WireOf (A ++ [(size, d ++ e)]) (w ++ e) := by
  obtain ⟨a, b, ha, ⟨hd, r, hh, hr, rfl⟩, rfl⟩ := wireOf_append_inv h
  cases hr
  have := wireOf_append ha (B := [(size, d ++ e)]) (b := hd ++ (d ++ e) ++ []) ⟨hd, [], hh, rfl, rfl⟩
  simpa using this

theorem noClones_of_snoc {tr : Trace} {e : Group.Op × Group.Out} (h : NoClones (tr ++ [e])) :
    NoClones tr := fun f p id hx => h f p id (List.mem_append_left _ hx)

theorem Serve.reach {c subscribe sequence : Nat} {tr : Trace} {s : Group.State} {x : Sending}
    (h : Serve c subscribe sequence tr s x) : Group.machine.Reach tr s := by
  induction h with
  | start h _ _ _ => exact h
  | other op _ _ ih => exact Machine.Reach.step (M := Group.machine) op ih
  | next _ _ ih => exact Machine.Reach.step (M := Group.machine) (.nextFrame _) ih
  | read _ _ ih => exact Machine.Reach.step (M := Group.machine) (.frame _ (.read _)) ih
  | stop _ _ ih => exact ih

theorem Sent.reset {c : Nat} {header : Bytes} {tr : Trace} {s : Group.State} {x : Sending}
    {G : List (Nat × Bytes)} (h : Sent c header tr s x G) :
    Sent c header tr s x.reset G := by
  refine ⟨h.wire, ?_, fun hx => absurd rfl hx, fun _ _ hx => (by cases hx), fun hx => by cases hx⟩
  intro k size d hk
  obtain ⟨f, fs, h1, h2, h3, h4⟩ := h.frames k size d hk
  refine ⟨f, fs, h1, h2, h3, ?_⟩
  rintro (h | h | h)
  · exact h4 (.inl h)
  · cases h
  · cases h

/-- The part of the invariant that survives every operation on the group. -/
theorem Sent.framesStep {c : Nat} {header : Bytes} {tr : Trace} {s : Group.State} {x : Sending}
    {G : List (Nat × Bytes)} (h : Sent c header tr s x G)
    (hx : ∀ (f size : Nat) fs, s.frames[f]? = some (size, fs) → Model.Frame.Exact size fs)
    (op : Group.Op) (k size : Nat) (d : Bytes) (hk : G[k]? = some (size, d)) :
    ∃ (f : Nat) (fs : Model.Frame.State), (Group.step s op).2.list[k]? = some f ∧
      (Group.step s op).2.frames[f]? = some (size, fs) ∧ d <+: fs.chunks.flatten ∧
      ((k + 1 < G.length ∨ x.phase = .frames ∨ x.ending = .fin) →
        fs.closed = some (.ok ()) ∧ d.length = size) := by
  obtain ⟨f, fs, h1, h2, h3, h4⟩ := h.frames k size d hk
  obtain ⟨fs', hf', hc⟩ := frames_step s op h2
  obtain ⟨⟨l, hl, _⟩, _⟩ := core_step s op
  obtain ⟨xs, hxs⟩ := hc.prefix
  refine ⟨f, fs', ?_, hf', ?_, ?_⟩
  · rw [hl, List.getElem?_append_left (List.getElem?_eq_some_iff.1 h1).1]; exact h1
  · rw [hxs, List.flatten_append]; exact h3.trans (List.prefix_append _ _)
  · intro hy
    obtain ⟨h5, h6⟩ := h4 hy
    exact ⟨hc.closed (hx f size fs h2) h5, h6⟩

theorem closing_ok {tr : Trace} (h : closing tr = some (.ok ())) :
    ∃ p, (Group.Op.finish p, Group.Out.ok) ∈ tr := by
  unfold Model.Group.Spec.closing at h
  have := List.mem_of_getLast? h
  rw [List.mem_filterMap] at this
  obtain ⟨⟨op, o⟩, hm, he⟩ := this
  cases op <;> cases o <;> simp at he
  exact ⟨_, hm⟩

theorem Sent.step_other {c : Nat} {header : Bytes} {tr : Trace} {s : Group.State} {x : Sending}
    {G : List (Nat × Bytes)} (h : Sent c header tr s x G)
    (hx : ∀ (f size : Nat) fs, s.frames[f]? = some (size, fs) → Model.Frame.Exact size fs)
    (op : Group.Op) (hu : x.phase ≠ .done → ¬ Uses c x.phase op) :
    Sent c header (tr ++ [(op, (Group.step s op).1)]) (Group.step s op).2 x G := by
  refine ⟨h.wire, h.framesStep hx op, ?_, ?_, ?_⟩
  · intro hp
    obtain ⟨h1, h2⟩ := h.idle hp
    exact ⟨h1, h2.step op x.phase (hu hp)⟩
  · intro f id hp
    obtain ⟨G', size, i, fs, rfl, h2, h3, h4, h5⟩ := h.payload f id hp
    obtain ⟨fs', hf', hc⟩ := frames_step s op h3
    obtain ⟨⟨l, hl, _⟩, _⟩ := core_step s op
    obtain ⟨xs, hxs⟩ := hc.prefix
    refine ⟨G', size, i, fs', ?_, ?_, hf', readers_step hc h4 c ?_, ?_⟩
    · rw [hxs, List.take_append_of_le_length h5]
    · rw [hl, List.getElem?_append_left (List.getElem?_eq_some_iff.1 h2).1]; exact h2
    · rw [← hp]; exact hu (by rw [hp]; simp)
    · rw [hxs, List.length_append]; omega
  · intro hf
    obtain ⟨h1, ⟨p, h2⟩, h3, h4⟩ := h.fin hf
    obtain ⟨⟨l, hl, hl'⟩, hc⟩ := core_step s op
    refine ⟨?_, ⟨p, List.mem_append_left _ h2⟩, hc h3, h4⟩
    rw [hl, hl' h3, List.append_nil]; exact h1

theorem Sent.trace {c : Nat} {header : Bytes} {tr : Trace} {s : Group.State} {x : Sending}
    {G : List (Nat × Bytes)} (h : Sent c header tr s x G) (e : Group.Op × Group.Out) :
    Sent c header (tr ++ [e]) s x G :=
  ⟨h.wire, h.frames, h.idle, h.payload, fun hf => by
    obtain ⟨h1, ⟨p, h2⟩, h3⟩ := h.fin hf
    exact ⟨h1, ⟨p, List.mem_append_left _ h2⟩, h3⟩⟩

theorem Sent.list_le {c : Nat} {header : Bytes} {tr : Trace} {s : Group.State} {x : Sending}
    {G : List (Nat × Bytes)} (h : Sent c header tr s x G) : G.length ≤ s.list.length := by
  cases hG : G.length with
  | zero => omega
  | succ k =>
    have hlt : k < G.length := by omega
    obtain ⟨f, fs, h1, _⟩ := h.frames k G[k].1 G[k].2 (List.getElem?_eq_getElem hlt)
    have := (List.getElem?_eq_some_iff.1 h1).1
    omega

theorem serve_sent {c subscribe sequence : Nat} {tr : Trace} {s : Group.State} {x : Sending}
    (h : Serve c subscribe sequence tr s x) (hn : NoClones tr) :
    ∃ header G, groupHeader subscribe sequence = .ok header ∧ Sent c header tr s x G := by
  induction h with
  | @start tr s header hr hc hg hh =>
    refine ⟨header, [], hh, ⟨[], rfl, (List.append_nil _).symm⟩, ?_, ?_, ?_, ?_⟩
    · intro k size d hk; simp at hk
    · intro _
      refine ⟨rfl, ?_⟩
      have hI := Model.Group.inv_reach hr
      obtain ⟨⟨i, a⟩, hi⟩ := (hI.alive_iff c).1 hc
      have hs := hI.serves.served c i a hi
      rw [hg] at hs
      cases a with
      | none => have := hs.idle rfl; simp only [List.length_nil] at this; subst this; exact .inl hi
      | some f =>
        obtain ⟨rfl, hl⟩ := hs.busy f rfl
        exact .inr ⟨f, hi, hl⟩
    · intro f id hx; cases hx
    · intro hx; cases hx
  | @other tr s x op hu hs ih =>
    obtain ⟨header, G, hh, hS⟩ := ih (noClones_of_snoc hn)
    exact ⟨header, G, hh, hS.step_other (exact_frames hs.reach (noClones_of_snoc hn)) op hu⟩
  | @next tr s x hp hs ih =>
    obtain ⟨header, G, hh, hS⟩ := ih (noClones_of_snoc hn)
    have hI := Model.Group.inv_reach hs.reach
    have hex := exact_frames hs.reach (noClones_of_snoc hn)
    obtain ⟨hidle, hnext⟩ := hS.idle (by rw [hp]; simp)
    rcases hnext.cases hI.serves.exist with ⟨f, size, fs, hl, hf, hst⟩ | ⟨hl, hst⟩
    · have hsz : sizeIn s f = size := by unfold sizeIn; rw [hf]
      have hfs := hS.framesStep hex (.nextFrame c)
      rw [hst] at hfs ⊢
      simp only [Sending.next, hsz]
      have hlt := (List.getElem?_eq_some_iff.1 hf).1
      have hplain : ∀ (x' : Sending), x'.sent = x.sent → x'.phase = .done →
          x'.ending = .failed (.stream 0) → Sent c header
          (tr ++ [(Group.Op.nextFrame c, Group.Out.reader f fs.consumers.length)])
          { s with
            frames := s.frames.set f (size, { fs with consumers := fs.consumers.add 0 })
            consumers := s.consumers.put c (some (G.length + 1, none)) } x' G := by
        intro x' h1 h2 h3
        refine ⟨by rw [h1]; exact hS.wire, ?_, fun hx => absurd h2 hx,
          fun f id hx => (by rw [h2] at hx; cases hx), fun hx => by rw [h3] at hx; cases hx⟩
        intro k size' d hk
        obtain ⟨f', fs', g1, g2, g3, g4⟩ := hfs k size' d hk
        exact ⟨f', fs', g1, g2, g3, fun _ => g4 (.inr (.inl hp))⟩
      split
      · rename_i hdr hw
        obtain ⟨w, hw1, hw2⟩ := hS.wire
        refine ⟨header, G ++ [(size, [])], hh, ⟨w ++ hdr, ?_, by simp [hw2]⟩, ?_, ?_, ?_, ?_⟩
        · have := wireOf_append hw1 (B := [(size, [])]) (b := hdr ++ [] ++ []) ⟨hdr, [], hw, rfl, rfl⟩
          simpa using this
        · intro k size' d hk
          rw [List.getElem?_append] at hk
          split at hk
          · obtain ⟨f', fs', g1, g2, g3, g4⟩ := hfs k size' d hk
            exact ⟨f', fs', g1, g2, g3, fun _ => g4 (.inr (.inl hp))⟩
          · rename_i hge
            rw [List.getElem?_singleton] at hk
            split at hk
            · rename_i hz
              cases hk
              have hk : k = G.length := by omega
              subst hk
              refine ⟨f, { fs with consumers := fs.consumers.add 0 }, hl, ?_,
                List.nil_prefix, ?_⟩
              · simp [hlt]
              · simp [hidle]
            · cases hk
        · intro _
          refine ⟨hidle, .inl ?_⟩
          show (s.consumers.put c (some (G.length + 1, none))).get c = _
          rw [List.length_append, List.length_singleton]
          rcases hnext with h | ⟨_, h, _⟩ <;> exact Slots.get_put_self _ h
        · intro f' id' hx
          cases hx
          refine ⟨G, size, 0, { fs with consumers := fs.consumers.add 0 }, by simp, hl, ?_, ?_,
            Nat.zero_le _⟩
          · simp [hlt]
          · show (fs.consumers.add 0).get fs.consumers.length = some 0
            rw [Slots.get_add, if_pos rfl]
        · intro hx; rw [hidle] at hx; cases hx
      · exact ⟨header, G, hh, hplain _ rfl rfl rfl⟩
    · rw [hst]
      refine ⟨header, G, hh, Sent.trace ?_ _⟩
      show Sent c header tr s (x.next (sizeIn s) s.atEnd) G
      unfold Model.Group.State.atEnd
      repeat' split
      · rename_i u hc
        refine ⟨hS.wire, ?_, fun hx => absurd rfl hx, fun f id hx => (by cases hx), ?_⟩
        · intro k size d hk
          obtain ⟨f, fs, g1, g2, g3, g4⟩ := hS.frames k size d hk
          exact ⟨f, fs, g1, g2, g3, fun _ => g4 (.inr (.inl hp))⟩
        · intro _
          refine ⟨?_, closing_ok (by rw [hI.agrees.closed, hc]), by rw [hc]; rfl, rfl⟩
          have := hS.list_le
          rw [List.getElem?_eq_none_iff] at hl
          omega
      · exact hS.reset
      · exact hS.reset
      · exact hS
  | @read tr s x f id hp hs ih =>
    obtain ⟨header, G, hh, hS⟩ := ih (noClones_of_snoc hn)
    have hex := exact_frames hs.reach (noClones_of_snoc hn)
    obtain ⟨hidle, hnext⟩ := hS.idle (by rw [hp]; simp)
    obtain ⟨G', size, i, fs, rfl, hl, hf, hi, hle⟩ := hS.payload f id hp
    have hst : Group.step s (.frame f (.read id)) = (.frame (Model.Frame.step size fs (.read id)).1,
        { s with frames := s.frames.set f (size, (Model.Frame.step size fs (.read id)).2) }) := by
      simp only [Model.Group.step, hf]
      rw [if_neg (by simp [Model.Frame.Op.isPollUnused])]
    have hlt := (List.getElem?_eq_some_iff.1 hf).1
    have hfs := hS.framesStep hex (.frame f (.read id))
    have hset : s.frames.set f (size, fs) = s.frames := by
      have := (List.getElem?_eq_some_iff.1 hf).2
      rw [← this]; simp
    rw [hst] at hfs ⊢
    revert hfs
    simp only [Model.Frame.step, hi]
    cases hch : fs.chunks[i]? with
    | some chunk =>
      simp only
      intro hfs
      have hilt := (List.getElem?_eq_some_iff.1 hch).1
      have htake : (fs.chunks.take (i + 1)).flatten = (fs.chunks.take i).flatten ++ chunk := by
        rw [List.take_add_one, hch]; simp
      obtain ⟨w, hw1, hw2⟩ := hS.wire
      refine ⟨header, G' ++ [(size, (fs.chunks.take (i + 1)).flatten)], hh, ?_, ?_, ?_, ?_, ?_⟩
      · refine ⟨w ++ chunk, ?_, by simp [Sending.read, hw2]⟩
        rw [htake]; exact wireOf_extend chunk hw1
      · intro k size' d hk
        by_cases hkl : k < G'.length
        · rw [List.getElem?_append_left hkl] at hk
          obtain ⟨f', fs', g1, g2, g3, g4⟩ := hfs k size' d
            (by rw [List.getElem?_append_left hkl]; exact hk)
          refine ⟨f', fs', g1, g2, g3, fun _ => g4 (.inl ?_)⟩
          simp; omega
        · have hk2 := (List.getElem?_eq_some_iff.1 hk).1
          simp only [List.length_append, List.length_singleton] at hk2
          have hkk : k = G'.length := by omega
          subst hkk
          simp only [List.getElem?_concat_length] at hk
          cases hk
          refine ⟨f, { fs with consumers := fs.consumers.put id (some (i + 1)) }, hl, ?_, ?_, ?_⟩
          · simp [hlt]
          · obtain ⟨t, ht⟩ := List.take_prefix (i + 1) fs.chunks
            exact ⟨t.flatten, by rw [← List.flatten_append, ht]⟩
          · simp [Sending.read, hp, hidle]
      · intro _
        refine ⟨hidle, ?_⟩
        have := hnext
        unfold Next at this ⊢
        simpa using this
      · intro f' id' hx
        have : SendPhase.payload f id = .payload f' id' := by
          rw [← hp]; exact hx
        cases this
        refine ⟨G', size, i + 1, { fs with consumers := fs.consumers.put id (some (i + 1)) }, rfl, hl,
          ?_, ?_, by exact hilt⟩
        · simp [hlt]
        · exact Slots.get_put_self _ hi
      · intro hx
        have : x.ending = .fin := hx
        rw [hidle] at this; cases this
    | none =>
      simp only
      have hall : fs.chunks.take i = fs.chunks :=
        List.take_of_length_le (List.getElem?_eq_none_iff.1 hch)
      have reset : ∀ o, x.read o = x.reset → ∃ header' G2,
          groupHeader subscribe sequence = .ok header' ∧
          Sent c header' (tr ++ [(Group.Op.frame f (.read id), o)])
            { s with frames := s.frames.set f (size, fs) } (x.read o) G2 := by
        intro o ho
        rw [ho, hset]
        exact ⟨header, _, hh, (hS.reset).trace _⟩
      split
      · rename_i u hc
        intro _
        rw [hset]
        refine ⟨header, _, hh, Sent.trace (G := G' ++ [(size, (fs.chunks.take i).flatten)]) ?_ _⟩
        refine ⟨hS.wire, ?_, fun _ => ⟨hidle, hnext⟩, fun f id hx => (by cases hx),
          fun hx => by
            have : x.ending = .fin := hx
            rw [hidle] at this; cases this⟩
        intro k size' d hk
        obtain ⟨f', fs', g1, g2, g3, g4⟩ := hS.frames k size' d hk
        refine ⟨f', fs', g1, g2, g3, fun _ => ?_⟩
        by_cases hkl : k < G'.length
        · exact g4 (.inl (by simp; omega))
        · have hk2 := (List.getElem?_eq_some_iff.1 hk).1
          simp only [List.length_append, List.length_singleton] at hk2
          have hkk : k = G'.length := by omega
          subst hkk
          simp only [List.getElem?_concat_length] at hk
          cases hk
          have hff : f' = f := Option.some.inj (g1.symm.trans hl)
          subst hff
          have hfe : (size, fs') = (size, fs) := Option.some.inj (g2.symm.trans hf)
          cases hfe
          rw [hall]
          exact ⟨hc, (hex f' size fs hf).finished hc⟩
      · intro _; exact reset _ rfl
      · intro _
        unfold Model.Frame.State.wait
        split
        · exact reset _ rfl
        · rw [hset]
          exact ⟨header, _, hh, hS.trace _⟩
  | @stop tr s x hp hs ih =>
    obtain ⟨header, G, hh, hS⟩ := ih hn
    exact ⟨header, G, hh, hS.reset⟩

end Verif.Session.Transfer
