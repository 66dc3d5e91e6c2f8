import Verif.Js.ServeLemmas
import Verif.Props.JsTrack
import Verif.Props.JsWire

/-!
# Property C104: serving a subscription in the browser
-/

set_option autoImplicit false

namespace Verif.Props.JsServe

open Verif Verif.Js Verif.Js.Serve Verif.Props.Grammar Verif.Props.JsWire

open Verif.Props.Message (Kind)
open Verif.Session (StreamEnd)

/-! ## Specification -/

/-- What the stream of a group carries: the type of the stream, the subscription and the number of the
group, the frames each with its length, and then `cut`. -/
def OnWire (id g : Nat) (fs : List Bytes) (bytes cut : Bytes) : Prop :=
  ∃ head items, bytes = 0 :: (head ++ items ++ cut) ∧ Wire .group head ⟨id, g⟩ ∧
    Items Blob items fs ∧ ∀ f ∈ fs, Safe f.length

/-- Nothing, or the beginning of the frame that follows the first `k`. -/
def Next (fs : List Bytes) (k : Nat) (cut : Bytes) : Prop :=
  cut = [] ∨ ∃ f missing, fs[k]? = some f ∧ Safe f.length ∧ missing ≠ [] ∧ Blob (cut ++ missing) f

/-- The frames written to a group, in a history of a subscription. -/
def frames (tr : Trace) (g : Nat) : List Bytes := Track.content (trackTrace tr) g

/-! ## Lemmas -/

theorem safe_iff (n : Nat) : n ≤ MAX_U53 ↔ Safe n := Iff.rfl

theorem task_group {tr : Trace} {s : State} (h : machine.Reach tr s) {i : Nat} {t : Task}
    (ht : s.tasks[i]? = some t) : ∃ x, Track.find s.track t.group = some x ∧ TOk s.id x t ∧
      x.frames = frames tr t.group ∧ (x.status = .closed ↔ GroupClosed (trackTrace tr) t.group) ∧
      (x.status = .aborted ↔ GroupAborted (trackTrace tr) t.group) := by
  obtain ⟨x, hx, hok⟩ := tinv_reach h i t ht
  have b := base_reach h
  obtain ⟨hm, hid⟩ := Track.find_mem hx
  have hc := (Track.inv_reach b.track).track.content x hm
  have hf := fate_reach b.track
  rw [hid] at hc
  have f1 := hf.closed x hm
  have f2 := hf.aborted x hm
  rw [hid] at f1 f2
  exact ⟨x, hx, hok, hc, f1, f2⟩

theorem items_body (fs : List Bytes) (h : ∀ f ∈ fs, Safe f.length) : Items Blob (body fs) fs := by
  induction fs with
  | nil => exact .nil
  | cons f fs ih =>
    have hb : body (f :: fs) = (encodeFrame f).bytes ++ body fs := by simp [body]
    rw [hb]
    exact .cons (blob_write f (h f (by simp))).2 (ih fun x hx => h x (by simp [hx]))

theorem items_snoc {α : Type} {F : Format α} {bs b : Bytes} {xs : List α} {x : α}
    (h : Items F bs xs) (hx : F b x) : Items F (bs ++ b) (xs ++ [x]) := by
  induction h with
  | nil =>
    have := Items.cons hx (Items.nil (F := F))
    simpa using this
  | cons h1 _ ih =>
    rw [List.append_assoc, List.cons_append]
    exact .cons h1 ih

theorem head_none (id g : Nat) : (openUni ⟨id, g⟩).thrown = none ↔ Safe g := by
  unfold openUni Js.Group.encode
  rw [seq_none, seq_none, (u53_throws g).1]
  exact ⟨fun h => h.2.2, fun h => ⟨rfl, writeU62_none id, h⟩⟩

theorem head_wire (id g : Nat) (hid : id < 2 ^ 62) (hg : Safe g) :
    ∃ head, (openUni ⟨id, g⟩).bytes = 0 :: head ∧ Wire .group head ⟨id, g⟩ := by
  refine ⟨(writeU62 id).bytes ++ (writeU53 g).bytes, ?_, _, _, rfl, varint62 id hid,
    (varint53 g hg).2⟩
  unfold openUni Js.Group.encode
  rw [seq_bytes rfl, seq_bytes (writeU62_none id)]
  rfl

theorem onWire_of {id : Nat} {x : Track.Grp} {t : Task} {k : Nat} {cut : Bytes} (hid : id < 2 ^ 62)
    (h : Sent id x t k cut) : OnWire id t.group (x.frames.take k) t.bytes cut := by
  obtain ⟨head, h1, h2⟩ := head_wire id t.group hid ((head_none _ _).1 h.header)
  refine ⟨head, body (x.frames.take k), ?_, h2, items_body _ h.fine, h.fine⟩
  rw [h.bytes, h1]
  simp

theorem id_of {tr : Trace} {s : State} (h : machine.Reach tr s) {id c : Nat}
    (hs : Subscribed tr id c) : s.phase.consumer = some c ∧ s.id = id := by
  have := (base_reach h).unique id c hs
  exact ⟨this.1, this.2⟩

/-- A written length is part of a frame, or a frame without contents. -/
theorem onWire_next {id g : Nat} {fs : List Bytes} {k : Nat} {b bytes : Bytes}
    (hb : fs[k]? = some b) (hs : Safe b.length)
    (h : OnWire id g (fs.take k) bytes (writeU53 b.length).bytes) :
    ∃ k cut, k ≤ fs.length ∧ OnWire id g (fs.take k) bytes cut ∧ Next fs k cut := by
  have hlt := (List.getElem?_eq_some_iff.1 hb).1
  obtain ⟨-, hv⟩ := varint53 b.length hs
  cases b with
  | cons y ys =>
    refine ⟨k, _, by omega, h, .inr ⟨_, y :: ys, hb, hs, by simp, _, rfl, hv⟩⟩
  | nil =>
    obtain ⟨head, items, h1, h2, h3, h4⟩ := h
    refine ⟨k + 1, [], hlt, ⟨head, items ++ (writeU53 0).bytes, ?_, h2, ?_, ?_⟩, .inl rfl⟩
    · rw [h1]
      simp
    · rw [List.take_add_one, hb]
      exact items_snoc h3 ⟨_, (List.append_nil _).symm, hv⟩
    · rw [List.take_add_one, hb]
      intro f hf
      rw [List.mem_append] at hf
      rcases hf with hf | hf
      · exact h4 f hf
      · simp at hf
        subst hf
        exact hs

/-! ## Streams -/

/-- **C104, streams.**  There is one stream for each group the consumer of the subscription is given,
in that order: they are groups of the track, with increasing numbers. -/
theorem c104_streams {tr : Trace} {s : State} (h : machine.Reach tr s) {id c : Nat}
    (hs : Subscribed tr id c) :
    s.tasks.map (·.group) = Track.seen (trackTrace tr) c ∧
    (s.tasks.map (·.group)).Sublist (Track.accepted (trackTrace tr)) ∧
    (s.tasks.map (·.group)).Pairwise (· < ·) := by
  have b := base_reach h
  have he := b.seen c (id_of h hs).1
  have hg := JsTrack.c94_groups b.track c
  rw [he]
  exact ⟨rfl, hg.1, hg.2⟩

/-- **C104, contents.**  At any time a stream carries the id of the subscription, the number of its
group, and the first frames of the group, unchanged and in order; and perhaps the beginning of the
next one.  (Or nothing yet; and a number above 2^53 cannot be written.) -/
theorem c104_bytes {tr : Trace} {s : State} (h : machine.Reach tr s) {id c : Nat}
    (hs : Subscribed tr id c) (hid : id < 2 ^ 62) {i : Nat} {t : Task} (ht : s.tasks[i]? = some t)
    (hg : Safe t.group) :
    t.bytes = [] ∨ ∃ k cut, k ≤ (frames tr t.group).length ∧
      OnWire id t.group ((frames tr t.group).take k) t.bytes cut ∧ Next (frames tr t.group) k cut := by
  obtain ⟨x, -, hok, hf, -, -⟩ := task_group h ht
  rw [(id_of h hs).2] at hok
  rw [← hf]
  unfold TOk at hok
  split at hok
  · exact .inl hok.1
  · exact .inr ⟨_, [], hok.1.le, onWire_of hid hok.1, .inl rfl⟩
  · obtain ⟨k, -, h2, h3, h4, -⟩ := hok
    exact .inr (onWire_next h2 h3 (onWire_of hid h4))
  · obtain ⟨k, cut, h1, h2, -⟩ := hok
    rcases h2 with h2 | ⟨b, a1, a2, a3⟩
    · exact .inr ⟨k, cut, h1.le, onWire_of hid h1, .inl h2⟩
    · subst a3
      exact .inr (onWire_next a1 a2 (onWire_of hid h1))
  · rcases hok.2 with h1 | h1
    · exact .inl h1
    · exact absurd ((head_none _ _).2 hg) h1

/-- **C104, finished.**  A stream is finished only if its group was closed, and after all frames. -/
theorem c104_finished {tr : Trace} {s : State} (h : machine.Reach tr s) {id c : Nat}
    (hs : Subscribed tr id c) (hid : id < 2 ^ 62) {i : Nat} {t : Task} (ht : s.tasks[i]? = some t)
    (he : t.ending = some .finished) :
    GroupClosed (trackTrace tr) t.group ∧ OnWire id t.group (frames tr t.group) t.bytes [] := by
  obtain ⟨x, -, hok, hf, hc, -⟩ := task_group h ht
  rw [(id_of h hs).2] at hok
  rw [← hf, ← hc]
  unfold TOk at hok
  split at hok
  · rw [hok.2.2] at he; cases he
  · rw [hok.2] at he; cases he
  · obtain ⟨k, -, -, -, -, h5⟩ := hok
    rw [h5] at he; cases he
  · obtain ⟨k, cut, h1, -, h3⟩ := hok
    obtain ⟨a1, a2, a3⟩ := h3.finished he
    refine ⟨a1, ?_⟩
    have := onWire_of hid h1
    rwa [a2, List.take_length, a3] at this
  · rw [hok.1] at he; cases he

/-- **C104, reset.**  A stream is reset only if its group was aborted, after all frames; or at a frame
whose length cannot be written. -/
theorem c104_reset {tr : Trace} {s : State} (h : machine.Reach tr s) {id c : Nat}
    (hs : Subscribed tr id c) (hid : id < 2 ^ 62) {i : Nat} {t : Task} (ht : s.tasks[i]? = some t)
    (he : t.ending = some .reset) :
    GroupAborted (trackTrace tr) t.group ∧ OnWire id t.group (frames tr t.group) t.bytes [] ∨
    ∃ k f, (frames tr t.group)[k]? = some f ∧ ¬ Safe f.length ∧
      OnWire id t.group ((frames tr t.group).take k) t.bytes [] := by
  obtain ⟨x, -, hok, hf, -, hc⟩ := task_group h ht
  rw [(id_of h hs).2] at hok
  rw [← hf, ← hc]
  unfold TOk at hok
  split at hok
  · rw [hok.2.2] at he; cases he
  · rw [hok.2] at he; cases he
  · obtain ⟨k, -, -, -, -, h5⟩ := hok
    rw [h5] at he; cases he
  · obtain ⟨k, cut, h1, -, h3⟩ := hok
    have hw := onWire_of hid h1
    obtain ⟨a1, ⟨a2, a3⟩ | ⟨b, a2, a3⟩⟩ := h3.reset he
    · rw [a1, a3, List.take_length] at hw
      exact .inl ⟨a2, hw⟩
    · rw [a1] at hw
      refine .inr ⟨k, b, a2, ?_, hw⟩
      rw [← safe_iff]
      omega
  · rw [hok.1] at he; cases he

/-- **C104, given up.**  A stream that was opened is given up without an end only if it has failed. -/
theorem c104_given_up {tr : Trace} {s : State} (h : machine.Reach tr s) {i : Nat} {t : Task}
    (ht : s.tasks[i]? = some t) (hp : t.phase = .over) (he : t.ending = none) : Failed tr i := by
  obtain ⟨x, -, hok, -, -, -⟩ := task_group h ht
  unfold TOk at hok
  rw [hp] at hok
  obtain ⟨k, cut, -, -, h3⟩ := hok
  exact ((finv_reach h).failed i t ht).1 (h3.none he)

/-- **C104, waiting.**  A stream that waits for a frame carries all frames so far, and its group goes
on. -/
theorem c104_waiting {tr : Trace} {s : State} (h : machine.Reach tr s) {id c : Nat}
    (hs : Subscribed tr id c) (hid : id < 2 ^ 62) {i : Nat} {t : Task} (ht : s.tasks[i]? = some t)
    (hp : (step s (.frame i)).1 = .pending) :
    OnWire id t.group (frames tr t.group) t.bytes [] ∧ t.ending = none ∧
    ¬ GroupClosed (trackTrace tr) t.group ∧ ¬ GroupAborted (trackTrace tr) t.group := by
  obtain ⟨x, hx, hok, hf, hc, ha⟩ := task_group h ht
  rw [(id_of h hs).2] at hok
  rw [← hf, ← hc, ← ha]
  rw [step.eq_def] at hp
  dsimp only at hp
  unfold onTask at hp
  rw [ht] at hp
  dsimp only at hp
  unfold frame at hp
  split at hp
  · next hph =>
    unfold TOk at hok
    rw [hph] at hok
    rw [hx] at hp
    dsimp only at hp
    split at hp
    · cases hp
    · next hn =>
      split at hp
      · next hl =>
        have hw := onWire_of hid hok.1
        rw [List.take_of_length_le (List.getElem?_eq_none_iff.1 hn)] at hw
        rw [hl]
        exact ⟨hw, hok.2, by simp, by simp⟩
      · cases hp
      · cases hp
  · cases hp

/-! ## Progress -/

/-- `n` times a frame and its end, and then once more. -/
def drain (i : Nat) : Nat → List Op
  | 0 => [.frame i]
  | n + 1 => .frame i :: .flushed i :: drain i n

theorem drain_own (i n : Nat) : ∀ op ∈ drain i n, op = .frame i ∨ op = .flushed i := by
  induction n with
  | zero => intro op h; simp [drain] at h; simp [h]
  | succ n ih =>
    intro op h
    simp only [drain, List.mem_cons] at h
    rcases h with h | h | h
    · exact .inl h
    · exact .inr h
    · exact ih op h

/-- The streams other than one. -/
def Others (i : Nat) (s s' : State) : Prop :=
  s'.track = s.track ∧ s'.id = s.id ∧ s'.phase = s.phase ∧ s'.ending = s.ending ∧
    ∀ j, j ≠ i → s'.tasks[j]? = s.tasks[j]?

theorem Others.trans {i : Nat} {s s' s'' : State} (h : Others i s s') (h' : Others i s' s'') :
    Others i s s'' :=
  ⟨h'.1.trans h.1, h'.2.1.trans h.2.1, h'.2.2.1.trans h.2.2.1, h'.2.2.2.1.trans h.2.2.2.1,
    fun j hj => (h'.2.2.2.2 j hj).trans (h.2.2.2.2 j hj)⟩

theorem others_task (s : State) (i : Nat) (f : Task → Out × Task) : Others i s (onTask s i f).2 := by
  unfold onTask
  split
  · exact ⟨rfl, rfl, rfl, rfl, fun j hj => List.getElem?_set_ne (Ne.symm hj)⟩
  · exact ⟨rfl, rfl, rfl, rfl, fun _ _ => rfl⟩

theorem onTask_get {s : State} {i : Nat} {t : Task} (ht : s.tasks[i]? = some t)
    (f : Task → Out × Task) : (onTask s i f).2.tasks[i]? = some (f t).2 := by
  unfold onTask
  rw [ht]
  dsimp only
  rw [List.getElem?_set_self (List.getElem?_eq_some_iff.1 ht).1]

/-- How a stream ends if nothing fails. -/
def Fin (x : Track.Grp) (t : Task) : Prop :=
  match x.status with
  | .live => t.phase = .looping ∧ t.index = x.frames.length
  | .closed => t.ending = some .finished
  | .aborted => t.ending = some .reset

theorem drains (n : Nat) : ∀ (s : State) (i : Nat) (t : Task) (x : Track.Grp), s.tasks[i]? = some t →
    Track.find s.track t.group = some x → t.phase = .looping → t.failed = false → t.ending = none →
    t.index + n = x.frames.length → (∀ f ∈ x.frames, Safe f.length) →
    ∃ t', (machine.runFrom s (drain i n)).2.tasks[i]? = some t' ∧ t'.group = t.group ∧
      t'.bytes = t.bytes ++ body (x.frames.drop t.index) ∧ Fin x t' ∧
      Others i s (machine.runFrom s (drain i n)).2 := by
  induction n with
  | zero =>
    intro s i t x ht hx hp hf he hn hsafe
    refine ⟨_, onTask_get ht _, frame_group _ _, ?_, ?_, others_task s i _⟩
    · rw [List.drop_of_length_le (by omega)]
      unfold frame
      rw [hp, hx]
      dsimp only
      rw [List.getElem?_eq_none (by omega)]
      dsimp only
      split <;> simp [body, Task.finish]
    · unfold frame Fin
      rw [hp, hx]
      dsimp only
      rw [List.getElem?_eq_none (by omega)]
      dsimp only
      cases x.status <;> simp [Task.finish, hf, hp]
      omega
  | succ n ih =>
    intro s i t x ht hx hp hf he hn hsafe
    have hlt : t.index < x.frames.length := by omega
    have hb : x.frames[t.index]? = some x.frames[t.index] := List.getElem?_eq_getElem hlt
    have hbs := hsafe _ (List.getElem_mem hlt)
    generalize x.frames[t.index] = b at hb hbs
    have hw := (varint53 b.length hbs).1
    have hfr : (frame s.track t).2 =
        { t with index := t.index + 1, bytes := t.bytes ++ (writeU53 b.length).bytes, phase := .writing b } := by
      unfold frame
      rw [hp, hx]
      dsimp only
      rw [hb]
      unfold sendLength
      simp only [hf, Bool.false_eq_true, if_false]
      generalize writeU53 b.length = w at hw
      obtain ⟨l, e⟩ := w
      cases hw
      rfl
    have h1 := onTask_get ht (frame s.track)
    have o1 := others_task s i (frame s.track)
    rw [hfr] at h1
    have h2 := onTask_get h1 flushed
    have o2 := others_task (onTask s i (frame s.track)).2 i flushed
    have hfl : (flushed { t with index := t.index + 1, bytes := t.bytes ++ (writeU53 b.length).bytes, phase := .writing b }).2 =
        { t with index := t.index + 1, bytes := t.bytes ++ (writeU53 b.length).bytes ++ b, phase := .looping } := by
      unfold flushed
      simp [hf]
    rw [hfl] at h2
    obtain ⟨t', r1, r2, r3, r4, r5⟩ := ih _ i _ x h2 (by rw [o2.1, o1.1]; exact hx) rfl hf he
      (by dsimp only; omega) hsafe
    refine ⟨t', r1, r2, ?_, r4, (o1.trans o2).trans r5⟩
    rw [r3]
    dsimp only
    have hd : x.frames.drop t.index = b :: x.frames.drop (t.index + 1) := by
      rw [List.drop_eq_getElem_cons hlt]
      have := List.getElem?_eq_getElem hlt
      rw [hb] at this
      rw [Option.some.inj this]
    rw [hd]
    have he : (encodeFrame b).bytes = (writeU53 b.length).bytes ++ b := by
      unfold encodeFrame
      rw [seq_bytes hw]
      rfl
    simp [body, he]

theorem runFrom_two (s : State) (a b : List Op) :
    (machine.runFrom s (a ++ b)).2 = (machine.runFrom (machine.runFrom s a).2 b).2 := by
  induction a generalizing s with
  | nil => rfl
  | cons op a ih => exact ih _

/-- The stream was brought to its end by these steps. -/
def Done (s : State) (id i : Nat) (t : Task) (x : Track.Grp) (ops : List Op) : Prop :=
  (∀ op ∈ ops, op = .opened i true ∨ op = .frame i ∨ op = .flushed i) ∧
    ∃ t', (machine.runFrom s ops).2.tasks[i]? = some t' ∧ t'.group = t.group ∧
      OnWire id t.group x.frames t'.bytes [] ∧
      (x.status = .closed → t'.ending = some .finished) ∧
      (x.status = .aborted → t'.ending = some .reset) ∧
      (¬ x.status = .closed → ¬ x.status = .aborted →
        (step (machine.runFrom s ops).2 (.frame i)).1 = .pending)

theorem done_of {s : State} {id i : Nat} {t : Task} {x : Track.Grp} (hid : id < 2 ^ 62)
    (hx : Track.find s.track t.group = some x) (hsafe : ∀ f ∈ x.frames, Safe f.length)
    (ops : List Op) {t1 : Task}
    (hops : ∀ op ∈ ops, op = .opened i true ∨ op = .frame i ∨ op = .flushed i)
    (ho : Others i s (machine.runFrom s ops).2) (h1 : (machine.runFrom s ops).2.tasks[i]? = some t1)
    (hgr : t1.group = t.group) (hp1 : t1.phase = .looping) (hf1 : t1.failed = false)
    (he1 : t1.ending = none) (hse : Sent id x t1 t1.index []) :
    ∃ ops, Done s id i t x ops := by
  have hx' : Track.find (machine.runFrom s ops).2.track t1.group = some x := by
    rw [ho.1, hgr]; exact hx
  obtain ⟨t', r1, r2, r3, r4, r5⟩ := drains (x.frames.length - t1.index) _ i t1 x h1 hx' hp1 hf1 he1
    (by have := hse.le; omega) hsafe
  have hbytes : Sent id x t' x.frames.length [] := by
    refine ⟨?_, ?_, Nat.le_refl _, ?_⟩
    · rw [r2]
      exact hse.header
    · rw [r3, hse.bytes, r2, List.take_length, List.append_nil, List.append_nil, List.append_assoc]
      congr 1
      conv => rhs; rw [← List.take_append_drop t1.index x.frames]
      simp only [body, List.map_append, List.flatten_append]
    · intro f hf
      rw [List.take_length] at hf
      exact hsafe f hf
  have hrun := runFrom_two s ops (drain i (x.frames.length - t1.index))
  refine ⟨ops ++ drain i (x.frames.length - t1.index), ?_, t', ?_, r2.trans hgr, ?_, ?_, ?_, ?_⟩
  · intro op hop
    rcases List.mem_append.1 hop with h' | h'
    · exact hops op h'
    · exact .inr (drain_own i _ op h')
  · rw [hrun]
    exact r1
  · have := onWire_of hid hbytes
    rwa [List.take_length, r2, hgr] at this
  · intro h'
    unfold Fin at r4
    rw [h'] at r4
    exact r4
  · intro h'
    unfold Fin at r4
    rw [h'] at r4
    exact r4
  · intro n1 n2
    have hlive : x.status = .live := by
      cases hst : x.status with
      | live => rfl
      | closed => exact absurd hst n1
      | aborted => exact absurd hst n2
    unfold Fin at r4
    rw [hlive] at r4
    rw [hrun, step.eq_def]
    dsimp only
    unfold onTask
    rw [r1]
    dsimp only
    unfold frame
    rw [r4.1, r5.1, r2, hx']
    dsimp only
    rw [List.getElem?_eq_none (by omega), hlive]

/-- **C104, delivery.**  Whatever has happened, a stream that was not given up can go on, on its own,
until it carries all frames of its group; and then it is finished if the group was closed, reset if
the group was aborted, and waits otherwise. -/
theorem c104_delivers {tr : Trace} {s : State} (h : machine.Reach tr s) {id c : Nat}
    (hs : Subscribed tr id c) (hid : id < 2 ^ 62) {i : Nat} {t : Task} (ht : s.tasks[i]? = some t)
    (hg : Safe t.group) (hsafe : ∀ f ∈ frames tr t.group, Safe f.length) (hf : ¬ Failed tr i)
    (hl : t.phase ≠ .lost) (he : t.ending = none) :
    ∃ ops, (∀ op ∈ ops, op = .opened i true ∨ op = .frame i ∨ op = .flushed i) ∧
      ∃ t', (machine.runFrom s ops).2.tasks[i]? = some t' ∧ t'.group = t.group ∧
        OnWire id t.group (frames tr t.group) t'.bytes [] ∧
        (GroupClosed (trackTrace tr) t.group → t'.ending = some .finished) ∧
        (GroupAborted (trackTrace tr) t.group → t'.ending = some .reset) ∧
        (¬ GroupClosed (trackTrace tr) t.group → ¬ GroupAborted (trackTrace tr) t.group →
          (step (machine.runFrom s ops).2 (.frame i)).1 = .pending) := by
  obtain ⟨x, hx, hok, hfr, hc, ha⟩ := task_group h ht
  rw [(id_of h hs).2] at hok
  rw [← hfr] at hsafe ⊢
  rw [← hc, ← ha]
  have hff : t.failed = false := by
    cases hb : t.failed with
    | false => rfl
    | true => exact absurd (((finv_reach h).failed i t ht).1 hb) hf
  show ∃ ops, Done s id i t x ops
  unfold TOk at hok
  split at hok
  · next hp =>
    have hot : (opened s.id t true).2 =
        { t with phase := .looping, bytes := (openUni ⟨id, t.group⟩).bytes } := by
      unfold opened
      rw [hp, (id_of h hs).2]
      simp only [hff, Bool.false_eq_true, reduceCtorEq, or_self, if_false]
      have := (head_none id t.group).2 hg
      generalize openUni ⟨id, t.group⟩ = w at this
      obtain ⟨b, e⟩ := w
      cases this
      rfl
    have h1 := onTask_get ht fun t => opened s.id t true
    rw [hot] at h1
    refine done_of hid hx hsafe [.opened i true] (by simp) (others_task s i _) h1 rfl rfl hff he ?_
    dsimp only
    rw [hok.2.1]
    exact ⟨(head_none _ _).2 hg, by simp [body], Nat.zero_le _, by simp⟩
  · next hp =>
    exact done_of hid hx hsafe [] (by simp) ⟨rfl, rfl, rfl, rfl, fun _ _ => rfl⟩ ht rfl hp hff he hok.1
  · next b hp =>
    obtain ⟨k, h1, h2, h3, h4, -⟩ := hok
    have hfl : (flushed t).2 = { t with bytes := t.bytes ++ b, phase := .looping } := by
      unfold flushed
      rw [hp]
      simp [hff]
    have hg1 := onTask_get ht flushed
    rw [hfl] at hg1
    refine done_of hid hx hsafe [.flushed i] (by simp) (others_task s i _) hg1 rfl rfl hff he ?_
    dsimp only
    rw [h1]
    have htk := take_get h2
    refine ⟨h4.header, ?_, ?_, ?_⟩
    · dsimp only
      rw [htk, body_snoc, h4.bytes]
      unfold encodeFrame
      rw [seq_bytes (varint53 b.length h3).1]
      simp [write]
    · exact (List.getElem?_eq_some_iff.1 h2).1
    · intro f hf
      exact hsafe f (List.mem_of_mem_take hf)
  · obtain ⟨k, cut, -, -, h3⟩ := hok
    rw [h3.none he] at hff
    cases hff
  · next hp => exact absurd hp hl

/-- **C104, failed streams.**  A stream that has failed and that nobody has given up can be given up at
once; nothing more is sent. -/
theorem c104_gives_up {tr : Trace} {s : State} (h : machine.Reach tr s) {i : Nat} {t : Task}
    (ht : s.tasks[i]? = some t) (hf : Failed tr i) (ho : t.phase ≠ .over) (hl : t.phase ≠ .lost) :
    ∃ op, (op = .opened i true ∨ op = .flushed i ∨ op = .sawFailed i) ∧ (step s op).1 = .ok ∧
      ∃ t', (step s op).2.tasks[i]? = some t' ∧ (t'.phase = .over ∨ t'.phase = .lost) ∧
        t'.bytes = t.bytes ∧ t'.ending = none := by
  obtain ⟨x, -, hok, -, -, -⟩ := task_group h ht
  have hff := ((finv_reach h).failed i t ht).2 hf
  have out : ∀ f : Task → Out × Task, (onTask s i f).1 = (f t).1 := by
    intro f
    unfold onTask
    rw [ht]
  unfold TOk at hok
  cases hp : t.phase with
  | opening =>
    rw [hp] at hok
    refine ⟨.opened i true, .inl rfl, ?_, _, onTask_get ht _, ?_⟩
    · refine (out _).trans ?_
      simp [opened, hp, hff]
    · simp [opened, hp, hff, hok.2.2]
  | looping =>
    rw [hp] at hok
    refine ⟨.sawFailed i, .inr (.inr rfl), ?_, _, onTask_get ht _, ?_⟩
    · refine (out _).trans ?_
      simp [sawFailed, hp, hff]
    · simp [sawFailed, hp, hff, Task.finish, hok.2]
  | writing b =>
    rw [hp] at hok
    obtain ⟨k, -, -, -, -, h5⟩ := hok
    refine ⟨.flushed i, .inr (.inl rfl), ?_, _, onTask_get ht _, ?_⟩
    · refine (out _).trans ?_
      simp [flushed, hp, hff]
    · simp [flushed, hp, hff, Task.finish, h5]
  | over => exact absurd hp ho
  | lost => exact absurd hp hl

/-- What a step of a stream does to it. -/
def After (t t' : Task) : Prop :=
  t'.group = t.group ∧ t.bytes <+: t'.bytes ∧ (t.ending ≠ none → t'.bytes = t.bytes ∧ t'.ending = t.ending)

theorem after_refl (t : Task) : After t t := ⟨rfl, List.prefix_rfl, fun _ => ⟨rfl, rfl⟩⟩

/-- **C104, what is sent is sent.**  Streams stay, their contents only grow, and an ended stream does not
change. -/
theorem c104_monotone {tr : Trace} {s : State} (h : machine.Reach tr s) (op : Op) {i : Nat} {t : Task}
    (ht : s.tasks[i]? = some t) : ∃ t', (step s op).2.tasks[i]? = some t' ∧ After t t' := by
  obtain ⟨x, hx, hok, -, -, -⟩ := task_group h ht
  have he : t.ending ≠ none → t.phase = .over := by
    intro hn
    unfold TOk at hok
    split at hok
    · exact absurd hok.2.2 hn
    · exact absurd hok.2 hn
    · obtain ⟨k, -, -, -, -, h5⟩ := hok
      exact absurd h5 hn
    · assumption
    · exact absurd hok.1 hn
  have task : ∀ (j : Nat) (f : Task → Out × Task), After t (f t).2 →
      ∃ t', (onTask s j f).2.tasks[i]? = some t' ∧ After t t' := by
    intro j f hf
    by_cases hij : i = j
    · subst hij
      exact ⟨_, onTask_get ht f, hf⟩
    · exact ⟨t, by rw [(others_task s j f).2.2.2.2 i hij]; exact ht, after_refl t⟩
  have same : ∀ s' : State, s'.tasks = s.tasks → ∃ t', s'.tasks[i]? = some t' ∧ After t t' :=
    fun s' h => ⟨t, by rw [h]; exact ht, after_refl t⟩
  have fin : ∀ (t1 : Task) (e : End), t.phase ≠ .over → t1.group = t.group → t1.bytes = t.bytes →
      After t (t1.finish e) := by
    intro t1 e hp h1 h2
    refine ⟨h1, ?_, fun hn => absurd (he hn) hp⟩
    show t.bytes <+: t1.bytes
    rw [h2]
    exact List.prefix_rfl
  cases op with
  | track op => rw [step.eq_def]; dsimp only; split <;> exact same _ rfl
  | subscribe k => rw [step.eq_def]; dsimp only; split <;> exact same _ rfl
  | answered ok => rw [step.eq_def]; dsimp only; split <;> exact same _ rfl
  | next =>
    rw [step.eq_def]
    dsimp only
    split
    · unfold next
      generalize Track.step s.track (.nextGroup _) = r
      obtain ⟨o, u⟩ := r
      cases o with
      | group g =>
        refine ⟨t, ?_, after_refl t⟩
        dsimp only
        rw [List.getElem?_append_left (List.getElem?_eq_some_iff.1 ht).1]
        exact ht
      | _ => exact same _ rfl
    · exact same _ rfl
  | unsubscribe => rw [step.eq_def]; dsimp only; split <;> exact same _ rfl
  | stop => exact same _ rfl
  | sawClosed =>
    rw [step.eq_def]
    dsimp only
    split
    · split
      · exact same _ rfl
      · split <;> exact same _ rfl
    · exact same _ rfl
  | opened j ok =>
    refine task j _ ?_
    unfold opened
    split
    · next hp =>
      have hne : ¬ t.ending ≠ none := fun hn => by rw [he hn] at hp; cases hp
      have hb : t.bytes = [] := by
        unfold TOk at hok
        rw [hp] at hok
        exact hok.1
      split
      · exact ⟨rfl, List.prefix_rfl, fun hn => absurd hn hne⟩
      · split <;> exact ⟨rfl, by rw [hb]; exact List.nil_prefix, fun hn => absurd hn hne⟩
    · exact after_refl t
  | frame j =>
    refine task j _ ?_
    unfold frame
    split
    · next hp =>
      have hno : t.phase ≠ .over := by rw [hp]; simp
      have hne : ¬ t.ending ≠ none := fun hn => hno (he hn)
      split
      · exact after_refl t
      · split
        · unfold sendLength
          split
          · exact fin _ _ hno rfl rfl
          · split
            · exact ⟨rfl, List.prefix_append _ _, fun hn => absurd hn hne⟩
            · exact fin _ _ hno rfl rfl
        · split
          · exact after_refl t
          · exact fin _ _ hno rfl rfl
          · exact fin _ _ hno rfl rfl
    · exact after_refl t
  | flushed j =>
    refine task j _ ?_
    unfold flushed
    split
    · next hp =>
      have hno : t.phase ≠ .over := by rw [hp]; simp
      have hne : ¬ t.ending ≠ none := fun hn => hno (he hn)
      split
      · exact fin _ _ hno rfl rfl
      · exact ⟨rfl, List.prefix_append _ _, fun hn => absurd hn hne⟩
    · exact after_refl t
  | fail j => exact task j _ ⟨rfl, List.prefix_rfl, fun _ => ⟨rfl, rfl⟩⟩
  | sawFailed j =>
    refine task j _ ?_
    unfold sawFailed
    split
    · next hp =>
      split
      · exact fin _ _ (by rw [hp]; simp) rfl rfl
      · exact after_refl t
    · exact after_refl t

/-! ## What the peer reads -/

theorem items_split {fs : List Bytes} {items : Bytes} (h : Items Blob items fs)
    (hs : ∀ f ∈ fs, Safe f.length) : ∃ sent : List (Bytes × Bytes),
      (sent.map (·.1)).flatten = items ∧ sent.map (·.2) = fs ∧ ∀ x ∈ sent, Item.frame.Sent x.1 x.2 := by
  induction h with
  | nil => exact ⟨[], rfl, rfl, by simp⟩
  | @cons b1 b2 y ys h1 _ ih =>
    obtain ⟨sent, a1, a2, a3⟩ := ih fun f hf => hs f (by simp [hf])
    refine ⟨(b1, y) :: sent, ?_, ?_, ?_⟩
    · simp [a1]
    · simp [a2]
    · intro x hx
      rcases List.mem_cons.1 hx with rfl | hx
      · exact ⟨h1, hs _ (by simp)⟩
      · exact a3 x hx

theorem part_of_next {fs : List Bytes} {k : Nat} {cut : Bytes} (h : Next fs k cut) :
    PartOf .frame cut := by
  rcases h with rfl | ⟨f, missing, -, h2, h3, h4⟩
  · exact ⟨[7], [1, 7], ⟨⟨[1], rfl, _, _, rfl, rfl, rfl⟩, by show (1 : Nat) ≤ 2 ^ 53 - 1; omega⟩,
      by simp⟩
  · exact ⟨f, missing, ⟨h4, h2⟩, h3⟩

theorem keeps_uni : Keeps acceptUni :=
  keeps_bind (keeps_bind (keeps_fillTo 1) fun _ => keeps_bind (keeps_slice 1) fun _ => keeps_pure _) fun _ =>
    keeps_ite keeps_group (keeps_throw _)

/-- **C104, a browser reads it.**  A browser that receives what a stream carries, in whatever pieces,
gets the id of the subscription, the number of the group and exactly the frames; then it waits, or
learns the end, and a stream that ends inside a frame is not mistaken for a complete one. -/
theorem c104_read {id g : Nat} {fs : List Bytes} {k : Nat} {bytes cut : Bytes} (hg : Safe g)
    (h : OnWire id g (fs.take k) bytes cut) (hn : Next fs k cut) (ending : StreamEnd) (r : Reader)
    (hr : ∀ c ∈ r.stream.chunks, c ≠ []) (hh : Holds r bytes ending) :
    ∃ r', acceptUni r = (.ok ⟨id, g⟩, r') ∧
      replies decodeFrame ((fs.take k).length + 1) r' =
        (fs.take k).map (fun f => .ok (some f)) ++ [lastReply ending cut] := by
  obtain ⟨head, items, rfl, h2, h3, h4⟩ := h
  obtain ⟨sent, a1, a2, a3⟩ := items_split h3 h4
  have hret := c90_accept_group ⟨id, g⟩ [0] head (items ++ cut) rfl h2 hg r ending
    (by simpa using hh)
  obtain ⟨e1, e2⟩ := hret
  refine ⟨(acceptUni r).2, Prod.ext e1 rfl, ?_⟩
  have hk := keeps_uni r
  have := c91_items (fun _ => []) .frame sent a3 cut (part_of_next hn) ending _
    (fun c hc => hr c (hk.subset hc)) (by rw [a1]; exact e2)
  rw [← a2, List.length_map, List.map_map]
  exact this

/-- **C104, a Rust peer reads it.** -/
theorem c104_read_rust {id g : Nat} {fs : List Bytes} {bytes cut : Bytes}
    (h : OnWire id g fs bytes cut) : ∃ mid items,
      Kind.dataType.dec bytes = .ok (.group, mid) ∧
      Kind.group.dec mid = .ok (⟨id, g⟩, items ++ cut) ∧ Items Blob items fs := by
  obtain ⟨head, items, rfl, h2, h3, -⟩ := h
  refine ⟨head ++ items ++ cut, items, ?_, ?_, h3⟩
  · exact (c71_decoders_accept .dataType _ _ _).2 ⟨[UInt8.ofNat 0], rfl, varint_small 0 (by omega)⟩
  · rw [List.append_assoc]
    exact (c71_decoders_accept .group _ _ _).2 ⟨head, rfl, h2⟩

/-! ## The subscription -/

/-- **C104, the track.**  Serving does to the track what its consumer does: it asks for the next group,
and closes the consumer when serving ends.  The theorems of C94 about tracks apply. -/
theorem c104_track {tr : Trace} {s : State} (h : machine.Reach tr s) :
    Track.machine.Reach (trackTrace tr) s.track :=
  (base_reach h).track

/-- **C104, the end.**  The consumer is closed exactly when serving has ended: because the peer
unsubscribed, because the stream of the subscription failed, or because the track has ended.  The
stream of the subscription is finished only if the peer unsubscribed or the track was closed, and reset
only if the track was aborted; and the first of these counts. -/
theorem c104_over {tr : Trace} {s : State} (h : machine.Reach tr s) {id c : Nat}
    (hs : Subscribed tr id c) :
    (Track.Closed (trackTrace tr) c ↔ Over tr) ∧
    (Over tr → Unsubscribed tr ∨ Stopped tr ∨ Track.ending (trackTrace tr) ≠ none) ∧
    (s.ending = some .finished → Unsubscribed tr ∨ Track.ending (trackTrace tr) = some .close) ∧
    (s.ending = some .reset → Track.ending (trackTrace tr) = some .abort) ∧
    (Over tr → s.ending = none → Stopped tr) ∧
    (Unsubscribed tr → ¬ Stopped tr → s.ending = some .finished) := by
  have i := cinv_reach h
  refine ⟨(i.closed c (id_of h hs).1).trans i.over, ?_, i.finished, i.reset, ?_, ?_⟩
  · intro ho
    exact i.why (i.over.2 ho)
  · intro ho
    exact i.none (i.over.2 ho)
  · intro hu hn
    refine i.first (i.closing.2 hu) ?_
    cases hf : s.failed with
    | false => rfl
    | true => exact absurd (i.failed.1 hf) hn

/-- **C104, unsubscribing.**  While serving goes on, its loop can see that the peer has unsubscribed or
that the stream has failed; and then serving has ended. -/
theorem c104_unsubscribe {tr : Trace} {s : State} (h : machine.Reach tr s) {id c : Nat}
    (hs : Subscribed tr id c) (hr : s.phase = .running c) (hu : Unsubscribed tr ∨ Stopped tr) :
    (step s .sawClosed).1 = .over c ∧ Over (tr ++ [(.sawClosed, (step s .sawClosed).1)]) ∧
    Track.Closed (trackTrace (tr ++ [(.sawClosed, (step s .sawClosed).1)])) c := by
  have i := cinv_reach h
  have ho : (step s .sawClosed).1 = .over c := by
    rw [step.eq_def]
    dsimp only
    rw [hr]
    dsimp only
    split
    · rfl
    · next hf =>
      rw [if_pos]
      rcases hu with hu | hu
      · exact i.closing.2 hu
      · exact absurd (i.failed.2 hu) hf
  have hov : Over (tr ++ [(.sawClosed, (step s .sawClosed).1)]) := by
    rw [ho]
    exact ⟨c, .inr (.inr (by simp))⟩
  refine ⟨ho, hov, ?_⟩
  exact (c104_over (Machine.Reach.step (M := machine) .sawClosed h) (List.mem_append_left _ hs)).1.2 hov

theorem next_out (s : State) (c : Nat) :
    (next s c).1 = .next c (Track.step s.track (.nextGroup c)).1 := by
  unfold next
  generalize Track.step s.track (.nextGroup c) = r
  obtain ⟨o, t⟩ := r
  cases o <;> rfl

/-- **C104 (partial), the newest group.**  When serving waits for a group, the newest group of the track
has a stream, if the track's consumer got to continue between any two groups.  (The full property does
not need the condition: see `c104_burst`.) -/
theorem c104_newest_partial {tr : Trace} {s : State} (h : machine.Reach tr s) {id c : Nat}
    (hs : Subscribed tr id c) (hp : (step s .next).1 = .next c .pending)
    (hq : JsTrack.Quiet s.track c) (hpr : JsTrack.Prompt (trackTrace tr) c) :
    (s.tasks.map (·.group)).getLast? = (Track.accepted (trackTrace tr)).getLast? := by
  have b := base_reach h
  rw [(c104_streams h hs).1]
  refine JsTrack.c94_newest_partial b.track c hpr ?_ hq
  rw [step.eq_def] at hp
  dsimp only at hp
  split at hp
  · next d _ =>
    rw [next_out] at hp
    simp only [Out.next.injEq] at hp
    obtain ⟨rfl, hp⟩ := hp
    exact hp
  · cases hp

/-! ## Violations -/

/-- The SUBSCRIBE_OK could not be written: what is left behind. -/
theorem refused_phase {tr : Trace} {s : State} (h : machine.Reach tr s) :
    ((.answered false, .ok) ∈ tr → ∃ c, s.phase = .lost c) ∧
    (∀ c, s.phase = .lost c ∨ s.phase = .answering c ∨ s.phase = .none → s.tasks = []) := by
  refine Machine.Reach.induct (M := machine)
    (P := fun tr s => ((.answered false, .ok) ∈ tr → ∃ c, s.phase = .lost c) ∧
      (∀ c, s.phase = .lost c ∨ s.phase = .answering c ∨ s.phase = .none → s.tasks = [])) ?_ ?_ h
  · exact ⟨fun h => (by cases h), fun _ _ => rfl⟩
  intro tr s op _ ih
  have keep : ∀ (o : Out) (s' : State), op ≠ .answered false ∨ o ≠ .ok → s'.phase = s.phase →
      (s.tasks = [] → s'.tasks = []) →
      ((.answered false, .ok) ∈ tr ++ [(op, o)] → ∃ c, s'.phase = .lost c) ∧
      (∀ c, s'.phase = .lost c ∨ s'.phase = .answering c ∨ s'.phase = .none → s'.tasks = []) := by
    intro o s' ho hp ht
    rw [hp]
    refine ⟨fun hm => ih.1 ?_, fun c hc => ht (ih.2 c hc)⟩
    rcases List.mem_append.1 hm with h | h
    · exact h
    · rw [List.mem_singleton] at h
      simp only [Prod.mk.injEq] at h
      rcases ho with ho | ho
      · exact absurd h.1.symm ho
      · exact absurd h.2.symm ho
  have task : ∀ (i : Nat) (f : Task → Out × Task), (onTask s i f).2.phase = s.phase ∧
      (s.tasks = [] → (onTask s i f).2.tasks = []) := by
    intro i f
    unfold onTask
    split
    · exact ⟨rfl, fun h => by simp [h]⟩
    · exact ⟨rfl, id⟩
  have running : ∀ (o : Out) (s' : State) (c : Nat), op ≠ .answered false → s.phase = .running c →
      (s'.phase = .running c ∨ s'.phase = .over c) →
      ((.answered false, .ok) ∈ tr ++ [(op, o)] → ∃ c, s'.phase = .lost c) ∧
      (∀ c, s'.phase = .lost c ∨ s'.phase = .answering c ∨ s'.phase = .none → s'.tasks = []) := by
    intro o s' c ho hp hp'
    refine ⟨fun hm => ?_, fun d hd => ?_⟩
    · rcases List.mem_append.1 hm with h | h
      · obtain ⟨d, hd⟩ := ih.1 h
        rw [hp] at hd
        cases hd
      · rw [List.mem_singleton] at h
        simp only [Prod.mk.injEq] at h
        exact absurd h.1.symm ho
    · rcases hp' with hp' | hp' <;> rw [hp'] at hd <;> simp at hd
  show ((.answered false, .ok) ∈ tr ++ [(op, (step s op).1)] → ∃ c, (step s op).2.phase = .lost c) ∧
    (∀ c, (step s op).2.phase = .lost c ∨ (step s op).2.phase = .answering c ∨
      (step s op).2.phase = .none → (step s op).2.tasks = [])
  cases op with
  | track op =>
    rw [step.eq_def]
    dsimp only
    split <;> exact keep _ _ (.inl (by simp)) rfl id
  | subscribe k =>
    rw [step.eq_def]
    dsimp only
    split
    · next c t hp _ =>
      refine ⟨fun hm => ?_, fun _ _ => ih.2 0 (.inr (.inr hp))⟩
      have hm : (.answered false, .ok) ∈ tr := by simpa using hm
      obtain ⟨d, hd⟩ := ih.1 hm
      rw [hp] at hd
      cases hd
    · exact keep _ _ (.inl (by simp)) rfl id
  | answered ok =>
    rw [step.eq_def]
    dsimp only
    split
    · next c hp =>
      have ht := ih.2 c (.inr (.inl hp))
      refine ⟨fun hm => ?_, fun _ _ => ht⟩
      rcases List.mem_append.1 hm with h | h
      · obtain ⟨d, hd⟩ := ih.1 h
        rw [hp] at hd
        cases hd
      · rw [List.mem_singleton] at h
        simp only [Prod.mk.injEq, Op.answered.injEq, and_true] at h
        exact ⟨c, by simp [← h]⟩
    · exact keep _ _ (.inr (by simp)) rfl id
  | next =>
    rw [step.eq_def]
    dsimp only
    split
    · next c hp =>
      refine running _ _ c (by simp) hp ?_
      unfold next
      generalize Track.step s.track (.nextGroup c) = r
      obtain ⟨o, t⟩ := r
      cases o <;> simp [hp, endTrack]
    · exact keep _ _ (.inl (by simp)) rfl id
  | unsubscribe =>
    rw [step.eq_def]
    dsimp only
    split <;> exact keep _ _ (.inl (by simp)) rfl id
  | stop => exact keep _ _ (.inl (by simp)) rfl id
  | sawClosed =>
    rw [step.eq_def]
    dsimp only
    split
    · next c hp =>
      split
      · exact running _ _ c (by simp) hp (.inr rfl)
      · split
        · exact running _ _ c (by simp) hp (.inr rfl)
        · exact keep _ _ (.inl (by simp)) rfl id
    · exact keep _ _ (.inl (by simp)) rfl id
  | opened i ok => exact keep _ _ (.inl (by simp)) (task _ _).1 (task _ _).2
  | frame i => exact keep _ _ (.inl (by simp)) (task _ _).1 (task _ _).2
  | flushed i => exact keep _ _ (.inl (by simp)) (task _ _).1 (task _ _).2
  | fail i => exact keep _ _ (.inl (by simp)) (task _ _).1 (task _ _).2
  | sawFailed i => exact keep _ _ (.inl (by simp)) (task _ _).1 (task _ _).2

/-- **Violation.**  If the SUBSCRIBE_OK cannot be written, the consumer of the subscription is never
closed, whatever happens afterwards: for the track it is in use forever. -/
theorem c104_leak {tr : Trace} {s : State} (h : machine.Reach tr s) {id c : Nat}
    (hs : Subscribed tr id c) (hr : (.answered false, .ok) ∈ tr) :
    ¬ Track.Closed (trackTrace tr) c ∧ s.tasks = [] := by
  obtain ⟨d, hd⟩ := (refused_phase h).1 hr
  refine ⟨?_, (refused_phase h).2 d (.inl hd)⟩
  rw [(cinv_reach h).closed c (id_of h hs).1, hd]
  simp [Phase.isOver]

/-- **Violation.**  Whenever serving waits for a group, two groups appended at once make it skip the
newer one: there is a stream for the older one, and serving waits again, without anything under
way. -/
theorem c104_burst {tr : Trace} {s : State} (h : machine.Reach tr s) {c : Nat}
    (hr : s.phase = .running c) (hp : (step s .next).1 = .next c .pending)
    (hq : JsTrack.Quiet s.track c) :
    ∃ g g' : Nat, g < g' ∧
      (machine.runFrom s [.track .append, .track .append, .track (.run c), .next, .next]).1.map (·.2) =
        [.track (.group g), .track (.group g'), .track .ok, .next c (.group g), .next c .pending] ∧
      JsTrack.Quiet (machine.runFrom s
        [.track .append, .track .append, .track (.run c), .next, .next]).2.track c := by
  have hp' : (Track.step s.track (.nextGroup c)).1 = .pending := by
    rw [step.eq_def] at hp
    dsimp only at hp
    rw [hr] at hp
    dsimp only at hp
    rw [next_out] at hp
    simpa using hp
  obtain ⟨g, g', hlt, hm, hqq⟩ := JsTrack.c94_burst (base_reach h).track c hp' hq
  refine ⟨g, g', hlt, ?_⟩
  simp only [Machine.runFrom, List.map_cons, List.map_nil, List.cons.injEq, and_true] at hm hqq ⊢
  obtain ⟨m1, m2, m3, m4, m5⟩ := hm
  have e : ∀ (s : State) (op : Track.Op), uses op = none → step s (.track op) =
      (.track (Track.step s.track op).1, { s with track := (Track.step s.track op).2 }) := by
    intro s op ho
    rw [step.eq_def]
    simp [ho]
  have n : ∀ s : State, s.phase = .running c → (step s .next).1 =
      .next c (Track.step s.track (.nextGroup c)).1 := by
    intro s hs
    rw [step.eq_def]
    dsimp only
    rw [hs]
    exact next_out s c
  have n2 : ∀ s : State, s.phase = .running c → (Track.step s.track (.nextGroup c)).1 ≠ .undefined →
      (Track.step s.track (.nextGroup c)).1 ≠ .rejected →
      (step s .next).2.phase = .running c ∧
      (step s .next).2.track = (Track.step s.track (.nextGroup c)).2 := by
    intro s hs h1 h2
    rw [step.eq_def]
    dsimp only
    rw [hs]
    dsimp only
    unfold next
    generalize Track.step s.track (.nextGroup c) = r at h1 h2 ⊢
    obtain ⟨o, t⟩ := r
    cases o <;> simp_all
  rw [e _ .append rfl, e _ .append rfl, e _ (.run c) rfl]
  dsimp only
  have hr3 : ∀ t : Track.State, ({ s with track := t } : State).phase = .running c := fun _ => hr
  obtain ⟨p1, p2⟩ := n2 { s with track := _ } (hr3 _) (by rw [m4]; simp) (by rw [m4]; simp)
  obtain ⟨q1, q2⟩ := n2 _ p1 (by rw [p2]; rw [m5]; simp) (by rw [p2]; rw [m5]; simp)
  rw [n _ (hr3 _), n _ p1, q2, p2]
  refine ⟨⟨by rw [m1], by rw [m2], by rw [m3], by rw [m4], by rw [m5]⟩, hqq⟩

/-- **Violation.**  Also after the peer has unsubscribed and serving has ended, the streams go on. -/
theorem c104_after : ∃ tr s, machine.Reach tr s ∧ Unsubscribed tr ∧ Over tr ∧
    ∃ t t', s.tasks[0]? = some t ∧ ¬ Failed tr 0 ∧
      (machine.runFrom s [.track (.write 0 [7]), .frame 0, .flushed 0]).2.tasks[0]? = some t' ∧
      t'.bytes = t.bytes ++ [1, 7] := by
  refine ⟨_, _, machine.reach_run [.track .append, .subscribe 4, .answered true, .track (.run 0), .next,
    .opened 0 true, .unsubscribe, .sawClosed], ?_, ⟨0, .inr (.inr ?_)⟩, _, _, rfl, ?_, rfl, ?_⟩
  · unfold Unsubscribed
    decide +kernel
  · decide +kernel
  · unfold Failed
    decide +kernel
  · decide +kernel

/-- **Violation.**  The last group of a track is not sent if the track is closed before serving has
asked for the group before it; the stream of the subscription is finished as if nothing was missing. -/
theorem c104_end_lost : ∃ tr s, machine.Reach tr s ∧ Track.accepted (trackTrace tr) = [0, 1] ∧
    s.tasks.map (·.group) = [0] ∧ Over tr ∧ ¬ Unsubscribed tr ∧ ¬ Stopped tr ∧
    s.ending = some .finished := by
  refine ⟨_, _, machine.reach_run [.track .append, .subscribe 4, .answered true, .track (.run 0),
    .track .append, .track .close, .next, .track (.run 0), .next], ?_, ?_, ⟨0, .inl ?_⟩, ?_, ?_, ?_⟩
  · decide +kernel
  · decide +kernel
  · decide +kernel
  · unfold Unsubscribed
    decide +kernel
  · unfold Stopped
    decide +kernel
  · decide +kernel

theorem lost_step (s : State) (t : Task) (i : Nat) (op : Op) (ht : s.tasks[i]? = some t)
    (hp : t.phase = .lost) : ∃ t', (step s op).2.tasks[i]? = some t' ∧ t'.phase = .lost ∧
      t'.bytes = t.bytes ∧ t'.ending = t.ending := by
  have task : ∀ (j : Nat) (f : Task → Out × Task), ((f t).2.phase = .lost ∧ (f t).2.bytes = t.bytes ∧
      (f t).2.ending = t.ending) → ∃ t', (onTask s j f).2.tasks[i]? = some t' ∧ t'.phase = .lost ∧
      t'.bytes = t.bytes ∧ t'.ending = t.ending := by
    intro j f hf
    by_cases hij : i = j
    · subst hij
      exact ⟨_, onTask_get ht f, hf⟩
    · exact ⟨t, by rw [(others_task s j f).2.2.2.2 i hij]; exact ht, hp, rfl, rfl⟩
  have same : ∀ s' : State, s'.tasks = s.tasks → ∃ t', s'.tasks[i]? = some t' ∧ t'.phase = .lost ∧
      t'.bytes = t.bytes ∧ t'.ending = t.ending := fun s' h => ⟨t, by rw [h]; exact ht, hp, rfl, rfl⟩
  cases op with
  | track op => rw [step.eq_def]; dsimp only; split <;> exact same _ rfl
  | subscribe k => rw [step.eq_def]; dsimp only; split <;> exact same _ rfl
  | answered ok => rw [step.eq_def]; dsimp only; split <;> exact same _ rfl
  | next =>
    rw [step.eq_def]
    dsimp only
    split
    · unfold next
      generalize Track.step s.track (.nextGroup _) = r
      obtain ⟨o, u⟩ := r
      cases o with
      | group g =>
        refine ⟨t, ?_, hp, rfl, rfl⟩
        dsimp only
        rw [List.getElem?_append_left (List.getElem?_eq_some_iff.1 ht).1]
        exact ht
      | _ => exact same _ rfl
    · exact same _ rfl
  | unsubscribe => rw [step.eq_def]; dsimp only; split <;> exact same _ rfl
  | stop => exact same _ rfl
  | sawClosed =>
    rw [step.eq_def]
    dsimp only
    split
    · split
      · exact same _ rfl
      · split <;> exact same _ rfl
    · exact same _ rfl
  | opened j ok => exact task j _ (by simp [opened, hp])
  | frame j => exact task j _ (by simp [frame, hp])
  | flushed j => exact task j _ (by simp [flushed, hp])
  | fail j => exact task j _ (by simp [hp])
  | sawFailed j => exact task j _ (by simp [sawFailed, hp])

theorem lost_stays (ops : List Op) : ∀ (s : State) (t : Task) {bs : Bytes}, s.tasks[0]? = some t →
    (t.phase = .lost ∧ t.bytes = bs) → t.ending = none →
    ∃ t', (machine.runFrom s ops).2.tasks[0]? = some t' ∧ t'.bytes = bs ∧ t'.ending = none := by
  induction ops with
  | nil => exact fun s t bs h1 h2 h3 => ⟨t, h1, h2.2, h3⟩
  | cons op ops ih =>
    intro s t bs h1 h2 h3
    obtain ⟨t', a1, a2, a3, a4⟩ := lost_step s t 0 op h1 h2.1
    exact ih _ t' a1 ⟨a2, a3.trans h2.2⟩ (a4.trans h3)

/-- **Violation.**  A group whose number cannot be written leaves a stream that carries a part of its
header and is never ended. -/
theorem c104_stuck : ∃ tr s t, machine.Reach tr s ∧ s.tasks[0]? = some t ∧ t.bytes = [0, 4] ∧
    ∀ ops, ∃ t', (machine.runFrom s ops).2.tasks[0]? = some t' ∧ t'.bytes = [0, 4] ∧
      t'.ending = none := by
  refine ⟨_, _, _, machine.reach_run [.track (.insert (2 ^ 53) [] .live), .subscribe 4, .answered true,
    .track (.run 0), .next, .opened 0 true], rfl, ?_, ?_⟩
  · decide +kernel
  · intro ops
    exact lost_stays ops _ ⟨2 ^ 53, 0, .lost, [0, 4], none, false⟩ (by decide +kernel)
      (by decide +kernel) (by decide +kernel)

/-! ## Examples -/

/-- Two groups, one closed and one aborted: what the streams carry, and how they end. -/
example : let r := machine.run [.track .append, .subscribe 4, .answered true, .track (.run 0), .next,
      .opened 0 true, .track (.write 0 [7, 8]), .frame 0, .track .append, .flushed 0, .track (.run 0),
      .frame 0, .next, .opened 1 true, .track (.closeGroup 0), .track (.write 1 [9]), .frame 0,
      .frame 1, .flushed 1, .track (.abortGroup 1), .frame 1, .track .close, .track (.run 0), .track (.run 0), .next]
    r.2.tasks.map (fun t => (t.group, t.bytes, t.ending)) =
      [(0, [0, 4, 0, 2, 7, 8], some .finished), (1, [0, 4, 1, 1, 9], some .reset)] ∧
    Subscribed r.1 4 0 ∧ GroupClosed (trackTrace r.1) 0 ∧ GroupAborted (trackTrace r.1) 1 ∧
    frames r.1 0 = [[7, 8]] ∧ Over r.1 ∧ r.2.ending = some .finished := by
  refine ⟨?_, ?_, .inl ?_, .inl ?_, ?_, ⟨0, .inl ?_⟩, ?_⟩ <;>
    first
    | decide +kernel
    | (unfold Subscribed; decide +kernel)

/-- A stream that waits, and one in the middle of a frame. -/
example : let r := machine.run [.track .append, .subscribe 4, .answered true, .track (.run 0), .next,
      .opened 0 true, .track (.write 0 [7, 8]), .frame 0, .flushed 0, .track (.insert 5 [[1]] .live),
      .track (.run 0), .next, .opened 1 true, .frame 1]
    (step r.2 (.frame 0)).1 = .pending ∧
    r.2.tasks.map (fun t => (t.group, t.bytes)) = [(0, [0, 4, 0, 2, 7, 8]), (5, [0, 4, 5, 1])] ∧
    (step r.2 .next).1 = .next 0 .pending ∧ JsTrack.Quiet r.2.track 0 ∧ r.2.phase = .running 0 := by
  refine ⟨?_, ?_, ?_, ?_, ?_⟩ <;> decide +kernel

example : OnWire 4 0 [[7, 8]] [0, 4, 0, 2, 7, 8] [] ∧ OnWire 4 5 [] [0, 4, 5, 1] [1] ∧
    Next [[1]] 0 [1] := by
  refine ⟨⟨[4, 0], [2, 7, 8], rfl, ⟨[4], [0], rfl, ⟨_, _, rfl, rfl, rfl⟩, ⟨_, _, rfl, rfl, rfl⟩⟩, ?_, ?_⟩,
    ⟨[4, 5], [], rfl, ⟨[4], [5], rfl, ⟨_, _, rfl, rfl, rfl⟩, ⟨_, _, rfl, rfl, rfl⟩⟩, .nil, by simp⟩,
    .inr ⟨[1], [1], rfl, by show (1 : Nat) ≤ 2 ^ 53 - 1; omega, by simp, [1], rfl, _, _, rfl, rfl, rfl⟩⟩
  · exact .cons (b1 := [2, 7, 8]) (b2 := []) ⟨[2], rfl, _, _, rfl, rfl, rfl⟩ .nil
  · intro f hf
    simp at hf
    subst hf
    show (2 : Nat) ≤ 2 ^ 53 - 1
    omega

/-- A stream that fails is given up; and so is the subscription. -/
example : let r := machine.run [.track .append, .subscribe 4, .answered true, .track (.run 0), .next,
      .opened 0 true, .track (.write 0 [7, 8]), .fail 0, .sawFailed 0, .stop, .sawClosed]
    r.2.tasks.map (fun t => (t.bytes, t.phase, t.ending)) = [([0, 4, 0], .over, none)] ∧
    Failed r.1 0 ∧ r.2.phase = .over 0 ∧ r.2.ending = none := by
  refine ⟨?_, ?_, ?_, ?_⟩ <;>
    first
    | decide +kernel
    | (unfold Failed; decide +kernel)

/-- The SUBSCRIBE_OK cannot be written: `c104_leak`. -/
example : let r := machine.run [.track .append, .subscribe 4, .answered false, .stop, .sawClosed,
      .track .close]
    (.answered false, .ok) ∈ r.1 ∧ Subscribed r.1 4 0 := by
  refine ⟨?_, ?_⟩
  · decide +kernel
  · unfold Subscribed
    decide +kernel

end Verif.Props.JsServe
