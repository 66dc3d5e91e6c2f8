import Verif.Props.JsReceive

/-!
# Property C106: from browser to browser

The publisher of C104 and the subscriber of C105, with the streams of QUIC between them.
-/

set_option autoImplicit false

namespace Verif.Props.JsEndToEnd

open Verif Verif.Js Verif.Props.Grammar Verif.Props.JsWire

open Verif.Props.JsServe (OnWire Next part_of_next)
open Verif.Props.JsReceive (received Reads Open Own)
open Verif.Js.Serve (GroupClosed GroupAborted)
open Verif.Props.Message (Kind)

/-! ## Specification -/

/-- Stream `i` of the subscriber is a stream of the publisher: the subscriber read a header with the
number `g`; what follows it and has arrived was sent; and the end arrives only after everything, if the
publisher finished the stream. -/
structure Link (t : Serve.Task) (tr : Receive.Trace) (i id g : Nat) : Prop where
  brings : Receive.Brings tr i g
  header : ∃ head, Wire .group head ⟨id, g⟩ ∧ (0 :: (head ++ Receive.arrived tr i)) <+: t.bytes ∧
    (Receive.Finished tr i →
      t.ending = some .finished ∧ 0 :: (head ++ Receive.arrived tr i) = t.bytes)

/-! ## Lemmas -/

/-- A header is read in one way only. -/
theorem header_unique {h h' : Bytes} {id id' g g' : Nat} (w : Wire .group h ⟨id, g⟩)
    (w' : Wire .group h' ⟨id', g'⟩) {x y : Bytes} (he : h ++ x = h' ++ y) :
    id = id' ∧ g = g' ∧ h = h' ∧ x = y := by
  obtain ⟨a, b, rfl, va, vb⟩ := w
  obtain ⟨a', b', rfl, va', vb'⟩ := w'
  have e1 : P.u62 (a ++ (b ++ x)) = .ok id (b ++ x) := u62_varint va
  have e2 : P.u62 (a' ++ (b' ++ y)) = .ok id' (b' ++ y) := u62_varint va'
  rw [List.append_assoc, List.append_assoc] at he
  rw [he] at e1
  rw [e1] at e2
  injection e2 with q1 q2
  have e3 : P.u62 (b ++ x) = .ok g x := u62_varint vb
  have e4 : P.u62 (b' ++ y) = .ok g' y := u62_varint vb'
  rw [q2, e4] at e3
  injection e3 with q3 q4
  subst q4
  have hb := List.append_cancel_right q2
  subst hb
  exact ⟨q1, q3.symm, by rw [List.append_cancel_right he], rfl⟩

/-- What the subscriber has of a stream, in terms of the frames of the publisher. -/
theorem linked {tr : Serve.Trace} {s : Serve.State} (h : Serve.machine.Reach tr s) {id c : Nat}
    (hs : Serve.Subscribed tr id c) (hid : id < 2 ^ 62) {j : Nat} {t : Serve.Task}
    (ht : s.tasks[j]? = some t) (hg : Safe t.group) {tr' : Receive.Trace} {i g : Nat}
    (hl : Link t tr' i id g) :
    g = t.group ∧ ∃ k bs cut, Receive.arrived tr' i <+: bs ∧
      Reads bs ((JsServe.frames tr t.group).take k) cut ∧ PartOf .frame cut ∧
      (Receive.Finished tr' i → GroupClosed (Serve.trackTrace tr) t.group ∧
        Reads (Receive.arrived tr' i) (JsServe.frames tr t.group) []) := by
  obtain ⟨head, w1, ⟨more, w2⟩, w3⟩ := hl.header
  rcases JsServe.c104_bytes h hs hid ht hg with he | ⟨k, cut, hk, ⟨head', items, o1, o2, o3, o4⟩, hn⟩
  · rw [he] at w2
    cases w2
  · rw [o1, List.cons_append] at w2
    injection w2 with _ w4
    obtain ⟨-, q2, q3, q4⟩ := header_unique w1 o2 (x := Receive.arrived tr' i ++ more) (y := items ++ cut)
      (by simpa using w4)
    refine ⟨q2, k, items ++ cut, cut, ⟨more, q4⟩, ⟨items, rfl, o3, o4⟩, part_of_next hn, ?_⟩
    intro hf
    obtain ⟨e1, e2⟩ := w3 hf
    obtain ⟨f1, head'', items', p1, p2, p3, p4⟩ := JsServe.c104_finished h hs hid ht e1
    rw [p1] at e2
    injection e2 with _ e3
    obtain ⟨-, -, -, r4⟩ := header_unique w1 p2 (x := Receive.arrived tr' i) (y := items' ++ [])
      (by simpa using e3)
    exact ⟨f1, items', r4, p3, p4⟩

/-! ## Theorems -/

/-- **C106, frames.**  Each group of the subscriber is the group of the publisher with that number, and
has the first of its frames, in order and unchanged. -/
theorem c106_frames {tr : Serve.Trace} {s : Serve.State} (h : Serve.machine.Reach tr s) {id c : Nat}
    (hs : Serve.Subscribed tr id c) (hid : id < 2 ^ 62) {j : Nat} {t : Serve.Task}
    (ht : s.tasks[j]? = some t) (hg : Safe t.group) {tr' : Receive.Trace} {s' : Receive.State}
    (h' : Receive.machine.Reach tr' s') {i g : Nat} (hl : Link t tr' i id g) :
    g = t.group ∧ received tr' g <+: JsServe.frames tr g := by
  obtain ⟨rfl, k, bs, cut, a1, a2, a3, -⟩ := linked h hs hid ht hg hl
  exact ⟨rfl, (JsReceive.c105_sent h' hl.brings a1 a2 a3).trans (List.take_prefix _ _)⟩

/-- **C106, whole groups.**  A group that the subscriber sees closed, while it is the newest one and the
subscription goes on, was closed by the publisher and has all its frames. -/
theorem c106_whole {tr : Serve.Trace} {s : Serve.State} (h : Serve.machine.Reach tr s) {id c : Nat}
    (hs : Serve.Subscribed tr id c) (hid : id < 2 ^ 62) {j : Nat} {t : Serve.Task}
    (ht : s.tasks[j]? = some t) (hg : Safe t.group) {tr' : Receive.Trace} {s' : Receive.State}
    (h' : Receive.machine.Reach tr' s') {i g : Nat} (hl : Link t tr' i id g)
    (hc : GroupClosed (Receive.trackTrace tr') g) (hn : ∀ j g', Receive.Brings tr' j g' → g' ≤ g)
    (he : ∀ ok, ¬ Receive.Ended tr' ok) :
    GroupClosed (Serve.trackTrace tr) g ∧ received tr' g = JsServe.frames tr g := by
  obtain ⟨rfl, k, bs, cut, a1, a2, a3, a4⟩ := linked h hs hid ht hg hl
  rcases JsReceive.c105_closed h' hl.brings hc with ⟨h1, -⟩ | ⟨j, g', h1, h2⟩ | ⟨ok, h1⟩
  · obtain ⟨b1, b2⟩ := a4 h1
    exact ⟨b1, (JsReceive.c105_whole h' hl.brings hc hn he b2 JsReceive.part_nil).2.1⟩
  · have := hn j g' h1
    omega
  · exact absurd h1 (he ok)

/-- **C106, delivery.**  When everything of a finished stream has arrived and its group has not ended,
the subscriber gets by its own steps to the group with all frames of the publisher, closed. -/
theorem c106_delivers {tr : Serve.Trace} {s : Serve.State} (h : Serve.machine.Reach tr s) {id c : Nat}
    (hs : Serve.Subscribed tr id c) (hid : id < 2 ^ 62) {j : Nat} {t : Serve.Task}
    (ht : s.tasks[j]? = some t) (hg : Safe t.group) {tr' : Receive.Trace} {s' : Receive.State}
    (h' : Receive.machine.Reach tr' s') {i g : Nat} (hl : Link t tr' i id g) (ho : Open tr' g)
    (hf : Receive.Finished tr' i) :
    ∃ ops, (∀ op ∈ ops, Own i op) ∧
      received (tr' ++ (Receive.machine.runFrom s' ops).1) g = JsServe.frames tr g ∧
      GroupClosed (Receive.trackTrace (tr' ++ (Receive.machine.runFrom s' ops).1)) g := by
  obtain ⟨rfl, k, bs, cut, a1, a2, a3, a4⟩ := linked h hs hid ht hg hl
  obtain ⟨-, b2⟩ := a4 hf
  obtain ⟨ops, o1, o2, o3, -, -⟩ := JsReceive.c105_delivers h' hl.brings ho
    (JsReceive.not_both h' hl.brings hf) b2 JsReceive.part_nil
  exact ⟨ops, o1, o2, o3 hf rfl⟩

/-- **C106, readers.**  If every stream of the subscriber is one of the publisher, then every frame that
a reader is given is that frame of that group, as it was published. -/
theorem c106_readers {tr : Serve.Trace} {s : Serve.State} (h : Serve.machine.Reach tr s) {id c : Nat}
    (hs : Serve.Subscribed tr id c) (hid : id < 2 ^ 62) (hg : ∀ t ∈ s.tasks, Safe t.group)
    {tr' : Receive.Trace} {s' : Receive.State} (h' : Receive.machine.Reach tr' s')
    (hl : ∀ i g, Receive.Brings tr' i g → ∃ t ∈ s.tasks, Link t tr' i id g) (c' g k : Nat) (b : Bytes)
    (hd : (g, k, b) ∈ Track.delivered (Receive.trackTrace tr') c') :
    (JsServe.frames tr g)[k]? = some b := by
  have hr := JsReceive.c105_track h'
  obtain ⟨-, h2, -⟩ := JsTrack.c94_frames hr c'
  obtain ⟨a1, a2⟩ := h2 g k b hd
  obtain ⟨i, hi⟩ := (JsReceive.taken_iff h' g).1 ((JsTrack.c94_groups hr c').1.subset a2)
  obtain ⟨t, ht, hlink⟩ := hl i g hi
  obtain ⟨j, hj⟩ := List.mem_iff_getElem?.1 ht
  obtain ⟨-, hp⟩ := c106_frames h hs hid hj (hg t ht) h' hlink
  obtain ⟨more, hm⟩ := hp
  have a1 : (received tr' g)[k]? = some b := a1
  rw [← hm, List.getElem?_append_left (List.getElem?_eq_some_iff.1 a1).1]
  exact a1

/-! ## Instances -/

/-- The publisher sends group 0 with two frames, closed, and ends the track. -/
def publish : List Serve.Op :=
  [.track .append, .subscribe 4, .answered true, .track (.run 0), .next, .opened 0 true,
    .track (.write 0 [7]), .track (.write 0 [8]), .track (.closeGroup 0), .frame 0, .flushed 0, .frame 0,
    .flushed 0, .frame 0, .track .close, .track (.run 0), .track (.run 0), .next]

/-- The stream of group 0 of the publisher. -/
def sent : Serve.Task := ⟨0, 2, .over, [0, 4, 0, 1, 7, 1, 8], some .finished, false⟩

theorem publish_sent : (Serve.machine.run publish).2.tasks[0]? = some sent ∧
    Serve.Subscribed (Serve.machine.run publish).1 4 0 ∧
    GroupClosed (Serve.trackTrace (Serve.machine.run publish).1) 0 ∧
    JsServe.frames (Serve.machine.run publish).1 0 = [[7], [8]] ∧
    (Serve.machine.run publish).2.ending = some .finished := by
  refine ⟨by decide +kernel, ?_, .inl (by decide +kernel), by decide +kernel, by decide +kernel⟩
  unfold Serve.Subscribed
  decide +kernel

/-- The hypotheses of the theorems: the whole stream arrives, and the group has all frames. -/
example : ∃ tr' s', Receive.machine.Reach tr' s' ∧ Link sent tr' 0 4 0 ∧ Receive.Finished tr' 0 ∧
    GroupClosed (Receive.trackTrace tr') 0 ∧ received tr' 0 = [[7], [8]] := by
  refine ⟨_, _, Receive.machine.reach_run [.stream 0 [1, 7], .race 0, .frame 0, .arrive 0 [1, 8],
    .finish 0, .race 0, .frame 0, .race 0],
    ⟨⟨[1, 7], by decide +kernel⟩, [4, 0], ⟨[4], [0], rfl, varint_small 4 (by omega),
      varint_small 0 (by omega)⟩, ?_, fun _ => ⟨rfl, by decide +kernel⟩⟩,
    by unfold Receive.Finished; decide +kernel, .inl (by decide +kernel), by decide +kernel⟩
  exact ⟨[], by decide +kernel⟩

/-- **C106 (violated): the end of a track.**  The publisher finished the group with both frames and then
the subscription.  The end of the subscription overtakes the second frame: the subscriber closes the
group with one frame, and its reader is told the end of the track without an error. -/
theorem c106_cut : ∃ tr s tr' s', Serve.machine.Reach tr s ∧ Receive.machine.Reach tr' s' ∧
    s.tasks[0]? = some sent ∧ s.ending = some .finished ∧ JsServe.frames tr 0 = [[7], [8]] ∧
    Link sent tr' 0 4 0 ∧ Receive.Ended tr' true ∧ ¬ Receive.Failed tr' 0 ∧
    GroupClosed (Receive.trackTrace tr') 0 ∧ received tr' 0 = [[7]] ∧
    Track.delivered (Receive.trackTrace tr') 0 = [(0, 0, [7])] ∧
    (Receive.step s' (.track (.nextFrame 0 .frame))).1 = .track .undefined := by
  obtain ⟨p1, -, -, p4, p5⟩ := publish_sent
  refine ⟨_, _, _, _, Serve.machine.reach_run publish, Receive.machine.reach_run [.track .consume,
    .stream 0 [1, 7], .race 0, .frame 0, .ended true, .unusedTrack 0, .track (.run 0),
    .track (.nextFrame 0 .group), .track (.nextFrame 0 .frame), .track (.run 0)], p1, p5, p4,
    ⟨⟨[1, 7], by decide +kernel⟩, [4, 0], ⟨[4], [0], rfl, varint_small 4 (by omega),
      varint_small 0 (by omega)⟩, ⟨[1, 8], by decide +kernel⟩, fun hx => ?_⟩,
    by unfold Receive.Ended; decide +kernel, ?_, .inl (by decide +kernel), by decide +kernel,
    by decide +kernel, by decide +kernel⟩
  · unfold Receive.Finished at hx
    revert hx
    decide +kernel
  · rintro ⟨e, k, hx⟩
    simp [Receive.machine, Machine.run, Machine.runFrom] at hx

end Verif.Props.JsEndToEnd
