import Verif.Session.RequestsLemmas
import Verif.Message.Lemmas
import Verif.Props.Broadcast
import Verif.Props.Origin

/-!
# Property C51: how a publisher answers a subscribe request
-/

set_option autoImplicit false

namespace Verif.Props.Requests

open Verif Verif.Session Verif.Session.Requests Verif.Session.Requests.Spec
open Verif.Message Verif.Coding
open Verif.Model.Origin.Spec (available Publishing ProducerAlive)

variable {tr : Trace} {s : State}

/-- A request for a path that is not published: the stream is reset with the code of `Cancel`,
nothing is written, and nothing changes. -/
theorem c51_not_found (h : machine.Reach tr s) {path : Model.Origin.Path}
    (ha : ProducerAlive (originTrace tr) 0) (hp : ¬ Publishing (originTrace tr))
    (hn : available (originTrace tr) path = none) (name : String) (p : UInt8) :
    step s (.request path name p) = (.reset (.ok 0), s) := by
  have hl := Origin.lookup_available (inv_reach h).origin (path := path) ha hp
  rw [hn] at hl
  simp only [step, hl]
  rfl

/-- A request for a published path: it is matched to a track of that name of the broadcast
published there, the acknowledgement says the priority of that track, and the other broadcasts and
the origin do not change. -/
theorem c51_ack (h : machine.Reach tr s) {path : Model.Origin.Path} {b : Nat}
    (ha : ProducerAlive (originTrace tr) 0) (hp : ¬ Publishing (originTrace tr))
    (hn : available (originTrace tr) path = some b) (hb : ∃ i, (Op.broadcast, Out.made i) ∈ tr ∧ i = b)
    (name : String) (p : UInt8) :
    ∃ t bytes q, (step s (.request path name p)).1 = .ack b t (.ok bytes) ∧ t.name = name ∧
      priority b t.id (tr ++ [(.request path name p, (step s (.request path name p)).1)]) = some q ∧
      (∀ rest, decodeSubscribeOk (bytes ++ rest) = .ok (⟨q⟩, rest)) ∧
      (step s (.request path name p)).2.origin = s.origin ∧
      ∀ i, i ≠ b → (step s (.request path name p)).2.bcs[i]? = s.bcs[i]? := by
  have hI := inv_reach h
  have hl := Origin.lookup_available hI.origin (path := path) ha hp
  rw [hn] at hl
  obtain ⟨i, hm, rfl⟩ := hb
  obtain ⟨bc, hbc⟩ : ∃ bc, s.bcs[i]? = some bc := by
    by_cases hlt : i < s.bcs.length
    · exact ⟨_, List.getElem?_eq_getElem hlt⟩
    · have := (hI.rest i (by omega)).1
      have hx : (Model.Broadcast.Op.consume 0, Model.Broadcast.Out.handle 0) ∈ bcTrace i tr :=
        List.mem_filterMap.2 ⟨_, hm, by simp⟩
      rw [this] at hx; cases hx
  have ok := hI.bcs i bc hbc
  have hI' := hI.step (.request path name p)
  obtain ⟨t, ht, hname⟩ : ∃ t, (bc.step (.subscribe 0 name) p).1 = .track t ∧ t.name = name := by
    show ∃ t, (Model.Broadcast.step bc.state (.subscribe 0 name)).1 = .track t ∧ t.name = name
    simp only [Model.Broadcast.step, ok.consumer]
    repeat' split
    all_goals exact ⟨_, rfl, rfl⟩
  obtain ⟨q, hq⟩ : ∃ q, (bc.step (.subscribe 0 name) p).2.prio[t.id]? = some q := by
    have hlt : t.id < (bc.step (.subscribe 0 name) p).2.prio.length := by
      have hlen := ok.len
      rcases grow_cases ok.reach (.subscribe 0 name) with ⟨g1, g2⟩ | ⟨g1, _, n, g3⟩
      · have := g2 rfl t ht
        simp only [Bc.step]
        rw [if_neg (by omega)]; omega
      · have hx : (bc.step (.subscribe 0 name) p).1 = .track ⟨n, bc.state.tracks.length⟩ := g3
        rw [ht] at hx
        injection hx with hx
        subst hx
        simp only [Bc.step]
        rw [if_pos (by omega)]
        simp only [List.length_append, List.length_singleton]
        omega
    exact ⟨_, List.getElem?_eq_getElem hlt⟩
  have hstep : step s (.request path name p) =
      (.ack i t (wire (encodeSubscribeOk ⟨q⟩)),
        { s with bcs := s.bcs.set i (bc.step (.subscribe 0 name) p).2 }) := by
    have hpair : bc.step (.subscribe 0 name) p = (.track t, (bc.step (.subscribe 0 name) p).2) := by
      rw [← ht]
    simp only [step, hl, hbc]
    rw [hpair]
    simp only [hq]
  obtain ⟨bytes, hw⟩ : ∃ bytes, wire (encodeSubscribeOk ⟨q⟩) = .ok bytes := ⟨_, rfl⟩
  rw [hstep] at hI' ⊢
  rw [hw] at hI' ⊢
  refine ⟨t, bytes, q, rfl, hname, ?_, ?_, rfl, ?_⟩
  · have hlt := (List.getElem?_eq_some_iff.1 hbc).1
    have := (hI'.bcs i (bc.step (.subscribe 0 name) p).2 (by simp [hlt])).prio t.id
    rw [this]; exact hq
  · intro rest
    exact rt_subscribeOk _ bytes rest hw
  · intro j hj
    exact List.getElem?_set_ne (Ne.symm hj)

/-- A request for a track that the broadcast already has is matched to that track, and the
acknowledgement says the priority it was made with, not the requested one. -/
theorem c51_existing (h : machine.Reach tr s) {path : Model.Origin.Path} {b : Nat}
    (ha : ProducerAlive (originTrace tr) 0) (hp : ¬ Publishing (originTrace tr))
    (hn : available (originTrace tr) path = some b) {prod : Nat}
    (hl : Model.Broadcast.Spec.Live (bcTrace b tr) prod) {bc : Bc} (hbc : s.bcs[b]? = some bc)
    {t : Model.Broadcast.Ref}
    (hb : Model.Broadcast.Spec.lastBound (bcTrace b tr) t.name = some t)
    (ho : (Model.Broadcast.step bc.state (.pollTrack t.id)).1 = .pending) (p : UInt8) :
    ∃ bytes q, step s (.request path t.name p) = (.ack b t (.ok bytes), s) ∧
      priority b t.id tr = some q ∧ ∀ rest, decodeSubscribeOk (bytes ++ rest) = .ok (⟨q⟩, rest) := by
  have hI := inv_reach h
  have hlk := Origin.lookup_available hI.origin (path := path) ha hp
  rw [hn] at hlk
  have ok := hI.bcs b bc hbc
  have hsub := Broadcast.c29_shared (c := 0) ok.reach hl
    ((Broadcast.consumer_get ok.reach).2 ok.consumer) hb ho
  have hbs : bc.step (.subscribe 0 t.name) p = (.track t, bc) := by
    simp only [Bc.step, hsub]
    rw [if_neg (by omega)]
  have hlt : t.id < bc.prio.length := by
    rw [ok.len]
    exact Model.Broadcast.Open.lt (Model.Broadcast.poll_pending.1 ho)
  have hq : bc.prio[t.id]? = some bc.prio[t.id] := List.getElem?_eq_getElem hlt
  obtain ⟨bytes, hw⟩ : ∃ bytes, wire (encodeSubscribeOk ⟨bc.prio[t.id]⟩) = .ok bytes := ⟨_, rfl⟩
  have hset : s.bcs.set b bc = s.bcs := by
    have := (List.getElem?_eq_some_iff.1 hbc).2
    rw [← this]; simp
  refine ⟨bytes, bc.prio[t.id], ?_, ?_, fun rest => rt_subscribeOk _ bytes rest hw⟩
  · simp only [step, hlk, hbc, hbs, hq, hw, hset]
  · rw [ok.prio]; exact hq

/-- Two broadcasts; the second is published under "x".  Three requests: an unknown path, a new
track with priority 7, the same track with priority 9. -/
def sample : List Op :=
  [.broadcast, .broadcast, .origin (.publishStart 0 ['x'] 1), .origin .publishStep,
    .request ['y'] "a" 3, .request ['x'] "a" 7, .request ['x'] "a" 9]

example : (machine.run sample).1.map (fun e => match e.2 with
      | .ack b t (.ok w) => some (b, t.id, w)
      | .reset (.ok c) => some (1000, c, [])
      | _ => none) =
    [none, none, none, none, some (1000, 0, []), some (1, 0, [7]), some (1, 0, [7])] := by
  decide +kernel

/-- The hypotheses of the theorems can be met. -/
example : let tr := (machine.run (sample.take 4)).1
    ProducerAlive (originTrace tr) 0 ∧ ¬ Publishing (originTrace tr) ∧
      available (originTrace tr) ['y'] = none ∧ available (originTrace tr) ['x'] = some 1 ∧
      Model.Broadcast.Spec.Live (bcTrace 1 tr) 0 := by
  have hpa : (originTrace (machine.run (sample.take 4)).1) =
      [(.publishStart 0 ['x'] 1, .ok), (.publishStep, .published ['x'] 1 true)] := by decide +kernel
  have hbt : bcTrace 1 (machine.run (sample.take 4)).1 = [(.consume 0, .handle 0)] := by
    decide +kernel
  simp only [hpa, hbt]
  refine ⟨⟨.inl rfl, by simp [Model.Origin.Spec.ProducerGone]⟩, by unfold Publishing; decide +kernel, by decide +kernel,
    by decide +kernel, ?_⟩
  simp [Model.Broadcast.Spec.Live, Model.Broadcast.Spec.ProducerMade, Model.Broadcast.Spec.DropBegun]

end Verif.Props.Requests
