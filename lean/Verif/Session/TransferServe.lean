import Verif.Session.TransferLemmas

/-!
# Progress of the sender of a group
-/

set_option autoImplicit false

namespace Verif.Session.Transfer

open Verif Verif.Coding Verif.Message Verif.Session Verif.Session.Transfer.Spec
open Verif.Model (Group.Op Group.Out Group.State Group.machine Group.init Group.step)
open Verif.Model.Group.Spec (Trace received ConsumerAlive appended frameTrace closing)

/-- What the sender's own steps leave alone. -/
structure Same (s s' : Group.State) : Prop where
  closed : s'.closed = s.closed
  list : s'.list = s.list
  frames : ∀ (g size : Nat) (fs : Model.Frame.State), s.frames[g]? = some (size, fs) →
    ∃ fs' : Model.Frame.State, s'.frames[g]? = some (size, fs') ∧ fs'.closed = fs.closed ∧
      fs'.chunks = fs.chunks

theorem Same.refl (s : Group.State) : Same s s := ⟨rfl, rfl, fun _ _ fs h => ⟨fs, h, rfl, rfl⟩⟩

theorem Same.trans {a b c : Group.State} (h : Same a b) (g : Same b c) : Same a c := by
  refine ⟨g.closed.trans h.closed, g.list.trans h.list, ?_⟩
  intro f size fs hf
  obtain ⟨fs', h1, h2, h3⟩ := h.frames f size fs hf
  obtain ⟨fs'', g1, g2, g3⟩ := g.frames f size fs' h1
  exact ⟨fs'', g1, g2.trans h2, g3.trans h3⟩

theorem Same.set {s s' : Group.State} {f size : Nat} {fs fs' : Model.Frame.State}
    (hf : s.frames[f]? = some (size, fs)) (h1 : s'.closed = s.closed) (h2 : s'.list = s.list)
    (h3 : s'.frames = s.frames.set f (size, fs')) (h4 : fs'.closed = fs.closed)
    (h5 : fs'.chunks = fs.chunks) : Same s s' := by
  refine ⟨h1, h2, ?_⟩
  intro g size' gs hg
  rw [h3]
  by_cases he : f = g
  · subst he
    rw [hf] at hg
    cases hg
    exact ⟨fs', List.getElem?_set_self (List.getElem?_eq_some_iff.1 hf).1, h4, h5⟩
  · exact ⟨gs, by rw [List.getElem?_set_ne he]; exact hg, rfl, rfl⟩

variable {c subscribe sequence : Nat}

/-- The rest of a finished frame can be sent. -/
theorem serve_payload : ∀ (n : Nat) {tr : Trace} {s : Group.State} {x : Sending}
    {f id size i : Nat} {fs : Model.Frame.State}, Serve c subscribe sequence tr s x →
    x.phase = .payload f id → s.frames[f]? = some (size, fs) → fs.closed = some (.ok ()) →
    fs.consumers.get id = some i → fs.chunks.length - i = n →
    ∃ tr' s' x', Serve c subscribe sequence (tr ++ tr') s' x' ∧ (∀ e ∈ tr', Own c e.1) ∧
      x'.phase = .frames ∧ Same s s' ∧ s'.consumers = s.consumers
  | n, tr, s, x, f, id, size, i, fs, h, hx, hf, hc, hi, hn => by
    have hr := Serve.read hx h
    cases hk : fs.chunks[i]? with
    | none =>
      have hst : Group.step s (.frame f (.read id)) = (.frame .ended,
          { s with frames := s.frames.set f (size, fs) }) := by
        simp only [Model.Group.step, hf, Model.Frame.step, hi, hk, hc]
        rfl
      rw [hst] at hr
      refine ⟨_, _, _, hr, ?_, rfl, Same.set (fs' := fs) hf rfl rfl rfl rfl rfl, rfl⟩
      intro e he
      rw [List.mem_singleton] at he
      subst he
      exact .inr ⟨f, id, rfl⟩
    | some chunk =>
      have hlt := (List.getElem?_eq_some_iff.1 hk).1
      have hst : Group.step s (.frame f (.read id)) = (.frame (.data chunk),
          { s with frames := s.frames.set f (size,
              { fs with consumers := fs.consumers.put id (some (i + 1)) }) }) := by
        simp only [Model.Group.step, hf, Model.Frame.step, hi, hk]
        rfl
      rw [hst] at hr
      match n, hn with
      | 0, hn => omega
      | n + 1, hn =>
        obtain ⟨tr', s', x', h1, h2, h3, h4, h5⟩ := serve_payload n (f := f) (id := id) (size := size)
          (i := i + 1) (fs := { fs with consumers := fs.consumers.put id (some (i + 1)) }) hr hx
          (List.getElem?_set_self (List.getElem?_eq_some_iff.1 hf).1) hc
          (Slots.get_put_self _ hi) (by show fs.chunks.length - (i + 1) = n; omega)
        refine ⟨(.frame f (.read id), .frame (.data chunk)) :: tr', s', x', ?_, ?_, h3, ?_, h5⟩
        · rw [List.append_assoc] at h1
          exact h1
        · intro e he
          rcases List.mem_cons.1 he with rfl | he
          · exact .inr ⟨f, id, rfl⟩
          · exact h2 e he
        · refine Same.trans ?_ h4
          exact Same.set (fs' := { fs with consumers := fs.consumers.put id (some (i + 1)) }) hf
            rfl rfl rfl rfl rfl

/-- A finished group can be sent to its end. -/
theorem serve_end : ∀ (n : Nat) {tr : Trace} {s : Group.State} {x : Sending} {k : Nat},
    Serve c subscribe sequence tr s x → x.phase = .frames → Next s c k →
    s.closed = some (.ok ()) →
    (∀ f ∈ s.list, ∃ (size : Nat) (fs : Model.Frame.State), s.frames[f]? = some (size, fs) ∧
      fs.closed = some (.ok ()) ∧ ∃ header, wire (encodeFrame ⟨size⟩) = .ok header) →
    s.list.length - k = n →
    ∃ tr' s' x', Serve c subscribe sequence (tr ++ tr') s' x' ∧ (∀ e ∈ tr', Own c e.1) ∧
      x'.ending = .fin ∧ Same s s'
  | n, tr, s, x, k, h, hx, hk, hc, hf, hl => by
    have hE := (Model.Group.inv_reach h.reach).serves.exist
    have hs := Serve.next hx h
    rcases hk.cases hE with ⟨f, size, fs, h1, h2, h3⟩ | ⟨h1, h2⟩
    · obtain ⟨size', fs', g1, g2, header, g3⟩ := hf f (List.mem_of_getElem? h1)
      rw [h2] at g1
      cases g1
      rw [h3] at hs
      have hsz : sizeIn s f = size := by unfold sizeIn; rw [h2]
      have hnx : x.next (sizeIn s) (.reader f fs.consumers.length) =
          { x with phase := .payload f fs.consumers.length, sent := x.sent ++ header } := by
        simp only [Sending.next, hsz, g3]
      rw [hnx] at hs
      have hset : Same s { s with
          frames := s.frames.set f (size, { fs with consumers := fs.consumers.add 0 })
          consumers := s.consumers.put c (some (k + 1, none)) } :=
        Same.set (fs' := { fs with consumers := fs.consumers.add 0 }) h2 rfl rfl rfl rfl rfl
      obtain ⟨tr', s', x', k1, k2, k3, k4, k5⟩ := serve_payload (fs.chunks.length - 0) hs rfl
        (List.getElem?_set_self (List.getElem?_eq_some_iff.1 h2).1) g2
        (show Slots.get (fs.consumers.add 0) _ = some 0 by rw [Slots.get_add]; simp) rfl
      have hsame := hset.trans k4
      have hklt := (List.getElem?_eq_some_iff.1 h1).1
      have hget : s.consumers.get c ≠ none := by
        rcases hk with hk | ⟨_, hk, _⟩ <;> rw [hk] <;> simp
      have hnext : Next s' c (k + 1) := by
        left
        rw [k5]
        show Slots.get (s.consumers.put c (some (k + 1, none))) c = _
        cases hg : s.consumers.get c with
        | none => exact absurd hg hget
        | some y => exact Slots.get_put_self _ hg
      match n, hl with
      | 0, hl => omega
      | n + 1, hl =>
        obtain ⟨tr'', s'', x'', m1, m2, m3, m4⟩ := serve_end n k1 k3 hnext
          (by rw [hsame.closed]; exact hc)
          (by
            intro g hg
            rw [hsame.list] at hg
            obtain ⟨size', fs', a1, a2, a3⟩ := hf g hg
            obtain ⟨fs'', b1, b2, _⟩ := hsame.frames g size' fs' a1
            exact ⟨size', fs'', b1, b2.trans a2, a3⟩)
          (by rw [hsame.list]; omega)
        refine ⟨(.nextFrame c, .reader f fs.consumers.length) :: tr' ++ tr'', s'', x'', ?_, ?_, m3,
          hsame.trans m4⟩
        · simpa using m1
        · intro e he
          rw [List.cons_append, List.mem_cons, List.mem_append] at he
          rcases he with rfl | he | he
          · exact .inl rfl
          · exact k2 e he
          · exact m2 e he
    · have hend : s.atEnd = .ended := by unfold Model.Group.State.atEnd; rw [hc]
      rw [h2, hend] at hs
      refine ⟨_, _, _, hs, ?_, rfl, Same.refl s⟩
      intro e he
      rw [List.mem_singleton] at he
      subst he
      exact .inl rfl

end Verif.Session.Transfer
