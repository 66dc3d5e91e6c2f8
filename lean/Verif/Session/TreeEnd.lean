import Verif.Session.TreeLemmas

/-!
# How the copies of a distributed track end, and which streams have arrived
-/

set_option autoImplicit false

namespace Verif.Session.Tree

open Verif Verif.Session Verif.Session.Tree.Spec
open Verif.Model (Track.Op Track.Out Track.State Track.Grp Track.init Track.step)
open Verif.Model.Track.Spec (accepted closing received ConsumerAlive)

/-- How a track is closed by a subscription with this result. -/
def result : Except Error Unit → Except Error Unit
  | .ok _ => .ok ()
  | .error e => .error (Transfer.abortWith e)

/-- What the history says about the end of link `i`. -/
def Ended (tr : Trace) (i : Nat) (phase : Phase) : Prop :=
  (phase = .active ∧ closing (nodeTrace (i + 1) tr) = none ∧ ∀ r, (Op.close i r, Out.ok) ∉ tr) ∨
  (phase ≠ .active ∧ ∃ r, (Op.close i r, Out.ok) ∈ tr ∧
    (∀ r', (Op.close i r', Out.ok) ∈ tr → r' = r) ∧
    closing (nodeTrace (i + 1) tr) = some (result r))

/-- The additional invariant. -/
structure Aux (tr : Trace) (s : State) : Prop where
  ended : ∀ (i : Nat) l, s.links[i]? = some l → Ended tr i l.phase
  marks : ∀ (i : Nat) l (k : Nat) g, s.links[i]? = some l → l.streams[k]? = some (g, true) →
    g ∈ arrived (i + 1) tr ∨ l.phase = .gone

theorem Ended.keep {tr : Trace} {i : Nat} {p p' : Phase} (h : Ended tr i p) {e : Op × Out}
    (hp : p = .active ↔ p' = .active) (hc : closing (nodeTrace (i + 1) [e]) = none)
    (he : ∀ r, e ≠ (.close i r, .ok)) : Ended (tr ++ [e]) i p' := by
  have hx : closing (nodeTrace (i + 1) (tr ++ [e])) = closing (nodeTrace (i + 1) tr) := by
    rw [nodeTrace_snoc, closing_append, hc]; rfl
  have hm : ∀ r, (Op.close i r, Out.ok) ∈ tr ++ [e] ↔ (Op.close i r, Out.ok) ∈ tr := by
    intro r
    rw [List.mem_append]
    refine ⟨fun hy => ?_, .inl⟩
    rcases hy with hy | hy
    · exact hy
    · exact absurd (List.mem_singleton.1 hy).symm (he r)
  unfold Ended
  simp only [hx, hm, ← hp, ne_eq]
  exact h

theorem arrived_mono {tr : Trace} {e : Op × Out} {n : Nat} {g : Track.Grp} (h : g ∈ arrived n tr) :
    g ∈ arrived n (tr ++ [e]) := by
  rw [arrived_snoc]
  exact List.mem_append_left _ h

theorem Aux.same {tr : Trace} {s s' : State} (h : Aux tr s) {e : Op × Out} (hl : s'.links = s.links)
    (hc : ∀ i, closing (nodeTrace (i + 1) [e]) = none) (he : ∀ i r, e ≠ (.close i r, .ok)) :
    Aux (tr ++ [e]) s' := by
  refine ⟨?_, ?_⟩
  · intro i l hi
    rw [hl] at hi
    exact (h.ended i l hi).keep Iff.rfl (hc i) (he i)
  · intro i l k g hi hk
    rw [hl] at hi
    exact (h.marks i l k g hi hk).imp arrived_mono id

/-- One link changes. -/
theorem Aux.set {tr : Trace} {s s' : State} (h : Aux tr s) {e : Op × Out} {j : Nat} {l x : Link}
    (hj : s.links[j]? = some l) (hl : s'.links = s.links.set j x)
    (hc : ∀ i, i ≠ j → closing (nodeTrace (i + 1) [e]) = none) (he : ∀ i r, i ≠ j → e ≠ (.close i r, .ok))
    (h1 : Ended (tr ++ [e]) j x.phase)
    (h2 : ∀ (k : Nat) g, x.streams[k]? = some (g, true) → g ∈ arrived (j + 1) (tr ++ [e]) ∨ x.phase = .gone) :
    Aux (tr ++ [e]) s' := by
  have hlt := (List.getElem?_eq_some_iff.1 hj).1
  refine ⟨?_, ?_⟩
  · intro i m hi
    rw [hl] at hi
    rcases get_set hlt i m hi with ⟨rfl, rfl⟩ | ⟨hne, hi⟩
    · exact h1
    · exact (h.ended i m hi).keep Iff.rfl (hc i hne) (fun r => he i r hne)
  · intro i m k g hi hk
    rw [hl] at hi
    rcases get_set hlt i m hi with ⟨rfl, rfl⟩ | ⟨hne, hi⟩
    · exact h2 k g hk
    · exact (h.marks i m k g hi hk).imp arrived_mono id

theorem Aux.link {tr : Trace} {s : State} (hI : Inv tr s) (h : Aux tr s) {n c : Nat} {t' : Track.State}
    {how : Track.Op} (hh : (∃ p, how = .consume p) ∨ ∃ d, how = .cloneConsumer d) :
    Aux (tr ++ [(.subscribe n how, (Tree.link s n c t').1)]) (Tree.link s n c t').2 := by
  have hc : ∀ i, closing (nodeTrace (i + 1) [(Op.subscribe n how, Out.link s.links.length c)]) = none := by
    intro i
    simp only [nodeTrace, List.filterMap_cons, List.filterMap_nil]
    by_cases h1 : n = i + 1
    · rw [if_pos h1]
      rcases hh with ⟨p, rfl⟩ | ⟨p, rfl⟩ <;> rfl
    · rw [if_neg h1]
      by_cases h2 : s.links.length + 1 = i + 1
      · rw [if_pos h2]; rfl
      · rw [if_neg h2]; rfl
  have hnew : Ended tr s.links.length .active := by
    have hb := (hI.beyond (s.links.length + 1) (Nat.le_of_eq hI.len)).1
    refine .inl ⟨rfl, by rw [hb]; rfl, fun r hr => ?_⟩
    have : (Subs.closeOp r, Track.Out.ok) ∈ nodeTrace (s.links.length + 1) tr :=
      List.mem_filterMap.2 ⟨_, hr, by simp⟩
    rw [hb] at this
    cases this
  have hx : (Tree.link s n c t').1 = .link s.links.length c := rfl
  rw [hx]
  refine ⟨?_, ?_⟩
  · intro i l hi
    have hi : (s.links ++ [⟨n, c, none, none, true, [], Phase.active⟩])[i]? = some l := hi
    rw [List.getElem?_append] at hi
    split at hi
    · exact (h.ended i l hi).keep Iff.rfl (hc i) (fun r hr => by cases hr)
    · have hl := List.getElem?_eq_some_iff.1 hi
      have : i = s.links.length := by
        have := hl.1
        simp at this
        omega
      subst this
      simp at hi
      subst hi
      exact hnew.keep Iff.rfl (hc _) (fun r hr => by cases hr)
  · intro i l k g hi hk
    have hi : (s.links ++ [⟨n, c, none, none, true, [], Phase.active⟩])[i]? = some l := hi
    rw [List.getElem?_append] at hi
    split at hi
    · exact (h.marks i l k g hi hk).imp arrived_mono id
    · have hl := List.mem_of_getElem? hi
      rw [List.mem_singleton] at hl
      subst hl
      simp at hk

theorem Aux.step {tr : Trace} {s : State} (hI : Inv tr s) (h : Aux tr s) (op : Op) :
    Aux (tr ++ [(op, (Tree.step s op).1)]) (Tree.step s op).2 := by
  have q : Aux (tr ++ [(op, .invalid)]) s :=
    h.same rfl (fun _ => by cases op <;> first | rfl | (rename_i o; cases o <;> rfl))
      (fun _ _ hx => by cases hx)
  cases op with
  | user n top =>
    simp only [Tree.step]
    split
    · exact q
    · split
      · rename_i hc
        rw [Bool.and_eq_true] at hc
        refine h.same rfl ?_ (fun _ _ hx => by cases hx)
        intro i
        simp only [nodeTrace, List.filterMap_cons, List.filterMap_nil]
        by_cases hn : n = i + 1
        · rw [if_pos hn]
          have hb : Subs.byConsumer top = true := by simpa [hn] using hc.1
          cases top <;> first | rfl | (simp [Subs.byConsumer] at hb; done)
        · rw [if_neg hn]; rfl
      · exact q
  | subscribe n how =>
    simp only [Tree.step]
    split
    · split
      · exact h.link hI (.inl ⟨_, rfl⟩)
      · exact q
    · split
      · split
        · exact h.link hI (.inr ⟨_, rfl⟩)
        · exact q
      · exact q
    · exact q
  | serve i op =>
    simp only [Tree.step]
    split
    · exact q
    · rename_i l hi
      split
      · exact q
      · rename_i op' _ _ t ht hop
        have hc : ∀ j, closing (nodeTrace (j + 1) [(Op.serve i op', Out.serve l.src l.consumer
            (ServeLoop.step l.consumer ⟨t, l.old, l.new, l.running⟩ op').1)]) = none := by
          intro j
          generalize (ServeLoop.step l.consumer ⟨t, l.old, l.new, l.running⟩ op').1 = o
          cases op' <;> cases o <;> try rfl
          simp only [nodeTrace, List.filterMap_cons, List.filterMap_nil]
          by_cases hs : l.src = j + 1
          · rw [if_pos hs]; rfl
          · rw [if_neg hs]; rfl
        refine h.set hi rfl (fun j _ => hc j) (fun _ _ _ hx => by cases hx)
          ((h.ended i l hi).keep Iff.rfl (hc i) (fun _ hx => by cases hx)) ?_
        intro k g hk
        dsimp only at hk
        refine (h.marks i l k g hi ?_).imp arrived_mono id
        split at hk
        · rw [List.getElem?_append] at hk
          split at hk
          · exact hk
          · have := List.mem_of_getElem? hk
            simp at this
        · exact hk
      · exact q
  | arrive i k =>
    simp only [Tree.step]
    split
    · exact q
    · rename_i l hi
      split
      · rename_i g t hk ht
        have hset : ∀ (m : Nat) y, (l.streams.set k (g, true))[m]? = some (y, true) →
            y = g ∨ l.streams[m]? = some (y, true) := by
          intro m y hm
          rcases get_set (List.getElem?_eq_some_iff.1 hk).1 m _ hm with ⟨_, hx⟩ | ⟨_, hx⟩
          · injection hx with hx _; exact .inl hx
          · exact .inr hx
        split
        · exact q
        · split
          · rename_i hgone
            refine h.set hi rfl (fun _ _ => rfl) (fun _ _ _ hx => by cases hx)
              ((h.ended i l hi).keep Iff.rfl rfl (fun _ hx => by cases hx)) ?_
            intro m y _
            exact .inr hgone
          · have hc : ∀ j, closing (nodeTrace (j + 1) [(Op.arrive i k,
                Out.offered g (Track.step t (.insert 1 g)).1)]) = none := by
              intro j
              simp only [nodeTrace, List.filterMap_cons, List.filterMap_nil]
              by_cases hs : i + 1 = j + 1
              · rw [if_pos hs]; rfl
              · rw [if_neg hs]; rfl
            refine h.set hi rfl (fun j _ => hc j) (fun _ _ _ hx => by cases hx)
              ((h.ended i l hi).keep Iff.rfl (hc i) (fun _ hx => by cases hx)) ?_
            intro m y hm
            rcases hset m y hm with rfl | hx
            · left
              rw [arrived_snoc]
              exact List.mem_append_right _ (by simp [Spec.arrived])
            · exact (h.marks i l m y hi hx).imp arrived_mono id
      · exact q
  | close i r =>
    simp only [Tree.step]
    split
    · exact q
    · rename_i l hi
      split
      · rename_i t ht hph
        refine h.set hi rfl ?_ ?_ ?_ ?_
        · intro j hj
          simp only [nodeTrace, List.filterMap_cons, List.filterMap_nil]
          rw [if_neg (by omega)]
          rfl
        · intro j r' hj hx
          cases hx
          exact hj rfl
        · have hE := h.ended i l hi
          rcases hE with ⟨_, h1, h2⟩ | ⟨hx, _⟩
          · refine .inr ⟨by simp, r, by simp, ?_, ?_⟩
            · intro r' hr'
              rcases List.mem_append.1 hr' with hr' | hr'
              · exact absurd hr' (h2 r')
              · simpa using hr'
            · rw [nodeTrace_snoc, closing_append]
              have : closing (nodeTrace (i + 1) [(Op.close i r, Out.ok)]) = some (result r) := by
                simp only [nodeTrace, List.filterMap_cons, List.filterMap_nil, if_true]
                cases r <;> rfl
              rw [this]; rfl
          · exact absurd hph hx
        · intro k g hk
          refine (h.marks i l k g hi hk).imp arrived_mono fun hx => ?_
          rw [hph] at hx
          cases hx
      · exact q
  | remove i =>
    simp only [Tree.step]
    split
    · exact q
    · rename_i l hi
      split
      · rename_i t ht hph
        have hc : ∀ j, closing (nodeTrace (j + 1) [(Op.remove i, Out.ok)]) = none := by
          intro j
          simp only [nodeTrace, List.filterMap_cons, List.filterMap_nil]
          by_cases hs : i + 1 = j + 1
          · rw [if_pos hs]; rfl
          · rw [if_neg hs]; rfl
        refine h.set hi rfl (fun j _ => hc j) (fun _ _ _ hx => by cases hx)
          ((h.ended i l hi).keep (by simp [hph]) (hc i) (fun _ hx => by cases hx)) ?_
        intro k g _
        exact .inr rfl
      · exact q

theorem aux_reach {tr : Trace} {s : State} (h : machine.Reach tr s) : Aux tr s :=
  Machine.Reach.induct (M := machine) (P := fun tr s => Aux tr s)
    ⟨(fun i l hl => by cases hl), (fun i l k g hl => by cases hl)⟩
    (fun _ _ op hr ih => ih.step (inv_reach hr) op) h

/-! ## Catching up -/

/-- What no step on the way changes. -/
structure Keeps (s s' : State) : Prop where
  nodes : ∀ (n : Nat) t, s.nodes[n]? = some t → ∃ t', s'.nodes[n]? = some t' ∧
    t'.closed = t.closed ∧ t'.senders = t.senders
  links : ∀ (i : Nat) l, s.links[i]? = some l → ∃ l', s'.links[i]? = some l' ∧ l'.src = l.src ∧
    l'.consumer = l.consumer ∧ l'.running = l.running ∧ l'.phase = l.phase

/-- The way from the origin to a node is open. -/
inductive Way (s : State) : Nat → Prop
  | origin {t} : s.nodes[0]? = some t → t.closed = none → t.senders ≠ 0 → Way s 0
  | hop {i l t} : Way s l.src → s.links[i]? = some l → l.running = true → l.phase = .active →
      s.nodes[i + 1]? = some t → t.closed = none → t.senders ≠ 0 → Way s (i + 1)

theorem Way.node {s : State} {n : Nat} (h : Way s n) :
    ∃ t, s.nodes[n]? = some t ∧ t.closed = none ∧ t.senders ≠ 0 := by
  cases h with
  | origin h1 h2 h3 => exact ⟨_, h1, h2, h3⟩
  | hop _ _ _ _ h1 h2 h3 => exact ⟨_, h1, h2, h3⟩

theorem Way.keep {s s' : State} (hk : Keeps s s') {n : Nat} (h : Way s n) : Way s' n := by
  induction h with
  | origin h1 h2 h3 =>
    obtain ⟨t', e1, e2, e3⟩ := hk.nodes _ _ h1
    exact .origin e1 (e2.trans h2) (by rw [e3]; exact h3)
  | hop hw h1 h2 h3 h4 h5 h6 ih =>
    obtain ⟨t', e1, e2, e3⟩ := hk.nodes _ _ h4
    obtain ⟨l', f1, f2, f3, f4, f5⟩ := hk.links _ _ h1
    exact .hop (by rw [f2]; exact ih) f1 (f4.trans h2) (f5.trans h3) e1 (e2.trans h5)
      (by rw [e3]; exact h6)

theorem Keeps.refl (s : State) : Keeps s s :=
  ⟨fun _ t h => ⟨t, h, rfl, rfl⟩, fun _ l h => ⟨l, h, rfl, rfl, rfl, rfl⟩⟩

theorem Keeps.trans {a b c : State} (h : Keeps a b) (g : Keeps b c) : Keeps a c := by
  refine ⟨?_, ?_⟩
  · intro n t hn
    obtain ⟨t1, a1, a2, a3⟩ := h.nodes n t hn
    obtain ⟨t2, b1, b2, b3⟩ := g.nodes n t1 a1
    exact ⟨t2, b1, b2.trans a2, b3.trans a3⟩
  · intro i l hi
    obtain ⟨l1, a1, a2, a3, a4, a5⟩ := h.links i l hi
    obtain ⟨l2, b1, b2, b3, b4, b5⟩ := g.links i l1 a1
    exact ⟨l2, b1, b2.trans a2, b3.trans a3, b4.trans a4, b5.trans a5⟩

theorem Keeps.set {s : State} {n i : Nat} {t t' : Track.State} {l l' : Link}
    (hn : s.nodes[n]? = some t) (h1 : t'.closed = t.closed) (h2 : t'.senders = t.senders)
    (hi : s.links[i]? = some l) (h3 : l'.src = l.src) (h4 : l'.consumer = l.consumer)
    (h5 : l'.running = l.running) (h6 : l'.phase = l.phase) :
    Keeps s ⟨s.nodes.set n t', s.links.set i l'⟩ := by
  refine ⟨?_, ?_⟩
  · intro m u hu
    dsimp only
    rw [List.getElem?_set]
    by_cases hm : n = m
    · subst hm
      rw [hn] at hu
      injection hu with hu
      subst hu
      rw [if_pos rfl, if_pos (List.getElem?_eq_some_iff.1 hn).1]
      exact ⟨t', rfl, h1, h2⟩
    · rw [if_neg hm]
      exact ⟨u, hu, rfl, rfl⟩
  · intro j m hj
    dsimp only
    rw [List.getElem?_set]
    by_cases hm : i = j
    · subst hm
      rw [hi] at hj
      injection hj with hj
      subst hj
      rw [if_pos rfl, if_pos (List.getElem?_eq_some_iff.1 hi).1]
      exact ⟨l', rfl, h3, h4, h5, h6⟩
    · rw [if_neg hm]
      exact ⟨m, hj, rfl, rfl, rfl, rfl⟩

/-- A poll of a consumer of an open track. -/
theorem next_open {t : Track.State} {c : Nat} {v : Option Nat} (hc : t.consumers.get c = some v)
    (h1 : t.closed = none) (h2 : t.senders ≠ 0) :
    (∃ g t', Track.step t (.next c) = (.group g, t') ∧ t'.closed = none ∧ t'.senders = t.senders ∧
      Track.step t' (.next c) = (.pending, t')) ∨ Track.step t (.next c) = (.pending, t) := by
  have hlt := Slots.get_some_lt hc
  cases hl : t.latest with
  | none => exact .inr (by simp [Model.Track.step, hc, h1, h2, hl, Model.Track.newer])
  | some g =>
    by_cases hn : Model.Track.newer (some g.seq) v = true
    · left
      refine ⟨g, { t with consumers := t.consumers.put c (some (some g.seq)) },
        by simp [Model.Track.step, hc, h1, hl, hn], h1, rfl, ?_⟩
      simp only [Model.Track.step, Slots.get_put_self _ hc, h1, hl]
      simp [Model.Track.newer]
      exact h2
    · exact .inr (by simp [Model.Track.step, hc, h1, h2, hl, hn])

end Verif.Session.Tree
