import Verif.Session.TreeEnd
import Verif.Props.Track
import Verif.Props.Transfer

/-!
# Properties of distributed tracks (C89)
-/

set_option autoImplicit false

namespace Verif.Props.Tree

open Verif Verif.Session Verif.Session.Tree Verif.Session.Tree.Spec
open Verif.Model (Track.Op Track.Out Track.State Track.Grp Track.step Group.Op Group.Out)
open Verif.Model.Track (Increasing)
open Verif.Model.Track.Spec (accepted closing received ConsumerAlive)

variable {tr : Trace} {s : State}

/-! ## Order -/

theorem sublist_of_increasing : ∀ {B A : List Track.Grp}, Increasing A → Increasing B →
    (∀ g ∈ A, g ∈ B) → A.Sublist B
  | [], A, _, _, h => by
    cases A with
    | nil => exact .slnil
    | cons a A => exact absurd (h a (by simp)) (by simp)
  | b :: B, A, hA, hB, h => by
    cases A with
    | nil => exact List.nil_sublist _
    | cons a A =>
      have hA' := List.pairwise_cons.1 hA
      have hB' := List.pairwise_cons.1 hB
      by_cases hab : a = b
      · subst hab
        refine (sublist_of_increasing hA'.2 hB'.2 ?_).cons₂ a
        intro g hg
        rcases List.mem_cons.1 (h g (List.mem_cons_of_mem _ hg)) with rfl | hx
        · exact absurd (hA'.1 g hg) (Nat.lt_irrefl _)
        · exact hx
      · have haB : a ∈ B := by
          rcases List.mem_cons.1 (h a (by simp)) with hx | hx
          · exact absurd hx hab
          · exact hx
        refine (sublist_of_increasing hA hB'.2 ?_).cons b
        intro g hg
        rcases List.mem_cons.1 (h g hg) with rfl | hx
        · exfalso
          rcases List.mem_cons.1 hg with hx | hx
          · exact hab hx.symm
          · have h1 := hA'.1 g hx
            have h2 := hB'.1 a haB
            omega
        · exact hx

theorem accepted_increasing (h : machine.Reach tr s) (n : Nat) :
    Increasing (accepted (nodeTrace n tr)) := by
  have hI := inv_reach h
  cases hn : s.nodes[n]? with
  | none =>
    rw [(hI.beyond n (List.getElem?_eq_none_iff.1 hn)).1]
    exact List.Pairwise.nil
  | some t => exact (Model.Track.inv_reach (hI.nodes n t hn)).ordered.accepted

theorem child_link (h : machine.Reach tr s) {m n : Nat} (hc : Child tr m n) :
    ∃ i l, n = i + 1 ∧ s.links[i]? = some l ∧ l.src = m ∧ LinkOk tr i l := by
  have hI := inv_reach h
  obtain ⟨how, i, c, hm, rfl⟩ := hc
  obtain ⟨l, h1, h2, _⟩ := hI.subs _ _ _ _ hm
  exact ⟨i, l, rfl, h1, h2, hI.links i l h1⟩

/-- C89: the track of a node has only groups of the node it subscribes to, in the same order. -/
theorem c89_hop (h : machine.Reach tr s) {m n : Nat} (hc : Child tr m n) :
    (accepted (nodeTrace n tr)).Sublist (accepted (nodeTrace m tr)) := by
  obtain ⟨i, l, rfl, _, rfl, hL⟩ := child_link h hc
  exact sublist_of_increasing (accepted_increasing h _) (accepted_increasing h _)
    fun g hg => hL.taken g (hL.arrived g (hL.accepted g hg))

/-- C89: over any number of relays, whatever everybody does and however the network reorders the
streams: the groups of every copy of the track are among those of the origin, in the order of the
origin and each at most once. -/
theorem c89_copies (h : machine.Reach tr s) (n : Nat) :
    (accepted (nodeTrace n tr)).Sublist (accepted (nodeTrace 0 tr)) := by
  induction n using Nat.strongRecOn with
  | _ n ih =>
    cases n with
    | zero => exact List.Sublist.refl _
    | succ i =>
      have hI := inv_reach h
      cases hl : s.links[i]? with
      | none =>
        have hlen := List.getElem?_eq_none_iff.1 hl
        rw [(hI.beyond (i + 1) (by rw [hI.len]; omega)).1]
        exact List.nil_sublist _
      | some l =>
        have hL := hI.links i l hl
        obtain ⟨how, hm⟩ := hL.made
        have hs := hL.src
        exact (c89_hop h ⟨how, i, l.consumer, hm, rfl⟩).trans (ih l.src (by omega))

/-- C89: whoever reads a copy of the track is given groups of the origin, in the order of the origin
and each at most once. -/
theorem c89_groups (h : machine.Reach tr s) {n d : Nat} (hd : ConsumerAlive (nodeTrace n tr) d) :
    (received (nodeTrace n tr) d).Sublist (accepted (nodeTrace 0 tr)) := by
  have hI := inv_reach h
  cases hn : s.nodes[n]? with
  | none =>
    rw [(hI.beyond n (List.getElem?_eq_none_iff.1 hn)).1] at hd
    rcases hd.1 with ⟨p, hp⟩ | ⟨p, hp⟩ <;> cases hp
  | some t =>
    obtain ⟨h1, h2⟩ := Props.Track.c23_increasing (hI.nodes n t hn) hd
    exact (sublist_of_increasing h1 (accepted_increasing h n) h2).trans (c89_copies h n)

/-! ## The newest group -/

/-- Everything between the origin and node `n` is at rest, and nobody has ended the track: the loops
on the way run and wait for a next group, and the last stream each has begun has arrived. -/
inductive Current (tr : Trace) (s : State) : Nat → Prop
  | origin : Current tr s 0
  | hop {m i c : Nat} {how : Track.Op} : Current tr s m →
      (Op.subscribe m how, Out.link i c) ∈ tr → closing (nodeTrace m tr) = none →
      (step s (.serve i .next)).1 = .serve m c .pending →
      (∀ g, (begun (i + 1) tr).getLast? = some g → g ∈ arrived (i + 1) tr) →
      closing (nodeTrace (i + 1) tr) = none → Current tr s (i + 1)

theorem eq_of_seq {gs : List Track.Grp} (h : Increasing gs) {a b : Track.Grp} (ha : a ∈ gs)
    (hb : b ∈ gs) (hab : a.seq = b.seq) : a = b := by
  induction gs with
  | nil => cases ha
  | cons x gs ih =>
    have h' := List.pairwise_cons.1 h
    rcases List.mem_cons.1 ha with ha | ha
    · rcases List.mem_cons.1 hb with hb | hb
      · rw [ha, hb]
      · have := h'.1 b hb
        rw [ha] at hab
        omega
    · rcases List.mem_cons.1 hb with hb | hb
      · have := h'.1 a ha
        rw [hb] at hab
        omega
      · exact ih h'.2 ha hb

/-- A part of an increasing list that has the last element. -/
theorem last_of_mem {A B : List Track.Grp} (hA : Increasing A) (hB : Increasing B)
    (h : ∀ g ∈ A, g ∈ B) {l x : Track.Grp} (hl : B.getLast? = some l) (hx : x ∈ A)
    (hle : l.seq ≤ x.seq) : A.getLast? = some l := by
  have hlB := List.mem_of_getLast? hl
  have hxl : x = l := eq_of_seq hB (h x hx) hlB (Nat.le_antisymm (hB.le_last hl x (h x hx)) hle)
  subst hxl
  cases ha : A.getLast? with
  | none => rw [List.getLast?_eq_none_iff] at ha; rw [ha] at hx; cases hx
  | some a =>
    have haA := List.mem_of_getLast? ha
    have h1 := hA.le_last ha x hx
    have h2 := hB.le_last hl a (h a haA)
    rw [eq_of_seq hB (h a haA) hlB (Nat.le_antisymm h2 h1)]

/-- The loop waits only if it has been given the newest group. -/
theorem waits {i : Nat} {l : Link} {t : Track.State} {c : Nat} (ht : s.nodes[l.src]? = some t)
    (hl : s.links[i]? = some l) (hw : (step s (.serve i .next)).1 = .serve l.src c .pending)
    (hn : t.closed = none) : l.running = true ∧ (Track.step t (.next l.consumer)).1 = .pending := by
  simp only [step, hl, ht] at hw
  injection hw with _ _ hw
  cases hr : l.running with
  | false => simp [ServeLoop.step, hr] at hw
  | true =>
    refine ⟨rfl, ?_⟩
    simp only [ServeLoop.step, hr, if_true] at hw
    rcases hs : Track.step t (.next l.consumer) with ⟨o, t'⟩
    rw [hs] at hw
    cases o with
    | pending => rfl
    | group g => cases hnew : l.new <;> simp [hnew] at hw
    | ended =>
      exfalso
      simp only [Model.Track.step] at hs
      rw [hn] at hs
      revert hs
      repeat' split
      all_goals simp_all
    | _ => simp at hw

/-- C89: as long as nobody has ended the track, a reader is not cut off from the newest group by any
number of relays: when everything on the way is at rest, the newest group of the copy is the newest
group of the origin. -/
theorem c89_newest (h : machine.Reach tr s) {n : Nat} (hn : Current tr s n) :
    (accepted (nodeTrace n tr)).getLast? = (accepted (nodeTrace 0 tr)).getLast? := by
  induction hn with
  | origin => rfl
  | @hop m i c how hm hsub ho hw harr ho' ih =>
    rw [← ih]
    have hI := inv_reach h
    obtain ⟨l, hl, rfl, rfl⟩ := hI.subs _ _ _ _ hsub
    have hL := hI.links i l hl
    have hsrc := hL.src
    have hil := (List.getElem?_eq_some_iff.1 hl).1
    obtain ⟨t, ht⟩ : ∃ t, s.nodes[l.src]? = some t :=
      ⟨_, List.getElem?_eq_getElem (by rw [hI.len]; omega)⟩
    have hT := Model.Track.inv_reach (hI.nodes _ t ht)
    obtain ⟨hr, hp⟩ := waits ht hl hw (by rw [← hT.agrees.closed]; exact ho)
    obtain ⟨halive, hrec⟩ := hL.read hr
    have hmem : ∀ g ∈ accepted (nodeTrace (i + 1) tr), g ∈ accepted (nodeTrace l.src tr) :=
      fun g hg => hL.taken g (hL.arrived g (hL.accepted g hg))
    cases hlast : (accepted (nodeTrace l.src tr)).getLast? with
    | none =>
      rw [List.getLast?_eq_none_iff] at hlast ⊢
      rw [List.eq_nil_iff_forall_not_mem]
      intro g hg
      have := hmem g hg
      rw [hlast] at this
      cases this
    | some g =>
      have hinc := accepted_increasing h l.src
      obtain ⟨x, hx, hgx⟩ : ∃ x ∈ begun (i + 1) tr, g.seq ≤ x.seq := by
        refine Classical.byContradiction fun hcon => ?_
        have hnew : ∀ x ∈ received (nodeTrace l.src tr) l.consumer, x.seq < g.seq := by
          intro x hx
          rw [hrec] at hx
          exact Nat.lt_of_not_le fun hle => hcon ⟨x, hx, hle⟩
        obtain ⟨g', hg'⟩ := Props.Track.c26_does_not_block (hI.nodes _ t ht) halive ho
          ⟨g, List.mem_of_getLast? hlast, hnew⟩
        rw [hp] at hg'
        cases hg'
      have hb := last_of_mem hL.increasing hinc hL.taken hlast hx hgx
      obtain ⟨y, hy, hgy⟩ := hL.offered ho' g (harr g hb)
      exact last_of_mem (accepted_increasing h _) hinc hmem hlast hy hgy

theorem free_reader (hI : Inv tr s) {n d : Nat}
    (hown : ∀ how i, (Op.subscribe n how, Out.link i d) ∉ tr) : free s.links n (.next d) = true := by
  unfold free
  rw [List.all_eq_true]
  intro l hl
  obtain ⟨i, hi⟩ := List.mem_iff_getElem?.1 hl
  obtain ⟨how, hmade⟩ := (hI.links i l hi).made
  by_cases hsrc : l.src = n
  · have hne : d ≠ l.consumer := by
      rintro rfl
      rw [hsrc] at hmade
      exact hown how i hmade
    simp [ServeLoop.foreign, hne]
  · simp [hsrc]

/-- C89: and so a reader of the copy has been given the newest group of the origin, or is given it
when it asks next. -/
theorem c89_fresh (h : machine.Reach tr s) {n d : Nat} (hn : Current tr s n)
    (ho : closing (nodeTrace n tr) = none) (hd : ConsumerAlive (nodeTrace n tr) d)
    (hown : ∀ how i, (Op.subscribe n how, Out.link i d) ∉ tr) {g : Track.Grp}
    (hg : (accepted (nodeTrace 0 tr)).getLast? = some g) :
    g ∈ received (nodeTrace n tr) d ∨ (step s (.user n (.next d))).1 = .track (.group g) := by
  have hI := inv_reach h
  rw [← c89_newest h hn] at hg
  cases ht : s.nodes[n]? with
  | none =>
    rw [(hI.beyond n (List.getElem?_eq_none_iff.1 ht)).1] at hg
    cases hg
  | some t =>
    have hT := hI.nodes n t ht
    have hc := Props.Track.c27_last_group_partial hT hd ho hg
    have hst : (step s (.user n (.next d))).1 = .track (Track.step t (.next d)).1 := by
      simp [step, ht, free_reader hI hown, Subs.byConsumer]
    rw [hst]
    rw [Model.Track.received_snoc] at hc
    cases ho : (Track.step t (.next d)).1 with
    | group g' =>
      rw [ho] at hc
      simp only [Model.Track.Spec.give, if_true] at hc
      rcases List.mem_append.1 hc with hc | hc
      · exact .inl hc
      · rw [List.mem_singleton] at hc
        subst hc
        exact .inr rfl
    | _ =>
      rw [ho] at hc
      exact .inl hc

/-! ## Catching up -/

/-- The way from the origin to node `n` is open: nobody has ended the track on it and all loops on
it are there. -/
inductive Open (tr : Trace) (s : State) : Nat → Prop
  | origin : closing (nodeTrace 0 tr) = none → ¬ Model.Track.Spec.Abandoned (nodeTrace 0 tr) → Open tr s 0
  | hop {m i c : Nat} {how : Track.Op} : Open tr s m →
      (Op.subscribe m how, Out.link i c) ∈ tr → (step s (.serve i .next)).1 ≠ .serve m c .invalid →
      closing (nodeTrace (i + 1) tr) = none → Open tr s (i + 1)

theorem open_way (h : machine.Reach tr s) {n : Nat} (ho : Open tr s n) : Way s n := by
  have hI := inv_reach h
  have hA := aux_reach h
  induction ho with
  | origin h1 h2 =>
    obtain ⟨t, ht⟩ : ∃ t, s.nodes[0]? = some t :=
      ⟨_, List.getElem?_eq_getElem (by rw [hI.len]; omega)⟩
    have hT := Model.Track.inv_reach (hI.nodes 0 t ht)
    exact .origin ht (by rw [← hT.agrees.closed]; exact h1)
      (fun hx => h2 (hT.agrees.senders.1 hx))
  | @hop m i c how hm hsub hw hc ih =>
    obtain ⟨l, hl, rfl, rfl⟩ := hI.subs _ _ _ _ hsub
    have hil := (List.getElem?_eq_some_iff.1 hl).1
    obtain ⟨t, ht, _, _⟩ := ih.node
    obtain ⟨u, hu⟩ : ∃ u, s.nodes[i + 1]? = some u :=
      ⟨_, List.getElem?_eq_getElem (by rw [hI.len]; omega)⟩
    have hU := Model.Track.inv_reach (hI.nodes _ u hu)
    have hph : l.phase = .active := by
      rcases hA.ended i l hl with ⟨hx, _⟩ | ⟨_, r, _, _, hx⟩
      · exact hx
      · rw [hc] at hx; cases hx
    refine .hop ih hl ?_ hph hu (by rw [← hU.agrees.closed]; exact hc) ?_
    · cases hr : l.running with
      | true => rfl
      | false =>
        refine absurd ?_ hw
        simp [step, hl, ht, ServeLoop.step, hr]
    · obtain ⟨u', p1, p2, _⟩ := hI.prods i l hl
      rw [hu] at p1
      injection p1 with p1
      subst p1
      intro hx
      have hab := hU.agrees.senders.1 hx
      have h0 := p2 hph
      have hmade : Model.Track.Spec.ProducerMade (nodeTrace (i + 1) tr) 0 := .inl rfl
      have hgone := hab.1 0 hmade
      have hlive := (hU.agrees.producers.live 0).1 (by rw [h0]; rfl)
      exact hlive.2 hgone

/-- Events on link `i` do not concern what is before it. -/
theorem current_event (hI : Inv tr s) {s' : State} {e : Op × Out} {m : Nat} (h : Current tr s m)
    (hl : ∀ j, j < m → s'.links[j]? = s.links[j]?) (hn : ∀ j, j < m → s'.nodes[j]? = s.nodes[j]?)
    (hc : ∀ j, j ≤ m → closing (nodeTrace j [e]) = none)
    (hb : ∀ j, j < m → begun (j + 1) [e] = [] ∧ arrived (j + 1) [e] = []) :
    Current (tr ++ [e]) s' m := by
  induction h with
  | origin => exact .origin
  | @hop m i c how hm hsub ho hw harr ho' ih =>
    obtain ⟨l, hli, hsrc, rfl⟩ := hI.subs _ _ _ _ hsub
    have hle := (hI.links i l hli).src
    rw [hsrc] at hle
    have hlast : ∀ j, j ≤ i + 1 → closing (nodeTrace j tr) = none →
        closing (nodeTrace j (tr ++ [e])) = none := by
      intro j hj hx
      rw [nodeTrace_snoc, closing_append, hc j hj, hx]
      rfl
    refine .hop (ih (fun j hj => hl j (by omega)) (fun j hj => hn j (by omega))
      (fun j hj => hc j (by omega)) (fun j hj => hb j (by omega)))
      (List.mem_append_left _ hsub) (hlast m (by omega) ho) ?_ ?_ (hlast (i + 1) (Nat.le_refl _) ho')
    · rw [← hw]
      have hn' := hn m (by omega)
      cases hq : s.nodes[m]? <;> rw [hq] at hn' <;>
        simp only [step, hl i (by omega), hli, hsrc, hn', hq]
    · intro g hg
      rw [begun_snoc, (hb i (by omega)).1, List.append_nil] at hg
      exact arrived_mono (harr g hg)

/-- The operations of the loops and of the network. -/
def Working (ops : List Op) : Prop :=
  ∀ op ∈ ops, (∃ i, op = .serve i .next) ∨ ∃ i k, op = .arrive i k

/-- One poll of the loop of an open link. -/
theorem poll {i : Nat} {l : Link} {t : Track.State} (hl : s.links[i]? = some l)
    (ht : s.nodes[l.src]? = some t) (hr : l.running = true) :
    (Track.step t (.next l.consumer) = (.pending, t) →
      (step s (.serve i .next)).1 = .serve l.src l.consumer .pending) ∧
    (∀ g t', Track.step t (.next l.consumer) = (.group g, t') → ∃ ds old,
      step s (.serve i .next) = (.serve l.src l.consumer (.started g ds),
        { nodes := s.nodes.set l.src t'
          links := s.links.set i
            { l with
              old := old
              new := some g
              streams := l.streams ++ [(g, false)] } })) := by
  refine ⟨?_, ?_⟩
  · intro hx
    simp [step, hl, ht, ServeLoop.step, hr, hx]
  · intro g t' hx
    cases hn : l.new with
    | none => exact ⟨[], l.old, by simp [step, hl, ht, ServeLoop.step, hr, hx, hn]⟩
    | some n => exact ⟨l.old.toList, some n, by simp [step, hl, ht, ServeLoop.step, hr, hx, hn]⟩

/-- The loop of the last link is polled until it waits. -/
theorem settle (h : machine.Reach tr s) {i : Nat} {l : Link} (hl : s.links[i]? = some l)
    (hw : Way s (i + 1)) (hcur : Current tr s l.src) :
    ∃ ops, Working ops ∧ ∃ l', (machine.runFrom s ops).2.links[i]? = some l' ∧ l'.src = l.src ∧
      Keeps s (machine.runFrom s ops).2 ∧
      Current (tr ++ (machine.runFrom s ops).1) (machine.runFrom s ops).2 l.src ∧
      (step (machine.runFrom s ops).2 (.serve i .next)).1 = .serve l.src l'.consumer .pending ∧
      accepted (nodeTrace 0 (machine.runFrom s ops).1) = [] := by
  have hI := inv_reach h
  have hL := hI.links i l hl
  cases hw with
  | @hop _ l1 u hws hl1 hr hph hu hc hsend =>
    rw [hl] at hl1
    injection hl1 with hl1
    subst hl1
    obtain ⟨t, ht, htc, hts⟩ := hws.node
    have hT := Model.Track.inv_reach (hI.nodes _ t ht)
    obtain ⟨v, hv⟩ := (hT.alive_iff l.consumer).1 (hL.read hr).1
    have hp := poll hl ht hr
    rcases next_open hv htc hts with ⟨g, t', hg, hc', hs', hagain⟩ | hpend
    · obtain ⟨ds, old, hst⟩ := hp.2 g t' hg
      have hlt := (List.getElem?_eq_some_iff.1 hl).1
      have hnlt := (List.getElem?_eq_some_iff.1 ht).1
      have hsrc := hL.src
      have hrun : machine.runFrom s [.serve i .next] =
          ([(.serve i .next, (step s (.serve i .next)).1)], (step s (.serve i .next)).2) := rfl
      refine ⟨[.serve i .next], fun op hop => .inl ⟨i, List.mem_singleton.1 hop⟩, ?_⟩
      rw [hrun, hst]
      dsimp only
      refine ⟨_, List.getElem?_set_self hlt, rfl, ?_, ?_, ?_, ?_⟩
      · exact Keeps.set ht (hc'.trans htc.symm) hs' hl rfl rfl rfl rfl
      · refine current_event hI hcur ?_ ?_ ?_ ?_
        · intro j hj
          exact List.getElem?_set_ne (by omega)
        · intro j hj
          exact List.getElem?_set_ne (by omega)
        · intro j hj
          simp only [nodeTrace, List.filterMap_cons, List.filterMap_nil]
          by_cases hx : l.src = j
          · rw [if_pos hx]; rfl
          · rw [if_neg hx]; rfl
        · intro j hj
          refine ⟨?_, rfl⟩
          simp only [begun, List.filterMap_cons, List.filterMap_nil]
          rw [if_neg (by omega)]
      · exact (poll (s := ⟨_, _⟩) (l := { l with
          old := old
          new := some g
          streams := l.streams ++ [(g, false)] }) (List.getElem?_set_self hlt)
          (List.getElem?_set_self hnlt) hr).1 hagain
      · simp only [nodeTrace, List.filterMap_cons, List.filterMap_nil]
        by_cases hx : l.src = 0
        · rw [if_pos hx]; rfl
        · rw [if_neg hx]; rfl
    · exact ⟨[], (fun op hop => by cases hop), l, hl, rfl, Keeps.refl s,
        by simpa [Machine.runFrom] using hcur, hp.1 hpend, rfl⟩

/-- The last stream of the last link arrives. -/
theorem deliver (h : machine.Reach tr s) {i : Nat} {l : Link} (hl : s.links[i]? = some l)
    (hw : Way s (i + 1)) (hcur : Current tr s l.src)
    (hpend : (step s (.serve i .next)).1 = .serve l.src l.consumer .pending)
    (h62 : ∀ g ∈ accepted (nodeTrace 0 tr), g.seq < 2 ^ 62) :
    ∃ ops, Working ops ∧ Keeps s (machine.runFrom s ops).2 ∧
      Current (tr ++ (machine.runFrom s ops).1) (machine.runFrom s ops).2 (i + 1) ∧
      accepted (nodeTrace 0 (machine.runFrom s ops).1) = [] := by
  have hI := inv_reach h
  have hA := aux_reach h
  have hL := hI.links i l hl
  obtain ⟨how, hmade⟩ := hL.made
  have hw' := hw
  cases hw with
  | @hop _ l1 u hws hl1 hr hph hu hc hsend =>
    rw [hl] at hl1
    injection hl1 with hl1
    subst hl1
    obtain ⟨t, ht, htc, hts⟩ := hws.node
    have hT := Model.Track.inv_reach (hI.nodes _ t ht)
    have hU := Model.Track.inv_reach (hI.nodes _ u hu)
    have hct : closing (nodeTrace l.src tr) = none := by rw [hT.agrees.closed]; exact htc
    have hcu : closing (nodeTrace (i + 1) tr) = none := by rw [hU.agrees.closed]; exact hc
    -- nothing to do
    have quiet : (∀ g, (begun (i + 1) tr).getLast? = some g → g ∈ arrived (i + 1) tr) →
        ∃ ops, Working ops ∧ Keeps s (machine.runFrom s ops).2 ∧
        Current (tr ++ (machine.runFrom s ops).1) (machine.runFrom s ops).2 (i + 1) ∧
        accepted (nodeTrace 0 (machine.runFrom s ops).1) = [] := by
      intro hx
      refine ⟨[], (fun op hop => by cases hop), Keeps.refl s, ?_, rfl⟩
      have := Current.hop hcur hmade hct hpend hx hcu
      simpa [Machine.runFrom] using this
    cases hb : (begun (i + 1) tr).getLast? with
    | none => exact quiet (fun g hg => by rw [hb] at hg; cases hg)
    | some g =>
      have hgb := List.mem_of_getLast? hb
      have hg62 := h62 g ((c89_copies h l.src).mem (hL.taken g hgb))
      rw [← hL.streams] at hgb
      obtain ⟨⟨g', b⟩, hmem, rfl⟩ := List.mem_map.1 hgb
      obtain ⟨k, hk⟩ := List.mem_iff_getElem?.1 hmem
      dsimp only at hb hg62
      cases b with
      | true =>
        refine quiet (fun y hy => ?_)
        rw [hb] at hy
        injection hy with hy
        subst hy
        rcases hA.marks i l k _ hl hk with hx | hx
        · exact hx
        · rw [hph] at hx; cases hx
      | false =>
        have hgone : l.phase ≠ .gone := by rw [hph]; decide
        have hst : step s (.arrive i k) = (.offered g' (Track.step u (.insert 1 g')).1,
            { nodes := s.nodes.set (i + 1) (Track.step u (.insert 1 g')).2
              links := s.links.set i { l with streams := l.streams.set k (g', true) } }) := by
          simp only [step, hl, hk, hu]
          rw [if_neg (by omega), if_neg hgone]
        have hrun : machine.runFrom s [.arrive i k] =
            ([(.arrive i k, (step s (.arrive i k)).1)], (step s (.arrive i k)).2) := rfl
        obtain ⟨u', p1, _, p3⟩ := hI.prods i l hl
        rw [hu] at p1
        injection p1 with p1
        subst p1
        have hlt := (List.getElem?_eq_some_iff.1 hl).1
        have hsrc := hL.src
        have hu2 : (Track.step u (.insert 1 g')).2.closed = u.closed ∧
            (Track.step u (.insert 1 g')).2.senders = u.senders := by
          simp only [Model.Track.step, p3 hgone]
          rw [if_neg (by omega)]
          rcases Model.Track.insertGroup_cases u g' with ⟨_, e⟩ | ⟨_, _, e⟩ | ⟨_, _, e⟩ <;> rw [e] <;>
            exact ⟨rfl, rfl⟩
        have hcl : ∀ j, closing (nodeTrace j [(Op.arrive i k,
            Out.offered g' (Track.step u (.insert 1 g')).1)]) = none := by
          intro j
          simp only [nodeTrace, List.filterMap_cons, List.filterMap_nil]
          by_cases hx : i + 1 = j
          · rw [if_pos hx]; rfl
          · rw [if_neg hx]; rfl
        refine ⟨[.arrive i k], fun op hop => .inr ⟨i, k, List.mem_singleton.1 hop⟩, ?_⟩
        rw [hrun, hst]
        dsimp only
        refine ⟨?_, ?_, ?_⟩
        · exact Keeps.set hu hu2.1 hu2.2 hl rfl rfl rfl rfl
        · refine Current.hop (m := l.src) (c := l.consumer) (how := how) ?_
            (List.mem_append_left _ hmade) ?_ ?_ ?_ ?_
          · refine current_event hI hcur ?_ ?_ (fun j _ => hcl j) ?_
            · intro j hj
              exact List.getElem?_set_ne (by omega)
            · intro j hj
              exact List.getElem?_set_ne (by omega)
            · intro j hj
              refine ⟨rfl, ?_⟩
              simp only [arrived, List.filterMap_cons, List.filterMap_nil]
              rw [if_neg (by omega)]
          · rw [nodeTrace_snoc, closing_append, hcl, hct]; rfl
          · have ht' : (s.nodes.set (i + 1) (Track.step u (.insert 1 g')).2)[l.src]? = some t := by
              rw [List.getElem?_set_ne (by omega)]; exact ht
            have hl' : (s.links.set i { l with streams := l.streams.set k (g', true) })[i]? =
                some { l with streams := l.streams.set k (g', true) } := List.getElem?_set_self hlt
            simp only [step, hl, ht] at hpend
            simp only [step, hl', ht']
            exact hpend
          · intro y hy
            rw [begun_snoc] at hy
            have hbn : begun (i + 1) [(Op.arrive i k,
              Out.offered g' (Track.step u (.insert 1 g')).1)] = [] := rfl
            rw [hbn, List.append_nil, hb] at hy
            injection hy with hy
            subst hy
            rw [arrived_snoc]
            exact List.mem_append_right _ (by simp [arrived])
          · rw [nodeTrace_snoc, closing_append, hcl, hcu]; rfl
        · simp [nodeTrace, accepted]

theorem working_append {a b : List Op} (ha : Working a) (hb : Working b) : Working (a ++ b) := by
  intro op hop
  rcases List.mem_append.1 hop with h | h
  · exact ha op h
  · exact hb op h

theorem runFrom_append (a b : List Op) (s : State) :
    machine.runFrom s (a ++ b) = ((machine.runFrom s a).1 ++
      (machine.runFrom (machine.runFrom s a).2 b).1, (machine.runFrom (machine.runFrom s a).2 b).2) := by
  induction a generalizing s with
  | nil => rfl
  | cons op a ih => simp only [List.cons_append, Machine.runFrom, ih]

theorem way_current (h : machine.Reach tr s) (h62 : ∀ g ∈ accepted (nodeTrace 0 tr), g.seq < 2 ^ 62)
    {n : Nat} (hw : Way s n) :
    ∃ ops, Working ops ∧ Keeps s (machine.runFrom s ops).2 ∧
      Current (tr ++ (machine.runFrom s ops).1) (machine.runFrom s ops).2 n ∧
      accepted (nodeTrace 0 (machine.runFrom s ops).1) = [] := by
  have nodeTrace_append : ∀ a b : Trace, nodeTrace 0 (a ++ b) = nodeTrace 0 a ++ nodeTrace 0 b :=
    fun a b => by simp [nodeTrace]
  induction hw with
  | origin _ _ _ => exact ⟨[], (fun op hop => by cases hop), Keeps.refl s, .origin, rfl⟩
  | @hop i l t hws hl hr hph ht hc hsend ih =>
    obtain ⟨ops1, w1, k1, c1, a1⟩ := ih
    have h1 := machine.reach_runFrom h ops1
    have hw1 := Way.keep k1 (Way.hop hws hl hr hph ht hc hsend)
    obtain ⟨l1, hl1, hs1, _, _, _⟩ := k1.links i l hl
    obtain ⟨ops2, w2, l2, hl2, hs2, k2, c2, p2, a2⟩ := settle h1 hl1 hw1 (by rw [hs1]; exact c1)
    have h2 := machine.reach_runFrom h1 ops2
    have hx : accepted (nodeTrace 0 (tr ++ (machine.runFrom s ops1).1 ++
        (machine.runFrom (machine.runFrom s ops1).2 ops2).1)) = accepted (nodeTrace 0 tr) := by
      rw [nodeTrace_append, nodeTrace_append, accepted_append, accepted_append, a1, a2,
        List.append_nil, List.append_nil]
    obtain ⟨ops3, w3, k3, c3, a3⟩ := deliver h2 hl2 (Way.keep k2 hw1) (by rw [hs2]; exact c2)
      (by rw [hs2]; exact p2) (by rw [hx]; exact h62)
    refine ⟨ops1 ++ (ops2 ++ ops3), working_append w1 (working_append w2 w3), ?_, ?_, ?_⟩
    · rw [runFrom_append, runFrom_append]
      exact (k1.trans k2).trans k3
    · rw [runFrom_append, runFrom_append]
      simpa [List.append_assoc] using c3
    · rw [runFrom_append, runFrom_append, nodeTrace_append, nodeTrace_append, accepted_append,
        accepted_append, a1, a2, a3]
      rfl

/-- C89: a reader can always catch up.  If the way from the origin is open, the loops and the network
can bring the newest group to the copy, whatever has happened before, and without anything from
anybody else. -/
theorem c89_catch_up (h : machine.Reach tr s) {n : Nat} (ho : Open tr s n)
    (h62 : ∀ g ∈ accepted (nodeTrace 0 tr), g.seq < 2 ^ 62) :
    ∃ ops, Working ops ∧ Current (tr ++ (machine.runFrom s ops).1) (machine.runFrom s ops).2 n ∧
      (accepted (nodeTrace n (tr ++ (machine.runFrom s ops).1))).getLast? =
        (accepted (nodeTrace 0 tr)).getLast? := by
  obtain ⟨ops, h1, _, h2, h3⟩ := way_current h h62 (open_way h ho)
  refine ⟨ops, h1, h2, ?_⟩
  rw [c89_newest (machine.reach_runFrom h ops) h2]
  have : nodeTrace 0 (tr ++ (machine.runFrom s ops).1) =
    nodeTrace 0 tr ++ nodeTrace 0 (machine.runFrom s ops).1 := by simp [nodeTrace]
  rw [this, accepted_append, h3, List.append_nil]

/-- C89: no stream gets in the way of another: every group the loop has begun to serve can still
arrive, in any order, until the subscription is over. -/
theorem c89_in_flight (h : machine.Reach tr s) {i : Nat} {g : Track.Grp} (hg : g ∈ begun (i + 1) tr)
    (h62 : g.seq < 2 ^ 62) (ho : closing (nodeTrace (i + 1) tr) = none) :
    g ∈ arrived (i + 1) tr ∨ ∃ k o, (step s (.arrive i k)).1 = .offered g o := by
  have hI := inv_reach h
  have hA := aux_reach h
  cases hl : s.links[i]? with
  | none =>
    have hlen := List.getElem?_eq_none_iff.1 hl
    rw [(hI.beyond (i + 1) (by rw [hI.len]; omega)).2.1] at hg
    cases hg
  | some l =>
    have hph : l.phase = .active := by
      rcases hA.ended i l hl with ⟨hx, _⟩ | ⟨_, r, _, _, hx⟩
      · exact hx
      · rw [ho] at hx; cases hx
    obtain ⟨u, hu, _, _⟩ := hI.prods i l hl
    rw [← (hI.links i l hl).streams] at hg
    obtain ⟨⟨g', b⟩, hmem, rfl⟩ := List.mem_map.1 hg
    obtain ⟨k, hk⟩ := List.mem_iff_getElem?.1 hmem
    dsimp only at h62 ⊢
    cases b with
    | true =>
      rcases hA.marks i l k _ hl hk with hx | hx
      · exact .inl hx
      · rw [hph] at hx; cases hx
    | false =>
      refine .inr ⟨k, (Track.step u (.insert 1 g')).1, ?_⟩
      simp only [step, hl, hk, hu]
      rw [if_neg (by omega), if_neg (by rw [hph]; decide)]

/-! ## The end of a copy -/

/-- C89: a copy ends when its subscription does, and with its result: a reader that asks is told of
a clean end exactly if the subscription has ended cleanly, and of an error exactly if the
subscription has failed with it (errors of the transport are shown as cancelled). -/
theorem c89_end (h : machine.Reach tr s) {i d : Nat} (hd : ConsumerAlive (nodeTrace (i + 1) tr) d)
    (hown : ∀ how j, (Op.subscribe (i + 1) how, Out.link j d) ∉ tr) :
    ((step s (.user (i + 1) (.next d))).1 = .track .ended ↔ (Op.close i (.ok ()), Out.ok) ∈ tr) ∧
    ∀ e, (step s (.user (i + 1) (.next d))).1 = .track (.err e) ↔
      ∃ e', (Op.close i (.error e'), Out.ok) ∈ tr ∧
        e = (match e' with | .webTransport _ => .cancel | e' => e') := by
  have hI := inv_reach h
  have hA := aux_reach h
  cases ht : s.nodes[i + 1]? with
  | none =>
    rw [(hI.beyond _ (List.getElem?_eq_none_iff.1 ht)).1] at hd
    rcases hd.1 with ⟨p, hp⟩ | ⟨p, hp⟩ <;> cases hp
  | some t =>
    have hlt := (List.getElem?_eq_some_iff.1 ht).1
    rw [hI.len] at hlt
    have hl : s.links[i]? = some s.links[i] := List.getElem?_eq_getElem (by omega)
    have hT := Model.Track.inv_reach (hI.nodes _ t ht)
    have hst : (step s (.user (i + 1) (.next d))).1 = .track (Track.step t (.next d)).1 := by
      simp [step, ht, free_reader hI hown, Subs.byConsumer]
    rw [hst, Props.Track.next_answer (hI.nodes _ t ht) hd]
    unfold Model.Track.Spec.nextAnswer
    rcases hA.ended i _ hl with ⟨hph, hc, hno⟩ | ⟨_, r, hr, huniq, hc⟩
    · have hna : ¬ Model.Track.Spec.Abandoned (nodeTrace (i + 1) tr) := by
        intro hab
        obtain ⟨u', p1, p2, _⟩ := hI.prods i _ hl
        rw [ht] at p1
        injection p1 with p1
        subst p1
        exact ((hT.agrees.producers.live 0).1 (by rw [p2 hph]; rfl)).2 (hab.1 0 (.inl rfl))
      rw [hc]
      simp only [if_neg hna]
      refine ⟨⟨fun hx => ?_, fun hx => absurd hx (hno _)⟩,
        fun e => ⟨fun hx => ?_, fun ⟨e', hx, _⟩ => absurd hx (hno _)⟩⟩
      all_goals (revert hx; repeat' split) <;> intro hx <;> cases hx
    · rw [hc]
      cases r with
      | ok _ =>
        dsimp only [result]
        refine ⟨⟨fun _ => hr, fun _ => rfl⟩, fun e => ⟨(fun hx => by cases hx), ?_⟩⟩
        rintro ⟨e', hx, _⟩
        cases huniq _ hx
      | error e' =>
        dsimp only [result]
        refine ⟨⟨(fun hx => by cases hx), (fun hx => by cases huniq _ hx)⟩,
          fun e => ⟨fun hx => ?_, ?_⟩⟩
        · injection hx with hx
          injection hx with hx
          exact ⟨e', hr, by rw [← hx]; rfl⟩
        · rintro ⟨e'', hx, rfl⟩
          cases huniq _ hx
          rfl

/-! ## Examples -/

/-- Two hops; the streams arrive at the last node in the wrong order. -/
def exampleOps : List Op :=
  [.subscribe 0 (.consume 0), .subscribe 1 (.consume 0), .user 2 (.consume 0),
    .user 0 (.insert 0 ⟨5, 50⟩), .serve 0 .next, .arrive 0 0, .serve 1 .next,
    .user 0 (.insert 0 ⟨9, 90⟩), .serve 0 .next, .arrive 0 1, .serve 1 .next, .arrive 1 1,
    .arrive 1 0]

/-- The hypotheses of the theorems are met. -/
example : ∃ tr s, machine.Reach tr s ∧ Child tr 0 1 ∧ Child tr 1 2 ∧ Current tr s 2 ∧
    closing (nodeTrace 2 tr) = none ∧ ConsumerAlive (nodeTrace 2 tr) 0 ∧
    (∀ how i, (Op.subscribe 2 how, Out.link i 0) ∉ tr) ∧
    accepted (nodeTrace 0 tr) = [⟨5, 50⟩, ⟨9, 90⟩] ∧ accepted (nodeTrace 1 tr) = [⟨5, 50⟩, ⟨9, 90⟩] ∧
    accepted (nodeTrace 2 tr) = [⟨9, 90⟩] ∧ received (nodeTrace 2 tr) 0 = [] ∧
    (step s (.user 2 (.next 0))).1 = .track (.group ⟨9, 90⟩) := by
  refine ⟨_, _, machine.reach_run exampleOps, ⟨.consume 0, 0, 0, ?_, rfl⟩,
    ⟨.consume 0, 1, 0, ?_, rfl⟩, ?_, rfl, ?_, ?_, rfl, rfl, rfl, rfl, rfl⟩
  · exact List.mem_of_getElem? (i := 0) rfl
  · exact List.mem_of_getElem? (i := 1) rfl
  · refine .hop (c := 0) (how := .consume 0) (.hop (c := 0) (how := .consume 0) .origin
      (List.mem_of_getElem? (i := 0) rfl) rfl rfl ?_ rfl)
      (List.mem_of_getElem? (i := 1) rfl) rfl rfl ?_ rfl
    · intro g hg
      cases hg
      exact List.mem_of_getElem? (i := 1) rfl
    · intro g hg
      cases hg
      exact List.mem_of_getElem? (i := 0) rfl
  · refine ⟨.inl ⟨0, List.mem_of_getElem? (i := 1) rfl⟩, ?_⟩
    intro hx
    have e : nodeTrace 2 (machine.run exampleOps).1 = [(.cloneProducer 0, .handle 1),
      (.consume 0, .handle 0), (.insert 1 ⟨9, 90⟩, .inserted true),
      (.insert 1 ⟨5, 50⟩, .inserted false)] := rfl
    rw [e] at hx
    simp at hx
  · intro how i hx
    have : ((machine.run exampleOps).1.all fun
      | (.subscribe n _, _) => n != 2
      | _ => true) = true := by decide +kernel
    have := List.all_eq_true.1 this _ hx
    simp at this

/-- The hypotheses of `c89_catch_up` are met while the copies are behind. -/
example : ∃ tr s, machine.Reach tr s ∧ Open tr s 2 ∧ accepted (nodeTrace 0 tr) = [⟨5, 50⟩, ⟨9, 90⟩] ∧
    accepted (nodeTrace 1 tr) = [⟨5, 50⟩] ∧ accepted (nodeTrace 2 tr) = [] := by
  refine ⟨_, _, machine.reach_run (exampleOps.take 8), ?_, rfl, rfl, rfl⟩
  refine .hop (c := 0) (how := .consume 0) (.hop (c := 0) (how := .consume 0) (.origin rfl ?_)
    (List.mem_of_getElem? (i := 0) rfl) (by decide +kernel) rfl)
    (List.mem_of_getElem? (i := 1) rfl) (by decide +kernel) rfl
  intro hx
  have := hx.1 0 (.inl rfl)
  have e : nodeTrace 0 (machine.run (exampleOps.take 8)).1 = [(.consume 0, .handle 0),
    (.insert 0 ⟨5, 50⟩, .inserted true), (.next 0, .group ⟨5, 50⟩),
    (.insert 0 ⟨9, 90⟩, .inserted true)] := rfl
  rw [e] at this
  simp [Model.Track.Spec.ProducerGone] at this

/-- The reader of a copy is told of the end and of errors. -/
example : ∃ tr s, machine.Reach tr s ∧ ConsumerAlive (nodeTrace 1 tr) 0 ∧
    (∀ how j, (Op.subscribe 1 how, Out.link j 0) ∉ tr) ∧
    (Op.close 0 (.error .old), Out.ok) ∈ tr ∧
    (step s (.user 1 (.next 0))).1 = .track (.err .old) := by
  refine ⟨_, _, machine.reach_run [.subscribe 0 (.consume 0), .user 1 (.consume 0),
    .close 0 (.error .old)], ?_, ?_, List.mem_of_getElem? (i := 2) rfl, rfl⟩
  · refine ⟨.inl ⟨0, List.mem_of_getElem? (i := 1) rfl⟩, ?_⟩
    intro hx
    have e : nodeTrace 1 (machine.run [.subscribe 0 (.consume 0), .user 1 (.consume 0),
      .close 0 (.error .old)]).1 = [(.cloneProducer 0, .handle 1), (.consume 0, .handle 0),
      (.abort 0 .old, .ok)] := rfl
    rw [e] at hx
    simp at hx
  · intro how i hx
    have : ((machine.run [.subscribe 0 (.consume 0), .user 1 (.consume 0),
      .close 0 (.error .old)]).1.all fun
      | (.subscribe n _, _) => n != 1
      | _ => true) = true := by decide +kernel
    have := List.all_eq_true.1 this _ hx
    simp at this

/-! ## The end -/

/-- The publisher at the origin publishes a group and finishes the track.  The loop of the
subscription has sent the whole group and returns.  The end of the subscription overtakes the
header of the group, which is on another stream. -/
def lostOps : List Op :=
  [.subscribe 0 (.consume 0), .user 1 (.consume 0), .user 0 (.insert 0 ⟨0, 7⟩), .serve 0 .next,
    .serve 0 .newDone, .user 0 (.finish 0), .serve 0 .next, .close 0 (.ok ()), .remove 0,
    .arrive 0 0]

/-- C89, violated at the end of a track: everything was published, sent and ended cleanly, and the
reader of the copy is told of the clean end without ever being given the last group, nor has the
copy got it. -/
theorem c89_end_lost :
    ∃ tr s, machine.Reach tr s ∧ accepted (nodeTrace 0 tr) = [⟨0, 7⟩] ∧
      closing (nodeTrace 0 tr) = some (.ok ()) ∧
      (Op.serve 0 .newDone, Out.serve 0 0 (.done ⟨0, 7⟩ [])) ∈ tr ∧
      (Op.serve 0 .next, Out.serve 0 0 .finished) ∈ tr ∧
      closing (nodeTrace 1 tr) = some (.ok ()) ∧ accepted (nodeTrace 1 tr) = [] ∧
      (step s (.user 1 (.next 0))).1 = .track .ended :=
  ⟨_, _, machine.reach_run lostOps, rfl, rfl, List.mem_of_getElem? (i := 4) rfl,
    List.mem_of_getElem? (i := 6) rfl, rfl, rfl, rfl⟩

/-- C89, violated: the header may also arrive between the two steps in which the subscriber ends the
track, and then the subscriber panics (compare C49). -/
theorem c89_end_panics :
    ∃ tr s, machine.Reach tr s ∧ closing (nodeTrace 0 tr) = some (.ok ()) ∧
      (Op.serve 0 .next, Out.serve 0 0 .finished) ∈ tr ∧
      (step s (.arrive 0 0)).1 = .offered ⟨0, 7⟩ .panic :=
  ⟨_, _, machine.reach_run (lostOps.take 8), rfl, List.mem_of_getElem? (i := 6) rfl, rfl⟩

/-! ## The content of a group -/

/-- A history of a group. -/
abbrev GTrace := Model.Group.Spec.Trace

section Content

open Verif.Session.Transfer Verif.Session.Transfer.Spec

/-- `Hop tr q tr' q'`: a session serves the group with number `q` and history `tr` (whatever it has
at the moment), over a network that may cut the stream at any point, and the group with number `q'`
and history `tr'` is what the other side makes of it. -/
def Hop (tr : GTrace) (q : Nat) (tr' : GTrace) (q' : Nat) : Prop :=
  ∃ c subscribe s x stream r₀ d s' y, Serve c subscribe q tr s x ∧ Delivers x stream ∧
    Accepts stream ⟨subscribe, q'⟩ r₀ ∧ Recv r₀ d tr' s' y

/-- `Carried tr₀ q₀ tr q`: the group is a copy of the group with number `q₀` and history `tr₀`, made
by any number of sessions. -/
inductive Carried (tr₀ : GTrace) (q₀ : Nat) : GTrace → Nat → Prop
  | one {tr q} : Hop tr₀ q₀ tr q → Carried tr₀ q₀ tr q
  | more {tr q tr' q'} : Carried tr₀ q₀ tr q → Hop tr q tr' q' → Carried tr₀ q₀ tr' q'

theorem run_ops (s : Model.Group.State) (ops : List Group.Op) :
    ∀ e ∈ (Model.Group.machine.runFrom s ops).1, e.1 ∈ ops := by
  induction ops generalizing s with
  | nil => intro e he; cases he
  | cons op ops ih =>
    intro e he
    rcases List.mem_cons.1 he with rfl | he
    · simp
    · exact List.mem_cons_of_mem _ (ih _ e he)

/-- The receiver does not clone the producers of frames (in the model: see `Receiving.step`). -/
theorem recv_noClones {r₀ : Reader} {d : Bool} {tr : GTrace} {s : Model.Group.State} {x : Receiving}
    (h : Recv r₀ d tr s x) : NoClones tr := by
  induction h with
  | start => intro f p id hx; simp at hx
  | user op hop _ ih =>
    intro f p id hx
    rcases List.mem_append.1 hx with hx | hx
    · exact ih f p id hx
    · have := List.mem_singleton.1 hx
      injection this with this _
      rw [← this] at hop
      exact hop
  | @recv d tr s x _ ih =>
    intro f p id hx
    rcases List.mem_append.1 hx with hx | hx
    · exact ih f p id hx
    · have := run_ops _ _ _ hx
      revert this
      unfold Receiving.step
      repeat' split
      all_goals simp
  | @cancel d tr s x _ ih =>
    intro f p id hx
    rcases List.mem_append.1 hx with hx | hx
    · exact ih f p id hx
    · have := run_ops _ _ _ hx
      revert this
      unfold Receiving.cancel
      repeat' split
      all_goals simp

/-- The receiver finishes the group at the end, and then it does nothing more. -/
theorem recv_finish {r₀ : Reader} {d : Bool} {tr : GTrace} {s : Model.Group.State} {x : Receiving}
    (h : Recv r₀ d tr s x) {p : Nat} (hp : (Group.Op.finish p, Group.Out.ok) ∈ tr) :
    x.phase = .done ∧ Model.Group.Spec.closing tr = some (.ok ()) := by
  induction h with
  | start => simp at hp
  | @user d tr s x op hop _ ih =>
    rcases List.mem_append.1 hp with hp | hp
    · refine ⟨(ih hp).1, ?_⟩
      have : Model.Group.Spec.closing [(op, (Model.Group.step s op).1)] = none := by
        cases op <;> first | rfl | exact absurd hop (by simp [ByConsumer])
      rw [Model.Group.closing_snoc, this]
      exact (ih hp).2
    · have := List.mem_singleton.1 hp
      injection this with this _
      rw [← this] at hop
      exact absurd hop (by simp [ByConsumer])
  | @recv d tr s x _ ih =>
    rcases List.mem_append.1 hp with hp | hp
    · obtain ⟨h1, h2⟩ := ih hp
      have : x.step = ([], x) := by unfold Receiving.step; rw [h1]
      rw [this]
      exact ⟨h1, by simpa [Machine.runFrom] using h2⟩
    · have hm := run_ops _ _ _ hp
      dsimp only at hm
      have : x.step.1 = [.finish 0] ∧ x.step.2.phase = .done := by
        revert hm
        unfold Receiving.step
        repeat' split
        all_goals simp
      refine ⟨this.2, ?_⟩
      rw [this.1] at hp ⊢
      simp only [Machine.runFrom, List.mem_singleton, Prod.mk.injEq] at hp ⊢
      rw [Model.Group.closing_snoc, ← hp.2]
      rfl
  | @cancel d tr s x _ ih =>
    rcases List.mem_append.1 hp with hp | hp
    · obtain ⟨h1, h2⟩ := ih hp
      have : x.cancel = ([], x) := by unfold Receiving.cancel; rw [h1]
      rw [this]
      exact ⟨h1, by simpa [Machine.runFrom] using h2⟩
    · have hm := run_ops _ _ _ hp
      dsimp only at hm
      exfalso
      revert hm
      unfold Receiving.cancel
      repeat' split
      all_goals simp

/-- No frame has more bytes than it declares. -/
theorem contents_le {tr : GTrace} {s : Model.Group.State} (h : Model.Group.machine.Reach tr s)
    (hn : NoClones tr) {k size : Nat} {b : Bytes} (hk : (contents tr)[k]? = some (size, b)) :
    b.length ≤ size := by
  rw [contents_reach h, List.getElem?_map, Option.map_eq_some_iff] at hk
  obtain ⟨f, hf, hfa⟩ := hk
  have hI := Model.Group.inv_reach h
  have hlt := hI.serves.exist f (List.mem_of_getElem? hf)
  have hg : s.frames[f]? = some (s.frames[f].1, s.frames[f].2) := List.getElem?_eq_getElem hlt
  unfold frameAt at hfa
  rw [hg] at hfa
  have hb := (exact_frames h hn f _ _ hg).bound
  cases hfa
  exact hb

theorem carried_facts {tr₀ tr : GTrace} {q₀ q : Nat} (hn : NoClones tr₀) (h : Carried tr₀ q₀ tr q) :
    NoClones tr ∧ (∃ s, Model.Group.machine.Reach tr₀ s) ∧
      ((∃ p, (Group.Op.finish p, Group.Out.ok) ∈ tr) →
        Model.Group.Spec.closing tr = some (.ok ())) := by
  induction h with
  | one h =>
    obtain ⟨c, subscribe, s, x, stream, r₀, d, s', y, hs, hd, ha, hr⟩ := h
    exact ⟨recv_noClones hr, ⟨s, hs.reach⟩, fun ⟨p, hp⟩ => (recv_finish hr hp).2⟩
  | more _ h ih =>
    obtain ⟨c, subscribe, s, x, stream, r₀, d, s', y, hs, hd, ha, hr⟩ := h
    exact ⟨recv_noClones hr, ih.2.1, fun ⟨p, hp⟩ => (recv_finish hr hp).2⟩

/-- C89: after any number of sessions the copy of a group has the number of the original; its frames
are those of the original in order, with the declared sizes and prefixes of the bytes; a frame
finished in the copy has exactly the bytes of the original; and a copy that was finished is
complete, and its original was finished. -/
theorem c89_content {tr₀ tr : GTrace} {q₀ q : Nat} (hn : NoClones tr₀) (h : Carried tr₀ q₀ tr q) :
    q = q₀ ∧
    (∀ (k size : Nat) (b : Bytes), (contents tr)[k]? = some (size, b) →
      ∃ b', (contents tr₀)[k]? = some (size, b') ∧ b <+: b' ∧
        (Finished tr k → b = b' ∧ b.length = size)) ∧
    (Model.Group.Spec.closing tr = some (.ok ()) → contents tr = contents tr₀ ∧
      (∀ k, k < (contents tr).length → Finished tr k) ∧
      ∃ p, (Group.Op.finish p, Group.Out.ok) ∈ tr₀) := by
  induction h with
  | one h =>
    obtain ⟨c, subscribe, s, x, stream, r₀, d, s', y, hs, hd, ha, hr⟩ := h
    obtain ⟨h1, h2, h3⟩ := Props.Transfer.c46_prefix hs hn hd ha hr
    injection h1 with _ h1
    exact ⟨h1, h2, fun hc => (h3 hc).2⟩
  | more hcar h ih =>
    obtain ⟨c, subscribe, s, x, stream, r₀, d, s', y, hs, hd, ha, hr⟩ := h
    obtain ⟨f1, ⟨s₀, f2⟩, f3⟩ := carried_facts hn hcar
    obtain ⟨h1, h2, h3⟩ := Props.Transfer.c46_prefix hs f1 hd ha hr
    injection h1 with _ h1
    obtain ⟨i1, i2, i3⟩ := ih
    refine ⟨h1.trans i1, ?_, ?_⟩
    · intro k size b hk
      obtain ⟨b', hb', hp, hf⟩ := h2 k size b hk
      obtain ⟨b'', hb'', hp', _⟩ := i2 k size b' hb'
      refine ⟨b'', hb'', hp.trans hp', fun hfin => ?_⟩
      obtain ⟨_, e2⟩ := hf hfin
      refine ⟨(hp.trans hp').eq_of_length ?_, e2⟩
      have := (hp.trans hp').length_le
      have := contents_le f2 hn hb''
      omega
    · intro hc
      obtain ⟨_, e2, e3, e4⟩ := h3 hc
      obtain ⟨j1, _, j3⟩ := i3 (f3 e4)
      exact ⟨e2.trans j1, e3, j3⟩

/-- What the first session below does with the group. -/
def relayOps : List Group.Op :=
  [.consume 0, .newFrame 3, .appendFrame 0 0, .frame 0 (.write 0 [1]), .frame 0 (.write 0 [2, 3]),
    .frame 0 (.finish 0), .finish 0]

/-- Over two sessions, the second with another subscription.  The hypotheses of `c89_content` are
met, and the copy is finished. -/
theorem example_carried : ∃ tr₀ tr, NoClones tr₀ ∧ Carried tr₀ 9 tr 9 ∧
    contents tr = [(3, [1, 2, 3])] ∧ Model.Group.Spec.closing tr = some (.ok ()) := by
  obtain ⟨tr₀, s, x, h0, hn, hfin, _, hsent⟩ := Props.Transfer.example_serve
  have d0 : Delivers x ⟨[[0, 7], [9, 3, 1], [2, 3]], .fin⟩ :=
    ⟨by rw [hsent]; exact ⟨[], rfl⟩, by simp, fun _ => ⟨hfin, by rw [hsent]; rfl⟩⟩
  have a0 : Accepts ⟨[[0, 7], [9, 3, 1], [2, 3]], .fin⟩ ⟨7, 9⟩ ⟨⟨[[2, 3]], .fin⟩, [3, 1]⟩ :=
    ⟨_, rfl, rfl⟩
  have r0 := Recv.user (.nextFrame 0) trivial (.user (.frame 0 (.read 0)) trivial
    (.user (.frame 0 (.read 0)) trivial (.user (.frame 0 (.read 0)) trivial
    (.user (.nextFrame 0) trivial (.recv (.recv (.recv (.recv (.recv
      (Recv.start (r₀ := ⟨⟨[[2, 3]], .fin⟩, [3, 1]⟩)))))))))))
  have s0 : Serve 0 5 9 (Model.Group.machine.run relayOps).1 (Model.Group.machine.run relayOps).2
      ⟨.frames, [0, 5, 9], .idle⟩ :=
    .start (Model.Group.machine.reach_run _) (by
      refine ⟨.inl ⟨0, ?_⟩, ?_⟩
      · exact List.mem_of_getElem? (i := 0) rfl
      · intro hx
        have : (((Model.Group.machine.run relayOps).1.all fun
          | (.dropConsumer _, _) => false
          | _ => true) = true) := by decide +kernel
        have := List.all_eq_true.1 this _ hx
        simp at this) rfl rfl
  have s1 := Serve.next rfl (Serve.read (f := 0) (id := 0) rfl (Serve.read (f := 0) (id := 0) rfl
    (Serve.read (f := 0) (id := 0) rfl (Serve.next rfl s0))))
  have d1 : Delivers ⟨.done, [0, 5, 9, 3, 1, 2, 3], .fin⟩ ⟨[[0, 5, 9, 3], [1, 2, 3]], .fin⟩ :=
    ⟨⟨[], rfl⟩, by simp, fun _ => ⟨rfl, rfl⟩⟩
  have a1 : Accepts ⟨[[0, 5, 9, 3], [1, 2, 3]], .fin⟩ ⟨5, 9⟩ ⟨⟨[[1, 2, 3]], .fin⟩, [3]⟩ :=
    ⟨_, rfl, rfl⟩
  have r1 := Recv.recv (.recv (.recv (.recv (Recv.start (r₀ := ⟨⟨[[1, 2, 3]], .fin⟩, [3]⟩)))))
  exact ⟨tr₀, _, hn, .more (.one ⟨_, _, _, _, _, _, _, _, _, h0, d0, a0, r0⟩)
    ⟨_, _, _, _, _, _, _, _, _, s1, d1, a1, r1⟩, rfl, rfl⟩

end Content

end Verif.Props.Tree
