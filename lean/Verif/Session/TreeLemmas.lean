import Verif.Session.TreeSpec
import Verif.Session.ServeLoopLemmas

/-!
# Invariants of distributed tracks
-/

set_option autoImplicit false

namespace Verif.Session.Tree

open Verif Verif.Session Verif.Session.Tree.Spec
open Verif.Session.ServeLoop (foreign)
open Verif.Model (Track.Op Track.Out Track.State Track.Grp Track.init Track.step)
open Verif.Model.Track (Increasing)
open Verif.Model.Track.Spec (accepted closing received ConsumerAlive)

theorem nodeTrace_snoc (n : Nat) (tr : Trace) (e : Op × Out) :
    nodeTrace n (tr ++ [e]) = nodeTrace n tr ++ nodeTrace n [e] := by simp [nodeTrace]

theorem begun_snoc (n : Nat) (tr : Trace) (e : Op × Out) :
    begun n (tr ++ [e]) = begun n tr ++ begun n [e] := by simp [begun]

theorem arrived_snoc (n : Nat) (tr : Trace) (e : Op × Out) :
    arrived n (tr ++ [e]) = arrived n tr ++ arrived n [e] := by simp [arrived]

theorem accepted_append (a b : Model.Track.Spec.Trace) :
    accepted (a ++ b) = accepted a ++ accepted b := by simp [accepted]

theorem closing_append (a b : Model.Track.Spec.Trace) :
    closing (a ++ b) = (closing b).or (closing a) := by
  unfold closing
  rw [List.filterMap_append, List.getLast?_append]

/-- What the histories say about link `i`. -/
structure LinkOk (tr : Trace) (i : Nat) (l : Link) : Prop where
  src : l.src ≤ i
  made : ∃ how, (Op.subscribe l.src how, Out.link i l.consumer) ∈ tr
  streams : l.streams.map (·.1) = begun (i + 1) tr
  taken : ∀ g ∈ begun (i + 1) tr, g ∈ accepted (nodeTrace l.src tr)
  increasing : Increasing (begun (i + 1) tr)
  read : l.running = true → ConsumerAlive (nodeTrace l.src tr) l.consumer ∧
    received (nodeTrace l.src tr) l.consumer = begun (i + 1) tr
  arrived : ∀ g ∈ arrived (i + 1) tr, g ∈ begun (i + 1) tr
  accepted : ∀ g ∈ accepted (nodeTrace (i + 1) tr), g ∈ Spec.arrived (i + 1) tr
  offered : closing (nodeTrace (i + 1) tr) = none → ∀ g ∈ Spec.arrived (i + 1) tr,
    ∃ x ∈ Model.Track.Spec.accepted (nodeTrace (i + 1) tr), g.seq ≤ x.seq

/-- The producers of the subscriber are there. -/
def ProdOk (s : State) (i : Nat) (l : Link) : Prop :=
  ∃ t, s.nodes[i + 1]? = some t ∧ (l.phase = .active → t.producers.get 0 = some none) ∧
    (l.phase ≠ .gone → t.producers.get 1 = some none)

/-- The invariant. -/
structure Inv (tr : Trace) (s : State) : Prop where
  nodes : ∀ (n : Nat) t, s.nodes[n]? = some t → Model.Track.machine.Reach (nodeTrace n tr) t
  len : s.nodes.length = s.links.length + 1
  beyond : ∀ n, s.nodes.length ≤ n → nodeTrace n tr = [] ∧ begun n tr = [] ∧ arrived n tr = []
  links : ∀ (i : Nat) l, s.links[i]? = some l → LinkOk tr i l
  prods : ∀ (i : Nat) l, s.links[i]? = some l → ProdOk s i l
  distinct : ∀ (i j : Nat) l m, i ≠ j → s.links[i]? = some l → s.links[j]? = some m →
    l.running = true → m.running = true → l.src = m.src → l.consumer ≠ m.consumer
  subs : ∀ n how i c, (Op.subscribe n how, Out.link i c) ∈ tr →
    ∃ l, s.links[i]? = some l ∧ l.src = n ∧ l.consumer = c

/-- An event that does not concern the streams of link `i`. -/
theorem LinkOk.keep {tr : Trace} {i : Nat} {l : Link} (h : LinkOk tr i l) {e : Op × Out}
    (hb : begun (i + 1) [e] = []) (ha : Spec.arrived (i + 1) [e] = [])
    (hsrc : nodeTrace l.src [e] = [] ∨ ∃ t op, Model.Track.machine.Reach (nodeTrace l.src tr) t ∧
      nodeTrace l.src [e] = [(op, (Track.step t op).1)] ∧
      (l.running = true → foreign l.consumer op = true))
    (hdst : Model.Track.Spec.accepted (nodeTrace (i + 1) [e]) = []) : LinkOk (tr ++ [e]) i l := by
  have eb : begun (i + 1) (tr ++ [e]) = begun (i + 1) tr := by rw [begun_snoc, hb, List.append_nil]
  have ea : Spec.arrived (i + 1) (tr ++ [e]) = Spec.arrived (i + 1) tr := by
    rw [arrived_snoc, ha, List.append_nil]
  have ec : Model.Track.Spec.accepted (nodeTrace (i + 1) (tr ++ [e])) =
      Model.Track.Spec.accepted (nodeTrace (i + 1) tr) := by
    rw [nodeTrace_snoc, accepted_append, hdst, List.append_nil]
  refine ⟨h.src, ?_, by rw [eb]; exact h.streams, ?_, by rw [eb]; exact h.increasing, ?_,
    by rw [ea, eb]; exact h.arrived, by rw [ea, ec]; exact h.accepted, ?_⟩
  · obtain ⟨how, hm⟩ := h.made
    exact ⟨how, List.mem_append_left _ hm⟩
  · intro g hg
    rw [eb] at hg
    rw [nodeTrace_snoc, accepted_append]
    exact List.mem_append_left _ (h.taken g hg)
  · intro hr
    obtain ⟨h1, h2⟩ := h.read hr
    rw [eb, nodeTrace_snoc]
    rcases hsrc with hx | ⟨t, op, hx, hy, hz⟩
    · rw [hx, List.append_nil]; exact ⟨h1, h2⟩
    · rw [hy]
      exact ⟨ServeLoop.alive_foreign h1 (hz hr), (ServeLoop.received_foreign hx h1 (hz hr)).trans h2⟩
  · intro hc
    rw [ec, ea]
    rw [nodeTrace_snoc, closing_append] at hc
    exact h.offered (Option.or_eq_none_iff.1 hc).2

theorem LinkOk.change {tr : Trace} {i : Nat} {l l' : Link} (h : LinkOk tr i l)
    (h1 : l'.src = l.src) (h2 : l'.consumer = l.consumer)
    (h3 : l'.streams.map (·.1) = l.streams.map (·.1)) (h4 : l'.running = true → l.running = true) :
    LinkOk tr i l' := by
  obtain ⟨a, b, c, d, e, f, g, k, m⟩ := h
  exact ⟨by rw [h1]; exact a, by rw [h1, h2]; exact b, by rw [h3]; exact c, by rw [h1]; exact d, e,
    (fun hr => by rw [h1, h2]; exact f (h4 hr)), g, k, m⟩

theorem byConsumer_accepted {op : Track.Op} (h : Subs.byConsumer op = true) (o : Track.Out) :
    accepted [(op, o)] = [] := by
  cases op <;> first | rfl | (simp [Subs.byConsumer] at h; done) | (cases o <;> rfl)

theorem byConsumer_producers {op : Track.Op} (h : Subs.byConsumer op = true) (t : Track.State) :
    (Track.step t op).2.producers = t.producers := by
  cases op <;> simp only [Subs.byConsumer, Bool.false_eq_true] at h <;>
    simp only [Model.Track.step] <;> (repeat' split) <;> rfl

/-- What a step of the loop does. -/
theorem serve_cases (c : Nat) (t : Track.State) (old new : Option Track.Grp) (run : Bool)
    (op : ServeLoop.Op) (hop : ∀ o, op ≠ .track o) :
    (∃ g ds, op = .next ∧ run = true ∧ (Track.step t (.next c)).1 = .group g ∧
      (ServeLoop.step c ⟨t, old, new, run⟩ op).1 = .started g ds ∧
      (ServeLoop.step c ⟨t, old, new, run⟩ op).2.track = (Track.step t (.next c)).2 ∧
      (ServeLoop.step c ⟨t, old, new, run⟩ op).2.running = true) ∨
    ((ServeLoop.step c ⟨t, old, new, run⟩ op).2.track = t ∧
      (∀ g ds, (ServeLoop.step c ⟨t, old, new, run⟩ op).1 ≠ .started g ds) ∧
      ((ServeLoop.step c ⟨t, old, new, run⟩ op).2.running = true → run = true)) := by
  cases op with
  | track o => exact absurd rfl (hop o)
  | next =>
    cases run with
    | false => exact .inr ⟨rfl, fun _ _ hx => by simp [ServeLoop.step] at hx, fun hx => hx⟩
    | true =>
      have hn := ServeLoop.next_cases t c
      rcases hs : Track.step t (.next c) with ⟨o, t'⟩
      rw [hs] at hn
      cases o with
      | group g =>
        left
        cases new with
        | none => exact ⟨g, [], rfl, rfl, rfl, by simp [ServeLoop.step, hs], by simp [ServeLoop.step, hs],
            by simp [ServeLoop.step, hs]⟩
        | some n => exact ⟨g, old.toList, rfl, rfl, rfl, by simp [ServeLoop.step, hs],
            by simp [ServeLoop.step, hs], by simp [ServeLoop.step, hs]⟩
      | _ =>
        right
        have ht : t' = t := by
          rcases hn with ⟨g, t'', hx⟩ | ⟨hx, _⟩
          · cases hx
          · exact hx
        subst ht
        cases old <;> cases new <;> simp [ServeLoop.step, hs]
  | oldDone =>
    right
    cases run <;> cases old <;> simp [ServeLoop.step]
  | newDone =>
    right
    cases run <;> cases new <;> simp [ServeLoop.step]
  | cancel =>
    right
    cases run <;> simp [ServeLoop.step]

theorem set_same {α : Type} {l : List α} {n : Nat} {x : α} (h : l[n]? = some x) : l.set n x = l := by
  apply List.ext_getElem?
  intro m
  rw [List.getElem?_set]
  split
  · rename_i he
    subst he
    rw [if_pos (List.getElem?_eq_some_iff.1 h).1, h]
  · rfl

theorem Inv.nodes_set {tr : Trace} {s : State} (h : Inv tr s) {e : Op × Out} {n : Nat}
    {t : Track.State} {op : Track.Op} (hn : s.nodes[n]? = some t)
    (he : nodeTrace n [e] = [(op, (Track.step t op).1)]) (ho : ∀ m, m ≠ n → nodeTrace m [e] = []) :
    ∀ (m : Nat) u, (s.nodes.set n (Track.step t op).2)[m]? = some u →
      Model.Track.machine.Reach (nodeTrace m (tr ++ [e])) u := by
  intro m u hu
  rw [List.getElem?_set] at hu
  rw [nodeTrace_snoc]
  by_cases hmn : n = m
  · subst hmn
    rw [if_pos rfl, if_pos (List.getElem?_eq_some_iff.1 hn).1] at hu
    injection hu with hu
    rw [← hu, he]
    exact Machine.Reach.step (M := Model.Track.machine) op (h.nodes n t hn)
  · rw [if_neg hmn] at hu
    rw [ho m (fun hx => hmn hx.symm), List.append_nil]
    exact h.nodes m u hu

theorem Inv.nodes_same {tr : Trace} {s : State} (h : Inv tr s) {e : Op × Out}
    (ho : ∀ m, nodeTrace m [e] = []) :
    ∀ (m : Nat) u, s.nodes[m]? = some u → Model.Track.machine.Reach (nodeTrace m (tr ++ [e])) u := by
  intro m u hu
  rw [nodeTrace_snoc, ho, List.append_nil]
  exact h.nodes m u hu

/-- The events that make no link. -/
theorem Inv.subs_keep {tr : Trace} {s : State} (h : Inv tr s) {op : Op} {o : Out} {links : List Link}
    (ho : ∀ n how, op ≠ .subscribe n how)
    (hl : ∀ (i : Nat) l, s.links[i]? = some l → ∃ l', links[i]? = some l' ∧ l'.src = l.src ∧
      l'.consumer = l.consumer) :
    ∀ n how i c, (Op.subscribe n how, Out.link i c) ∈ tr ++ [(op, o)] →
      ∃ l, links[i]? = some l ∧ l.src = n ∧ l.consumer = c := by
  intro n how i c hm
  rcases List.mem_append.1 hm with hm | hm
  · obtain ⟨l, h1, h2, h3⟩ := h.subs n how i c hm
    obtain ⟨l', g1, g2, g3⟩ := hl i l h1
    exact ⟨l', g1, g2.trans h2, g3.trans h3⟩
  · have := List.mem_singleton.1 hm
    injection this with this _
    exact absurd this.symm (ho n how)

theorem get_set {α : Type} {l : List α} {i : Nat} {x : α} (hi : i < l.length) (j : Nat) (y : α)
    (h : (l.set i x)[j]? = some y) : (j = i ∧ y = x) ∨ (j ≠ i ∧ l[j]? = some y) := by
  rw [List.getElem?_set] at h
  by_cases hij : i = j
  · rw [if_pos hij, if_pos hi] at h
    injection h with h
    exact .inl ⟨hij.symm, h.symm⟩
  · rw [if_neg hij] at h
    exact .inr ⟨fun hx => hij hx.symm, h⟩

theorem links_set {links : List Link} {i : Nat} {l x : Link} (hi : links[i]? = some l)
    (h1 : x.src = l.src) (h2 : x.consumer = l.consumer) :
    ∀ (j : Nat) m, links[j]? = some m → ∃ m', (links.set i x)[j]? = some m' ∧ m'.src = m.src ∧
      m'.consumer = m.consumer := by
  intro j m hj
  rw [List.getElem?_set]
  by_cases hij : i = j
  · subst hij
    rw [hi] at hj
    injection hj with hj
    subst hj
    rw [if_pos rfl, if_pos (List.getElem?_eq_some_iff.1 hi).1]
    exact ⟨x, rfl, h1, h2⟩
  · rw [if_neg hij]
    exact ⟨m, hj, rfl, rfl⟩

theorem Inv.distinct_set {tr : Trace} {s : State} (h : Inv tr s) {i : Nat} {l x : Link}
    (hi : s.links[i]? = some l) (h1 : x.src = l.src) (h2 : x.consumer = l.consumer)
    (h3 : x.running = true → l.running = true) :
    ∀ (j k : Nat) m n, j ≠ k → (s.links.set i x)[j]? = some m → (s.links.set i x)[k]? = some n →
      m.running = true → n.running = true → m.src = n.src → m.consumer ≠ n.consumer := by
  intro j k m n hjk hj hk hm hn hs
  have hlt := (List.getElem?_eq_some_iff.1 hi).1
  rcases get_set hlt j m hj with ⟨rfl, rfl⟩ | ⟨hj1, hj2⟩
  · rcases get_set hlt k n hk with ⟨rfl, rfl⟩ | ⟨hk1, hk2⟩
    · exact absurd rfl hjk
    · rw [h2]
      exact h.distinct j k l n hjk hi hk2 (h3 hm) hn (h1 ▸ hs)
  · rcases get_set hlt k n hk with ⟨rfl, rfl⟩ | ⟨hk1, hk2⟩
    · rw [h2]
      exact h.distinct j k m l hjk hj2 hi hm (h3 hn) (h1 ▸ hs)
    · exact h.distinct j k m n hjk hj2 hk2 hm hn hs

/-- An event that concerns nobody. -/
theorem Inv.quiet {tr : Trace} {s : State} (h : Inv tr s) {op : Op} {o : Out}
    (hn : ∀ m, nodeTrace m [(op, o)] = []) (hb : ∀ m, begun m [(op, o)] = [])
    (ha : ∀ m, arrived m [(op, o)] = []) (hs : ∀ n how i c, (op, o) ≠ (.subscribe n how, .link i c)) :
    Inv (tr ++ [(op, o)]) s := by
  refine ⟨h.nodes_same hn, h.len, ?_, ?_, h.prods, h.distinct, ?_⟩
  · intro n hle
    obtain ⟨h1, h2, h3⟩ := h.beyond n hle
    rw [nodeTrace_snoc, begun_snoc, arrived_snoc, hn, hb, ha, h1, h2, h3]
    exact ⟨rfl, rfl, rfl⟩
  · intro i l hl
    refine (h.links i l hl).keep (hb _) (ha _) (.inl (hn _)) ?_
    rw [hn]; rfl
  · intro n how i c hm
    rcases List.mem_append.1 hm with hm | hm
    · exact h.subs n how i c hm
    · exact absurd (List.mem_singleton.1 hm).symm (hs n how i c)

/-- Somebody uses the track of node `n`, and nothing else changes but link `i`. -/
theorem Inv.user {tr : Trace} {s : State} (h : Inv tr s) {op : Op} {o : Out} {n : Nat}
    {t : Track.State} {top : Track.Op} (hn : s.nodes[n]? = some t)
    (he : nodeTrace n [(op, o)] = [(top, (Track.step t top).1)])
    (ho : ∀ m, m ≠ n → nodeTrace m [(op, o)] = [])
    (hb : ∀ m, begun m [(op, o)] = []) (ha : ∀ m, arrived m [(op, o)] = [])
    (hs : ∀ n how, op ≠ .subscribe n how)
    (hf : free s.links n top = true)
    (hacc : n ≠ 0 → accepted [(top, (Track.step t top).1)] = [])
    (hp : n ≠ 0 → (Track.step t top).2.producers = t.producers) :
    Inv (tr ++ [(op, o)]) { s with nodes := s.nodes.set n (Track.step t top).2 } := by
  have hlt := (List.getElem?_eq_some_iff.1 hn).1
  refine ⟨h.nodes_set hn he ho, ?_, ?_, ?_, ?_, h.distinct, ?_⟩
  · rw [List.length_set]; exact h.len
  · intro m hle
    dsimp only at hle
    rw [List.length_set] at hle
    obtain ⟨h1, h2, h3⟩ := h.beyond m hle
    rw [nodeTrace_snoc, begun_snoc, arrived_snoc, ho m (by omega), hb, ha, h1, h2, h3]
    exact ⟨rfl, rfl, rfl⟩
  · intro i l hl
    refine (h.links i l hl).keep (hb _) (ha _) ?_ ?_
    · by_cases hx : l.src = n
      · right
        rw [hx]
        refine ⟨t, top, h.nodes n t hn, he, ?_⟩
        intro hr
        have := List.all_eq_true.1 hf l (List.mem_of_getElem? hl)
        simpa [hx, hr] using this
      · exact .inl (ho _ hx)
    · by_cases hx : i + 1 = n
      · rw [hx, he]; exact hacc (by omega)
      · rw [ho _ hx]; rfl
  · intro i l hl
    obtain ⟨u, h1, h2, h3⟩ := h.prods i l hl
    by_cases hx : i + 1 = n
    · subst hx
      rw [hn] at h1
      injection h1 with h1
      subst h1
      refine ⟨(Track.step t top).2, List.getElem?_set_self hlt, ?_⟩
      rw [hp (by omega)]
      exact ⟨h2, h3⟩
    · exact ⟨u, by rw [List.getElem?_set_ne (fun hy => hx hy.symm)]; exact h1, h2, h3⟩
  · exact h.subs_keep hs fun i l hl => ⟨l, hl, rfl, rfl⟩

/-- A subscription. -/
theorem Inv.link {tr : Trace} {s : State} (h : Inv tr s) {n c : Nat} {t t' : Track.State}
    {how : Track.Op} (hn : s.nodes[n]? = some t) (hs : Track.step t how = (.handle c, t'))
    (hh : (∃ p, how = .consume p) ∨ ∃ d, how = .cloneConsumer d ∧ t.consumers.get d = some none) :
    Inv (tr ++ [(.subscribe n how, (Tree.link s n c t').1)]) (Tree.link s n c t').2 := by
  have hlt := (List.getElem?_eq_some_iff.1 hn).1
  have hlen := h.len
  have he : ∀ m, nodeTrace m [(Op.subscribe n how, Out.link s.links.length c)] =
      if n = m then [(how, .handle c)]
      else if s.links.length + 1 = m then [(.cloneProducer 0, .handle 1)] else [] := by
    intro m
    simp only [nodeTrace, List.filterMap_cons, List.filterMap_nil]
    by_cases h1 : n = m
    · simp [h1]
    · by_cases h2 : s.links.length + 1 = m <;> simp [h1, h2]
  have hfor : ∀ d, foreign d how = true := by
    intro d
    rcases hh with ⟨p, rfl⟩ | ⟨e, rfl, _⟩ <;> rfl
  have hacc : ∀ o, accepted [(how, o)] = [] := by
    intro o
    rcases hh with ⟨p, rfl⟩ | ⟨e, rfl, _⟩ <;> cases o <;> rfl
  have hout : (Track.step t how).1 = .handle c := by rw [hs]
  have hst : (Track.step t how).2 = t' := by rw [hs]
  have hreach := h.nodes n t hn
  have hreach' : Model.Track.machine.Reach (nodeTrace n tr ++ [(how, .handle c)]) t' := by
    have := Machine.Reach.step (M := Model.Track.machine) how hreach
    rw [show (Model.Track.machine.step t how) = (.handle c, t') from hs] at this
    exact this
  have hT := Model.Track.inv_reach hreach
  have hc : c = t.consumers.length := by
    rcases hh with ⟨p, rfl⟩ | ⟨e, rfl, hg⟩ <;> simp only [Model.Track.step] at hs
    · split at hs
      · injection hs with hs _; injection hs with hs; exact hs.symm
      · cases hs
    · split at hs
      · cases hs
      · injection hs with hs _; injection hs with hs; exact hs.symm
  have hprod : t'.producers = t.producers := by
    rw [← hst]
    exact byConsumer_producers (by rcases hh with ⟨p, rfl⟩ | ⟨e, rfl, _⟩ <;> rfl) t
  have hget : ∀ (m : Nat) u, (s.nodes.set n t' ++ [(Track.step Track.init (.cloneProducer 0)).2])[m]? =
      some u → (m = n ∧ u = t') ∨ (m ≠ n ∧ s.nodes[m]? = some u) ∨
        (m = s.links.length + 1 ∧ u = (Track.step Track.init (.cloneProducer 0)).2) := by
    intro m u hu
    by_cases hm : m < s.nodes.length
    · rw [List.getElem?_append_left (by rw [List.length_set]; exact hm)] at hu
      rcases get_set hlt m u hu with hx | hx
      · exact .inl hx
      · exact .inr (.inl hx)
    · have hm' : m = s.links.length + 1 := by
        have := (List.getElem?_eq_some_iff.1 hu).1
        rw [List.length_append, List.length_set, List.length_singleton] at this
        omega
      subst hm'
      rw [List.getElem?_append_right (by rw [List.length_set]; omega), List.length_set] at hu
      rw [show s.links.length + 1 - s.nodes.length = 0 by omega] at hu
      injection hu with hu
      exact .inr (.inr ⟨rfl, hu.symm⟩)
  obtain ⟨b1, b2, b3⟩ := h.beyond (s.links.length + 1) (by omega)
  have hlget : ∀ (i : Nat) l, (s.links ++ [⟨n, c, none, none, true, [], .active⟩])[i]? = some l →
      s.links[i]? = some l ∨ (i = s.links.length ∧ l = ⟨n, c, none, none, true, [], .active⟩) := by
    intro i l hl
    by_cases hi : i < s.links.length
    · rw [List.getElem?_append_left hi] at hl; exact .inl hl
    · have hi' : i = s.links.length := by
        have := (List.getElem?_eq_some_iff.1 hl).1
        rw [List.length_append, List.length_singleton] at this
        omega
      subst hi'
      rw [List.getElem?_append_right (Nat.le_refl _), Nat.sub_self] at hl
      injection hl with hl
      exact .inr ⟨rfl, hl.symm⟩
  have hused : ∀ (i : Nat) l, s.links[i]? = some l → l.running = true → l.src = n → l.consumer ≠ c := by
    intro i l hl hr hx
    obtain ⟨h1, _⟩ := (h.links i l hl).read hr
    rw [hx] at h1
    obtain ⟨v, hv⟩ := (hT.alive_iff _).1 h1
    have := Slots.get_some_lt hv
    omega
  unfold Tree.link
  refine ⟨?_, ?_, ?_, ?_, ?_, ?_, ?_⟩
  · intro m u hu
    rw [nodeTrace_snoc, he]
    rcases hget m u hu with ⟨rfl, rfl⟩ | ⟨hm, hu⟩ | ⟨rfl, rfl⟩
    · rw [if_pos rfl]; exact hreach'
    · rw [if_neg (fun hx => hm hx.symm), if_neg, List.append_nil]
      · exact h.nodes m u hu
      · have := (List.getElem?_eq_some_iff.1 hu).1; omega
    · rw [if_neg (by omega), if_pos rfl, b1]
      exact Machine.Reach.step (M := Model.Track.machine) (.cloneProducer 0) .init
  · simp only [List.length_append, List.length_set, List.length_singleton]
    omega
  · intro m hle
    simp only [List.length_append, List.length_set, List.length_singleton] at hle
    obtain ⟨h1, h2, h3⟩ := h.beyond m (by omega)
    rw [nodeTrace_snoc, begun_snoc, arrived_snoc, he, h1, h2, h3, if_neg (by omega), if_neg (by omega)]
    exact ⟨rfl, rfl, rfl⟩
  · intro i l hl
    rcases hlget i l hl with hl | ⟨rfl, rfl⟩
    · have hi := (List.getElem?_eq_some_iff.1 hl).1
      have hL := h.links i l hl
      have hsi := hL.src
      refine hL.keep rfl rfl ?_ ?_
      · rw [he]
        by_cases hx : l.src = n
        · right
          rw [hx, if_pos rfl]
          exact ⟨t, how, hreach, by rw [hout], fun _ => hfor _⟩
        · left
          rw [if_neg (fun hy => hx hy.symm), if_neg (by omega)]
      · rw [he]
        by_cases hx : i + 1 = n
        · rw [if_pos hx.symm]; exact hacc _
        · rw [if_neg (fun hy => hx hy.symm), if_neg (by omega)]; rfl
    · have eb : begun (s.links.length + 1)
          (tr ++ [(Op.subscribe n how, Out.link s.links.length c)]) = [] := by
        rw [begun_snoc, b2]; rfl
      have ea : Spec.arrived (s.links.length + 1)
          (tr ++ [(Op.subscribe n how, Out.link s.links.length c)]) = [] := by
        rw [arrived_snoc, b3]; rfl
      have en : nodeTrace (s.links.length + 1)
          (tr ++ [(Op.subscribe n how, Out.link s.links.length c)]) =
          [(.cloneProducer 0, .handle 1)] := by
        rw [nodeTrace_snoc, b1, he, if_neg (by omega), if_pos rfl]; rfl
      refine ⟨by dsimp only; omega, ⟨how, by simp⟩, ?_, ?_, ?_, ?_, ?_, ?_, ?_⟩
      · rw [eb]; rfl
      · rw [eb]; intro g hg; cases hg
      · rw [eb]; exact List.Pairwise.nil
      · intro _
        rw [eb]
        dsimp only
        rw [nodeTrace_snoc, he, if_pos rfl]
        refine ⟨((Model.Track.inv_reach hreach').alive_iff c).2 ?_, ?_⟩
        · rw [← hst]
          rcases hh with ⟨p, rfl⟩ | ⟨e, rfl, hg⟩ <;> simp only [Model.Track.step] at hs ⊢
          · split
            · exact ⟨none, by rw [Slots.get_add, if_pos hc]⟩
            · rename_i hx
              split at hs
              · exact absurd ‹_› hx
              · cases hs
          · rw [hg]
            exact ⟨none, by rw [Slots.get_add, if_pos hc]⟩
        · rw [Model.Track.received_snoc]
          rcases hh with ⟨p, rfl⟩ | ⟨e, rfl, hg⟩
          · simp [Model.Track.Spec.give]
          · have := hT.ordered.prev e none hg
            simp only [Model.Track.Spec.give, if_true]
            cases hr : (received (nodeTrace n tr) e).getLast? with
            | none => exact List.getLast?_eq_none_iff.1 hr
            | some x => rw [hr] at this; cases this
      · rw [ea]; intro g hg; cases hg
      · rw [en, ea]; intro g hg; cases hg
      · rw [ea]; intro _ g hg; cases hg
  · intro i l hl
    rcases hlget i l hl with hl | ⟨rfl, rfl⟩
    · obtain ⟨u, h1, h2, h3⟩ := h.prods i l hl
      have hi := (List.getElem?_eq_some_iff.1 h1).1
      by_cases hx : i + 1 = n
      · subst hx
        rw [hn] at h1
        injection h1 with h1
        subst h1
        refine ⟨t', ?_, by rw [hprod]; exact ⟨h2, h3⟩⟩
        dsimp only
        rw [List.getElem?_append_left (by rw [List.length_set]; exact hi)]
        exact List.getElem?_set_self hlt
      · refine ⟨u, ?_, h2, h3⟩
        dsimp only
        rw [List.getElem?_append_left (by rw [List.length_set]; exact hi),
          List.getElem?_set_ne (fun hy => hx hy.symm)]
        exact h1
    · refine ⟨(Track.step Track.init (.cloneProducer 0)).2, ?_, fun _ => rfl, fun _ => rfl⟩
      dsimp only
      rw [List.getElem?_append_right (by rw [List.length_set]; omega), List.length_set,
        show s.links.length + 1 - s.nodes.length = 0 by omega]
      rfl
  · intro i j l m hij hl hm hr hr' hsrc
    rcases hlget i l hl with hl | ⟨rfl, rfl⟩ <;> rcases hlget j m hm with hm | ⟨rfl, rfl⟩
    · exact h.distinct i j l m hij hl hm hr hr' hsrc
    · exact hused i l hl hr hsrc
    · exact fun hx => hused j m hm hr' hsrc.symm hx.symm
    · exact absurd rfl hij
  · intro m how' i d hm
    rcases List.mem_append.1 hm with hm | hm
    · obtain ⟨l, h1, h2⟩ := h.subs m how' i d hm
      exact ⟨l, by rw [List.getElem?_append_left (List.getElem?_eq_some_iff.1 h1).1]; exact h1, h2⟩
    · have := List.mem_singleton.1 hm
      injection this with h1 h2
      injection h1 with h1 _
      injection h2 with h2 h3
      subst h1 h2 h3
      exact ⟨_, List.getElem?_concat_length, rfl, rfl⟩

/-- A step of a loop that begins no stream. -/
theorem Inv.serveIdle {tr : Trace} {s : State} (h : Inv tr s) {i : Nat} {l x : Link}
    (hi : s.links[i]? = some l) {op : ServeLoop.Op} {o : ServeLoop.Out}
    (ho : ∀ g ds, o ≠ .started g ds)
    (h1 : x.src = l.src) (h2 : x.consumer = l.consumer) (h3 : x.streams = l.streams)
    (h4 : x.running = true → l.running = true) (h5 : x.phase = l.phase) (n c : Nat) :
    Inv (tr ++ [(.serve i op, .serve n c o)]) { s with links := s.links.set i x } := by
  have hlt := (List.getElem?_eq_some_iff.1 hi).1
  have hn : ∀ m, nodeTrace m [(Op.serve i op, Out.serve n c o)] = [] := by
    intro m
    cases op <;> cases o <;> first | rfl | exact absurd rfl (ho _ _)
  have hb : ∀ m, begun m [(Op.serve i op, Out.serve n c o)] = [] := by
    intro m
    cases op <;> cases o <;> first | rfl | exact absurd rfl (ho _ _)
  have q : Inv (tr ++ [(.serve i op, .serve n c o)]) s :=
    h.quiet hn hb (fun _ => rfl) (fun _ _ _ _ hx => by cases hx)
  refine ⟨q.nodes, by rw [List.length_set]; exact q.len, q.beyond, ?_, ?_,
    q.distinct_set hi h1 h2 h4, ?_⟩
  · intro j m hj
    rcases get_set hlt j m hj with ⟨rfl, rfl⟩ | ⟨_, hj⟩
    · exact (q.links j l hi).change h1 h2 (by rw [h3]) h4
    · exact q.links j m hj
  · intro j m hj
    rcases get_set hlt j m hj with ⟨rfl, rfl⟩ | ⟨_, hj⟩
    · obtain ⟨t, p1, p2, p3⟩ := q.prods j l hi
      exact ⟨t, p1, by rw [h5]; exact p2, by rw [h5]; exact p3⟩
    · exact q.prods j m hj
  · exact h.subs_keep (fun _ _ hx => by cases hx) (links_set hi h1 h2)

/-- A loop begins a stream. -/
theorem Inv.serveStart {tr : Trace} {s : State} (h : Inv tr s) {i : Nat} {l x : Link}
    (hi : s.links[i]? = some l) {t : Track.State} (ht : s.nodes[l.src]? = some t) {g : Track.Grp}
    {ds : List Track.Grp} (hr : l.running = true)
    (hg : (Track.step t (.next l.consumer)).1 = .group g)
    (h1 : x.src = l.src) (h2 : x.consumer = l.consumer) (h3 : x.streams = l.streams ++ [(g, false)])
    (h5 : x.phase = l.phase) :
    Inv (tr ++ [(.serve i .next, .serve l.src l.consumer (.started g ds))])
      { nodes := s.nodes.set l.src (Track.step t (.next l.consumer)).2
        links := s.links.set i x } := by
  have hlt := (List.getElem?_eq_some_iff.1 hi).1
  have hnlt := (List.getElem?_eq_some_iff.1 ht).1
  have hL := h.links i l hi
  have hsrc := hL.src
  have hreach := h.nodes _ t ht
  have hT := Model.Track.inv_reach hreach
  have he : ∀ m, nodeTrace m [(Op.serve i .next, Out.serve l.src l.consumer (.started g ds))] =
      if l.src = m then [(.next l.consumer, .group g)] else [] := by
    intro m
    simp only [nodeTrace, List.filterMap_cons, List.filterMap_nil]
    by_cases hm : l.src = m <;> simp [hm]
  have hb : ∀ m, begun m [(Op.serve i .next, Out.serve l.src l.consumer (.started g ds))] =
      if i + 1 = m then [g] else [] := by
    intro m
    simp only [begun, List.filterMap_cons, List.filterMap_nil]
    by_cases hm : i + 1 = m <;> simp [hm]
  have hacc : ∀ m, accepted (nodeTrace m
      [(Op.serve i .next, Out.serve l.src l.consumer (.started g ds))]) = [] := by
    intro m
    rw [he]
    split <;> rfl
  have hprod : (Track.step t (.next l.consumer)).2.producers = t.producers :=
    byConsumer_producers rfl t
  have hnodes : ∀ (m : Nat) u, (s.nodes.set l.src (Track.step t (.next l.consumer)).2)[m]? = some u →
      Model.Track.machine.Reach (nodeTrace m (tr ++
        [(.serve i .next, .serve l.src l.consumer (.started g ds))])) u := by
    refine h.nodes_set ht ?_ ?_
    · rw [he, if_pos rfl, hg]
    · intro m hm
      rw [he, if_neg (fun hx => hm hx.symm)]
  refine ⟨hnodes, ?_, ?_, ?_, ?_, h.distinct_set hi h1 h2 (fun _ => hr), ?_⟩
  · rw [List.length_set, List.length_set]; exact h.len
  · intro m hle
    dsimp only at hle
    rw [List.length_set] at hle
    have hlen := h.len
    obtain ⟨b1, b2, b3⟩ := h.beyond m hle
    rw [nodeTrace_snoc, begun_snoc, arrived_snoc, he, hb, if_neg (by omega), if_neg (by omega), b1, b2,
      b3]
    exact ⟨rfl, rfl, rfl⟩
  · intro j m hj
    rcases get_set hlt j m hj with ⟨rfl, rfl⟩ | ⟨hne, hj⟩
    · obtain ⟨r1, r2⟩ := hL.read hr
      have eb : begun (j + 1) (tr ++ [(.serve j .next, .serve l.src l.consumer (.started g ds))]) =
          begun (j + 1) tr ++ [g] := by rw [begun_snoc, hb, if_pos rfl]
      have ea : Spec.arrived (j + 1)
          (tr ++ [(.serve j .next, .serve l.src l.consumer (.started g ds))]) =
          Spec.arrived (j + 1) tr := by rw [arrived_snoc]; exact List.append_nil _
      have en : nodeTrace (j + 1)
          (tr ++ [(.serve j .next, .serve l.src l.consumer (.started g ds))]) =
          nodeTrace (j + 1) tr := by
        rw [nodeTrace_snoc, he, if_neg (by omega)]; exact List.append_nil _
      have es : nodeTrace l.src
          (tr ++ [(.serve j .next, .serve l.src l.consumer (.started g ds))]) =
          nodeTrace l.src tr ++ [(.next l.consumer, .group g)] := by
        rw [nodeTrace_snoc, he, if_pos rfl]
      have hal : ConsumerAlive (nodeTrace l.src tr ++ [(.next l.consumer, .group g)]) l.consumer := by
        refine ⟨?_, ?_⟩
        · rcases r1.1 with ⟨p, hp⟩ | ⟨d, hd⟩
          · exact .inl ⟨p, List.mem_append_left _ hp⟩
          · exact .inr ⟨d, List.mem_append_left _ hd⟩
        · intro hm
          rcases List.mem_append.1 hm with hm | hm
          · exact r1.2 hm
          · cases List.mem_singleton.1 hm
      have hre : received (nodeTrace l.src tr ++ [(.next l.consumer, .group g)]) l.consumer =
          begun (j + 1) tr ++ [g] := by
        rw [Model.Track.received_snoc]
        simp only [Model.Track.Spec.give, if_true]
        rw [r2]
      have hreach' := hnodes l.src _ (List.getElem?_set_self hnlt)
      rw [es] at hreach'
      have hord := (Model.Track.inv_reach hreach')
      obtain ⟨v, hv⟩ := (hord.alive_iff _).1 hal
      have hinc := hord.ordered.received _ v hv
      have hsub := hord.ordered.subset _ v hv
      rw [hre] at hinc hsub
      refine ⟨by rw [h1]; exact hsrc, ?_, ?_, ?_, ?_, ?_, ?_, ?_, ?_⟩
      · obtain ⟨how, hm⟩ := hL.made
        rw [h1, h2]
        exact ⟨how, List.mem_append_left _ hm⟩
      · rw [eb, h3, List.map_append, hL.streams]; rfl
      · rw [eb, h1, es]; exact hsub
      · rw [eb]; exact hinc
      · intro _
        rw [h1, h2, eb, es]
        exact ⟨hal, hre⟩
      · intro y hy
        rw [ea] at hy
        rw [eb]
        exact List.mem_append_left _ (hL.arrived y hy)
      · rw [en, ea]; exact hL.accepted
      · rw [en, ea]; exact hL.offered
    · refine (h.links j m hj).keep ?_ rfl ?_ (hacc _)
      · rw [hb, if_neg (by omega)]
      · by_cases hx : m.src = l.src
        · right
          rw [hx]
          refine ⟨t, .next l.consumer, hreach, by rw [he, if_pos rfl, hg], ?_⟩
          intro hmr
          have := h.distinct j i m l hne hj hi hmr hr hx
          simp only [foreign, bne_iff_ne]
          exact fun hy => this hy.symm
        · left
          rw [he, if_neg (fun hy => hx hy.symm)]
  · intro j m hj
    have key : ∀ j' m', s.links[j']? = some m' → ProdOk
        { nodes := s.nodes.set l.src (Track.step t (.next l.consumer)).2
          links := s.links.set i x } j' m' := by
      intro j' m' hj'
      obtain ⟨u, p1, p2, p3⟩ := h.prods j' m' hj'
      by_cases hx : j' + 1 = l.src
      · rw [hx, ht] at p1
        injection p1 with p1
        subst p1
        exact ⟨_, by rw [hx]; exact List.getElem?_set_self hnlt, by rw [hprod]; exact p2,
          by rw [hprod]; exact p3⟩
      · exact ⟨u, by rw [List.getElem?_set_ne (fun hy => hx hy.symm)]; exact p1, p2, p3⟩
    rcases get_set hlt j m hj with ⟨rfl, rfl⟩ | ⟨hne, hj⟩
    · obtain ⟨u, p1, p2, p3⟩ := key j l hi
      exact ⟨u, p1, by rw [h5]; exact p2, by rw [h5]; exact p3⟩
    · exact key j m hj
  · exact h.subs_keep (fun _ _ hx => by cases hx) (links_set hi h1 h2)

/-- The subscriber of link `i` uses its track: a group arrives, or the track is closed, or it is
removed from the table. -/
theorem Inv.fill {tr : Trace} {s : State} (h : Inv tr s) {i : Nat} {l x : Link}
    (hi : s.links[i]? = some l) {t : Track.State} (ht : s.nodes[i + 1]? = some t) {op : Op} {o : Out}
    {top : Track.Op}
    (he : ∀ m, nodeTrace m [(op, o)] = if i + 1 = m then [(top, (Track.step t top).1)] else [])
    (hb : ∀ m, begun m [(op, o)] = []) (ha : ∀ m, i + 1 ≠ m → Spec.arrived m [(op, o)] = [])
    (hs : ∀ n how, op ≠ .subscribe n how) (hf : ∀ c, foreign c top = true)
    (h1 : x.src = l.src) (h2 : x.consumer = l.consumer)
    (h3 : x.streams.map (·.1) = l.streams.map (·.1)) (h4 : x.running = l.running)
    (harr : ∀ g ∈ Spec.arrived (i + 1) [(op, o)], g ∈ begun (i + 1) tr)
    (hacc : ∀ g ∈ accepted [(top, (Track.step t top).1)], g ∈ Spec.arrived (i + 1) [(op, o)])
    (hoff : closing (nodeTrace (i + 1) tr ++ [(top, (Track.step t top).1)]) = none →
      ∀ g ∈ Spec.arrived (i + 1) [(op, o)],
        ∃ y ∈ accepted (nodeTrace (i + 1) tr ++ [(top, (Track.step t top).1)]), g.seq ≤ y.seq)
    (hp0 : x.phase = .active → (Track.step t top).2.producers.get 0 = some none)
    (hp1 : x.phase ≠ .gone → (Track.step t top).2.producers.get 1 = some none) :
    Inv (tr ++ [(op, o)])
      { nodes := s.nodes.set (i + 1) (Track.step t top).2
        links := s.links.set i x } := by
  have hlt := (List.getElem?_eq_some_iff.1 hi).1
  have hnlt := (List.getElem?_eq_some_iff.1 ht).1
  have hL := h.links i l hi
  have hsrc := hL.src
  refine ⟨?_, ?_, ?_, ?_, ?_, h.distinct_set hi h1 h2 (by rw [h4]; exact fun hr => hr), ?_⟩
  · refine h.nodes_set ht (by rw [he, if_pos rfl]) ?_
    intro m hm
    rw [he, if_neg (fun hx => hm hx.symm)]
  · rw [List.length_set, List.length_set]; exact h.len
  · intro m hle
    dsimp only at hle
    rw [List.length_set] at hle
    have hlen := h.len
    obtain ⟨b1, b2, b3⟩ := h.beyond m hle
    rw [nodeTrace_snoc, begun_snoc, arrived_snoc, he, hb, ha m (by omega), if_neg (by omega), b1, b2,
      b3]
    exact ⟨rfl, rfl, rfl⟩
  · intro j m hj
    rcases get_set hlt j m hj with ⟨rfl, rfl⟩ | ⟨hne, hj⟩
    · have eb : begun (j + 1) (tr ++ [(op, o)]) = begun (j + 1) tr := by
        rw [begun_snoc, hb, List.append_nil]
      have es : nodeTrace l.src (tr ++ [(op, o)]) = nodeTrace l.src tr := by
        rw [nodeTrace_snoc, he, if_neg (by omega), List.append_nil]
      have en : nodeTrace (j + 1) (tr ++ [(op, o)]) =
          nodeTrace (j + 1) tr ++ [(top, (Track.step t top).1)] := by
        rw [nodeTrace_snoc, he, if_pos rfl]
      refine ⟨by rw [h1]; exact hsrc, ?_, by rw [eb, h3]; exact hL.streams,
        by rw [eb, h1, es]; exact hL.taken, by rw [eb]; exact hL.increasing, ?_, ?_, ?_, ?_⟩
      · obtain ⟨how, hm⟩ := hL.made
        rw [h1, h2]
        exact ⟨how, List.mem_append_left _ hm⟩
      · rw [h1, h2, h4, eb, es]; exact hL.read
      · intro g hg
        rw [arrived_snoc] at hg
        rw [eb]
        rcases List.mem_append.1 hg with hg | hg
        · exact hL.arrived g hg
        · exact harr g hg
      · intro g hg
        rw [en, accepted_append] at hg
        rw [arrived_snoc]
        rcases List.mem_append.1 hg with hg | hg
        · exact List.mem_append_left _ (hL.accepted g hg)
        · exact List.mem_append_right _ (hacc g hg)
      · intro hc g hg
        rw [en] at hc ⊢
        rw [arrived_snoc] at hg
        rcases List.mem_append.1 hg with hg | hg
        · have hc' := hc
          rw [closing_append] at hc'
          obtain ⟨y, y1, y2⟩ := hL.offered (Option.or_eq_none_iff.1 hc').2 g hg
          exact ⟨y, by rw [accepted_append]; exact List.mem_append_left _ y1, y2⟩
        · exact hoff hc g hg
    · refine (h.links j m hj).keep (hb _) (ha _ (by omega)) ?_ ?_
      · rw [he]
        by_cases hx : i + 1 = m.src
        · right
          rw [if_pos hx]
          exact ⟨t, top, by rw [← hx]; exact h.nodes _ t ht, rfl, fun _ => hf _⟩
        · left
          rw [if_neg hx]
      · rw [he, if_neg (by omega)]; rfl
  · intro j m hj
    rcases get_set hlt j m hj with ⟨rfl, rfl⟩ | ⟨hne, hj⟩
    · exact ⟨_, List.getElem?_set_self hnlt, hp0, hp1⟩
    · obtain ⟨u, p1, p2, p3⟩ := h.prods j m hj
      exact ⟨u, by rw [List.getElem?_set_ne (by omega)]; exact p1, p2, p3⟩
  · exact h.subs_keep hs (links_set hi h1 h2)

theorem Inv.step {tr : Trace} {s : State} (h : Inv tr s) (op : Op) :
    Inv (tr ++ [(op, (Tree.step s op).1)]) (Tree.step s op).2 := by
  have q : Inv (tr ++ [(op, .invalid)]) s :=
    h.quiet (fun _ => by cases op <;> first | rfl | (rename_i a; cases a <;> rfl) | (rename_i a b; cases b <;> rfl))
      (fun _ => by cases op <;> first | rfl | (rename_i a; cases a <;> rfl) | (rename_i a b; cases b <;> rfl))
      (fun _ => by cases op <;> rfl)
      (fun _ _ _ _ hx => by cases hx)
  cases op with
  | user n top =>
    simp only [Tree.step]
    split
    · exact q
    · rename_i t ht
      split
      · rename_i hc
        rw [Bool.and_eq_true] at hc
        have hby : n ≠ 0 → Subs.byConsumer top = true := by
          intro hne
          have := hc.1
          simpa [hne] using this
        refine h.user (top := top) ht ?_ ?_ (fun _ => rfl) (fun _ => rfl) (fun _ _ hx => by cases hx)
          hc.2 (fun hn => byConsumer_accepted (hby hn) _) (fun hn => byConsumer_producers (hby hn) t)
        · simp [nodeTrace]
        · intro m hm
          simp only [nodeTrace, List.filterMap_cons, List.filterMap_nil]
          rw [if_neg (fun hx => hm hx.symm)]
      · exact q
  | subscribe n how =>
    simp only [Tree.step]
    split
    · rename_i t p hn
      split
      · rename_i c t' hs
        exact h.link hn hs (.inl ⟨p, rfl⟩)
      · exact q
    · rename_i t d hn
      split
      · rename_i hd
        split
        · rename_i c t' hs
          exact h.link hn hs (.inr ⟨d, rfl, hd⟩)
        · exact q
      · exact q
    · exact q
  | serve i op =>
    simp only [Tree.step]
    split
    · exact q
    · rename_i l hi
      split
      · exact q
      · rename_i op' _ _ t ht hop
        have hop' : ∀ o, op' ≠ .track o := fun o ho => hop o ho
        rcases serve_cases l.consumer t l.old l.new l.running op' hop' with
          ⟨g, ds, rfl, hr, hg, e1, e2, e3⟩ | ⟨e1, e2, e3⟩
        · rw [e2]
          simp only [e1]
          exact h.serveStart hi ht hr hg rfl rfl rfl rfl
        · rw [e1, set_same ht]
          refine h.serveIdle hi e2 ?_ ?_ ?_ ?_ ?_ _ _
          · rfl
          · rfl
          · dsimp only
            split
            · rename_i g ds hx
              exact absurd hx (e2 g ds)
            · rfl
          · exact e3
          · rfl
      · exact q
  | arrive i k =>
    simp only [Tree.step]
    split
    · exact q
    · rename_i l hi
      split
      · rename_i g t hk ht
        split
        · exact q
        · rename_i hlt62
          have hstr : (l.streams.set k (g, true)).map (·.1) = l.streams.map (·.1) := by
            rw [List.map_set]
            exact set_same (by rw [List.getElem?_map, hk]; rfl)
          have hL := h.links i l hi
          have hmem : g ∈ begun (i + 1) tr := by
            rw [← hL.streams]
            exact List.mem_map.2 ⟨_, List.mem_of_getElem? hk, rfl⟩
          split
          · have q' : Inv (tr ++ [(.arrive i k, .unknown)]) s :=
              h.quiet (fun _ => rfl) (fun _ => rfl) (fun _ => rfl) (fun _ _ _ _ hx => by cases hx)
            refine ⟨q'.nodes, by rw [List.length_set]; exact q'.len, q'.beyond, ?_, ?_,
              q'.distinct_set hi rfl rfl (fun hx => hx), ?_⟩
            · intro j m hj
              rcases get_set (List.getElem?_eq_some_iff.1 hi).1 j m hj with ⟨rfl, rfl⟩ | ⟨_, hj⟩
              · exact (q'.links j l hi).change rfl rfl hstr (fun hx => hx)
              · exact q'.links j m hj
            · intro j m hj
              rcases get_set (List.getElem?_eq_some_iff.1 hi).1 j m hj with ⟨rfl, rfl⟩ | ⟨_, hj⟩
              · exact q'.prods j l hi
              · exact q'.prods j m hj
            · exact h.subs_keep (fun _ _ hx => by cases hx) (links_set hi rfl rfl)
          · rename_i hgone
            obtain ⟨u, p1, p2, p3⟩ := h.prods i l hi
            rw [ht] at p1
            injection p1 with p1
            subst p1
            have hT := Model.Track.inv_reach (h.nodes _ t ht)
            have hst : Track.step t (.insert 1 g) = match Model.Track.insertGroup t g with
                | none => (.panic, t)
                | some (b, s') => (.inserted b, s') := by
              simp only [Model.Track.step, p3 hgone]
              rw [if_neg (by omega)]
              cases Model.Track.insertGroup t g <;> rfl
            have harr : Spec.arrived (i + 1) [(Op.arrive i k, Out.offered g (Track.step t (.insert 1 g)).1)]
                = [g] := by simp [Spec.arrived]
            have hprod : (Track.step t (.insert 1 g)).2.producers = t.producers := by
              rw [hst]
              rcases Model.Track.insertGroup_cases t g with ⟨_, e⟩ | ⟨_, _, e⟩ | ⟨_, _, e⟩ <;> rw [e]
            refine h.fill (top := .insert 1 g) hi ht ?_ (fun _ => rfl) ?_ (fun _ _ hx => by cases hx)
              (fun _ => rfl) rfl rfl hstr rfl ?_ ?_ ?_ (by rw [hprod]; exact p2)
              (by rw [hprod]; exact p3)
            · intro m
              simp only [nodeTrace, List.filterMap_cons, List.filterMap_nil]
              by_cases hm : i + 1 = m <;> simp [hm]
            · intro m hm
              simp only [Spec.arrived, List.filterMap_cons, List.filterMap_nil]
              rw [if_neg hm]
            · intro y hy
              rw [harr, List.mem_singleton] at hy
              rw [hy]; exact hmem
            · intro y hy
              rw [harr]
              rw [hst] at hy
              rcases Model.Track.insertGroup_cases t g with ⟨_, e⟩ | ⟨_, _, e⟩ | ⟨_, _, e⟩ <;>
                rw [e] at hy
              · cases hy
              · cases hy
              · simpa [accepted] using hy
            · intro hc y hy
              rw [harr, List.mem_singleton] at hy
              subst hy
              rw [closing_append] at hc
              have hc' := (Option.or_eq_none_iff.1 hc).2
              rw [hT.agrees.closed] at hc'
              rw [accepted_append]
              rcases Model.Track.insertGroup_cases t y with ⟨hx, _⟩ | ⟨_, ⟨z, hz, hle⟩, _⟩ | ⟨_, _, e⟩
              · rw [hc'] at hx; cases hx
              · refine ⟨z, List.mem_append_left _ ?_, hle⟩
                exact List.mem_of_getLast? (by rw [hT.agrees.latest]; exact hz)
              · refine ⟨y, List.mem_append_right _ ?_, Nat.le_refl _⟩
                rw [hst, e]
                simp [accepted]
      · exact q
  | close i r =>
    simp only [Tree.step]
    split
    · exact q
    · rename_i l hi
      split
      · rename_i t ht hph
        obtain ⟨u, p1, p2, p3⟩ := h.prods i l hi
        rw [ht] at p1
        injection p1 with p1
        subst p1
        have hst : Track.step t (Subs.closeOp r) =
            (.ok, { t with
              producers := t.producers.put 0 none
              closed := some (match r with
                | .ok _ => .ok ()
                | .error e => .error (Transfer.abortWith e)) }) := by
          cases r <;> simp only [Subs.closeOp, Model.Track.step, p2 hph]
        refine h.fill (top := Subs.closeOp r) hi ht ?_ (fun _ => rfl) (fun _ _ => rfl)
          (fun _ _ hx => by cases hx) (fun _ => by cases r <;> rfl) rfl rfl rfl rfl ?_ ?_ ?_ ?_ ?_
        · intro m
          rw [hst]
          simp only [nodeTrace, List.filterMap_cons, List.filterMap_nil]
          by_cases hm : i + 1 = m <;> simp [hm]
        · intro g hg; cases hg
        · intro g hg
          rw [hst] at hg
          cases r <;> cases hg
        · intro _ g hg; cases hg
        · intro hx; cases hx
        · intro _
          rw [hst]
          dsimp only
          rw [Slots.get_put_ne _ (by decide)]
          exact p3 (by rw [hph]; decide)
      · exact q
  | remove i =>
    simp only [Tree.step]
    split
    · exact q
    · rename_i l hi
      split
      · rename_i t ht hph
        obtain ⟨u, p1, p2, p3⟩ := h.prods i l hi
        rw [ht] at p1
        injection p1 with p1
        subst p1
        have hst : Track.step t (.dropProducer 1) =
            (.ok, { t with producers := t.producers.put 1 none }) := by
          simp only [Model.Track.step, p3 (by rw [hph]; decide)]
        refine h.fill (top := .dropProducer 1) hi ht ?_ (fun _ => rfl) (fun _ _ => rfl)
          (fun _ _ hx => by cases hx) (fun _ => rfl) rfl rfl rfl rfl ?_ ?_ ?_ ?_ ?_
        · intro m
          rw [hst]
          simp only [nodeTrace, List.filterMap_cons, List.filterMap_nil]
          by_cases hm : i + 1 = m <;> simp [hm]
        · intro g hg; cases hg
        · intro g hg
          rw [hst] at hg
          cases hg
        · intro _ g hg; cases hg
        · intro hx; cases hx
        · intro hx; exact absurd rfl hx
      · exact q

theorem inv_init : Inv [] init := by
  refine ⟨?_, rfl, fun _ _ => ⟨rfl, rfl, rfl⟩, ?_, ?_, ?_, ?_⟩
  · intro n t hn
    match n, hn with
    | 0, hn => cases hn; exact .init
  · intro i l hl; cases hl
  · intro i l hl; cases hl
  · intro i j l m _ hl; cases hl
  · intro n how i c hm; cases hm

theorem inv_reach {tr : Trace} {s : State} (h : machine.Reach tr s) : Inv tr s :=
  Machine.Reach.induct (M := machine) (P := fun tr s => Inv tr s) inv_init
    (fun _ _ op _ ih => ih.step op) h

end Verif.Session.Tree
