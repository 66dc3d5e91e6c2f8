import Verif.Relay.ConnectionLemmas
import Verif.Relay.Cluster
import Verif.Props.Origin
import Verif.Props.Auth

/-!
# Properties C55 and C56: what a session may see and publish, and the cluster
-/

set_option autoImplicit false

namespace Verif.Props.Relay

open Verif Verif.Relay Verif.Relay.Token
open Verif.Model.Origin (Path)
open Verif.Model.Origin.Spec (ConsumerAlive ProducerAlive Publishing Clean prefixOf delivered expected
  available)

/-! ## C55: confinement -/

section Confinement

open Verif.Relay.Connection Verif.Relay.Connection.Spec

variable {p : Payload} {tr : Trace} {s : State}

theorem published_iff {tr : Trace} {w : Where} {path : Path} {bc : Nat} :
    Published tr w path bc ↔ ∃ q, (Model.Origin.Op.publishStart q path bc, Model.Origin.Out.ok) ∈ sub w tr := by
  constructor
  · rintro ⟨op, q, hm⟩
    exact ⟨q, List.mem_filterMap.2 ⟨_, hm, by simp⟩⟩
  · rintro ⟨q, hm⟩
    obtain ⟨⟨op, o⟩, he, hx⟩ := List.mem_filterMap.1 hm
    split at hx
    · rename_i heq
      split at hx
      · rename_i hw
        subst hw
        injection hx with hx
        injection hx with h1 h2
        subst h1 h2
        injection heq with h1 h2
        subst h2
        exact ⟨op, q, he⟩
      · cases hx
    · cases hx

/-- A publication by a task stems from one in the origin it reads from. -/
theorem source {k : Nat} {t : Task} (h : (machine p).Reach tr s) (hk : s.tasks[k]? = some t)
    {path : Path} {bc : Nat} (hm : (path, bc) ∈ putBy k tr) :
    ∃ suffix, path = t.pre ++ suffix ∧
      Published tr t.src (prefixOf (sub t.src tr) t.c ++ suffix) bc := by
  have ht := (inv_reach h).tasks k t hk
  have hm : (path, bc) ∈ (delivered (sub t.src tr) t.c).map (Model.Origin.repath t.pre) := by
    rw [← ht.flow]; exact List.mem_append_left _ hm
  obtain ⟨⟨suffix, b⟩, hd, he⟩ := List.mem_map.1 hm
  injection he with h1 h2
  subst h1 h2
  exact ⟨suffix, rfl, published_iff.2 (Origin.c35_prefix (origins_reach h t.src) hd)⟩

/-- **C55, publishing.**  Everything a connection publishes for its peer in the relay is published
in `locals`.  Either the grant allows to publish under a prefix, the path is the granted path
followed by this prefix and something more, and the peer announced the broadcast; or it is the one
path that the grant says is published anyway. -/
theorem c55_publish (h : (machine p).Reach tr s) {w : Where} {path : Path} {bc : Nat}
    (ho : OwnPublished tr w path bc) (hw : w ≠ .session) :
    w = .locals ∧
      ((∃ pub rest, p.publish = some pub ∧ path = p.path ++ pub ++ rest ∧
          Published tr .feed (pub ++ rest) bc) ∨
        ∃ f, p.publishForce = some f ∧ path = p.path ++ f) := by
  rcases (inv_reach h).own w path bc ho with ⟨k, t, hk, hd, hm⟩ | ⟨hl, hf⟩
  · obtain ⟨suffix, hp, hsrc⟩ := source h hk hm
    rcases ((inv_reach h).tasks k t hk).grant with ⟨g1, -⟩ | ⟨g1, g2, g3, g4⟩
    · exact absurd (hd.symm.trans g1) hw
    · refine ⟨hd.symm.trans g1, .inl ⟨_, suffix, g3, ?_, ?_⟩⟩
      · rw [hp, g4]
      · rw [g2] at hsrc ⊢; exact hsrc
  · exact ⟨hl, .inr hf⟩

/-- **C55, no publishing without a grant.** -/
theorem c55_no_publish (h : (machine p).Reach tr s) (h1 : p.publish = none)
    (h2 : p.publishForce = none) {w : Where} {path : Path} {bc : Nat} (hw : w ≠ .session) :
    ¬ OwnPublished tr w path bc := by
  intro ho
  rcases (c55_publish h ho hw).2 with ⟨pub, rest, hp, -⟩ | ⟨f, hp, -⟩
  · rw [h1] at hp; cases hp
  · rw [h2] at hp; cases hp

/-- Everything in the origin of the session was published in the relay, under the same path with
the granted path in front, and the path begins with the granted prefix. -/
theorem session_source (h : (machine p).Reach tr s) {path : Path} {bc : Nat}
    (hp : Published tr .session path bc) :
    ∃ pre, p.subscribe = some pre ∧ pre <+: path ∧
      (Published tr .locals (p.path ++ path) bc ∨ Published tr .remotes (p.path ++ path) bc) := by
  rcases (inv_reach h).own _ path bc ((inv_reach h).session path bc hp) with ⟨k, t, hk, hd, hm⟩ | ⟨hl, -⟩
  · obtain ⟨suffix, hpath, hsrc⟩ := source h hk hm
    rcases ((inv_reach h).tasks k t hk).grant with ⟨-, g2, g3, g4⟩ | ⟨g1, -⟩
    · refine ⟨t.pre, g3, ⟨suffix, hpath.symm⟩, ?_⟩
      rw [g4, List.append_assoc, ← hpath] at hsrc
      rcases g2 with g2 | g2 <;> rw [g2] at hsrc
      · exact .inl hsrc
      · exact .inr hsrc
    · rw [hd] at g1; cases g1
  · cases hl

/-- **C55, announcements.**  Every announcement to the peer is for a broadcast of the relay whose
path is the granted path followed by what the peer sees, which begins with the granted prefix. -/
theorem c55_announced (h : (machine p).Reach tr s) {c : Nat} {suffix : Path} {bc : Nat}
    (hd : (suffix, bc) ∈ delivered (sub .session tr) c) :
    ∃ pre, p.subscribe = some pre ∧ pre <+: prefixOf (sub .session tr) c ++ suffix ∧
      (Published tr .locals (p.path ++ (prefixOf (sub .session tr) c ++ suffix)) bc ∨
        Published tr .remotes (p.path ++ (prefixOf (sub .session tr) c ++ suffix)) bc) :=
  session_source h (published_iff.2 (Origin.c35_prefix (origins_reach h .session) hd))

/-- **C55, subscribing.**  Every broadcast that a request of the peer finds is one of the relay
whose path is the granted path followed by the requested one, which begins with the granted
prefix. -/
theorem c55_subscribe (h : (machine p).Reach tr s) {q : Nat} {path : Path} {bc : Nat}
    (hf : (Model.Origin.step (s.origin .session) (.lookup q path)).1 = .found bc) :
    ∃ pre, p.subscribe = some pre ∧ pre <+: path ∧
      (Published tr .locals (p.path ++ path) bc ∨ Published tr .remotes (p.path ++ path) bc) := by
  refine session_source h (published_iff.2 ?_)
  have hr := origins_reach h .session
  have hact := (Model.Origin.active_reach hr)
  revert hf
  simp only [Model.Origin.step]
  (repeat' split) <;> intro hf <;> try cases hf
  rename_i hg
  refine (Model.Origin.origins_reach hr).active path bc ?_
  unfold Model.Origin.get at hg
  obtain ⟨⟨x, y⟩, he, hb⟩ := Option.map_eq_some_iff.1 hg
  have h1 := List.mem_of_find?_eq_some he
  have h2 := List.find?_some he
  simp only [beq_iff_eq] at h2 hb
  subst h2 hb
  exact h1

/-- **C55, nothing to see without a grant.** -/
theorem c55_no_subscribe (h : (machine p).Reach tr s) (hn : p.subscribe = none) :
    (∀ c, delivered (sub .session tr) c = []) ∧
    ∀ q path bc, (Model.Origin.step (s.origin .session) (.lookup q path)).1 ≠ .found bc := by
  constructor
  · intro c
    cases hd : delivered (sub .session tr) c with
    | nil => rfl
    | cons e l =>
      obtain ⟨pre, hp, -⟩ := c55_announced h (c := c) (suffix := e.1) (bc := e.2)
        (by rw [hd]; exact List.mem_cons_self)
      rw [hn] at hp; cases hp
  · intro q path bc hf
    obtain ⟨pre, hp, -⟩ := c55_subscribe h hf
    rw [hn] at hp; cases hp

/-- **C55, everything granted is shown.**  When a task that shows an origin of the relay to the
peer has caught up, it has published every broadcast of that origin below the granted path and
prefix in the origin of the session, in order. -/
theorem c55_shown (h : (machine p).Reach tr s) {k : Nat} {t : Task} (hk : s.tasks[k]? = some t)
    (hh : t.held = none) (hc : Clean (sub t.src tr) t.c) (ha : ConsumerAlive (sub t.src tr) t.c)
    (hp : ¬ Publishing (sub t.src tr))
    (he : (Model.Origin.step (s.origin t.src) (.check t.c)).1 = .empty) :
    putBy k tr = (expected (sub t.src tr) t.c).map fun e => (t.pre ++ e.1, e.2) := by
  have ht := (inv_reach h).tasks k t hk
  have hf := ht.flow
  rw [hh] at hf
  simp only [Option.toList_none, List.append_nil] at hf
  rw [hf, Origin.c34_complete (origins_reach h t.src) hc ha hp he]
  rfl

/-- **C55, the tasks.**  After `run` has executed its statements, both origins of the relay are
shown if the grant allows to subscribe, and the announcements of the peer are accepted if it allows
to publish. -/
theorem c55_tasks (h : (machine p).Reach tr s) (hd : s.todo = []) :
    (∀ pre, p.subscribe = some pre →
      ∃ (k₁ k₂ : Nat) (t₁ t₂ : Task), s.tasks[k₁]? = some t₁ ∧ s.tasks[k₂]? = some t₂ ∧
        t₁.src = .locals ∧ t₂.src = .remotes ∧
        t₁.dst = .session ∧ t₂.dst = .session ∧ t₁.pre = pre ∧ t₂.pre = pre ∧
        prefixOf (sub .locals tr) t₁.c = p.path ++ pre ∧
        prefixOf (sub .remotes tr) t₂.c = p.path ++ pre) ∧
    (∀ pub, p.publish = some pub →
      ∃ (k : Nat) (t : Task), s.tasks[k]? = some t ∧ t.src = .feed ∧ t.dst = .locals ∧
        t.pre = p.path ++ pub ∧ prefixOf (sub .feed tr) t.c = pub) ∧
    (∀ f, p.publishForce = some f → ∃ bc, OwnPublished tr .locals (p.path ++ f) bc) := by
  -- every statement that was executed has left its trace
  have key : ∃ d, program p = d ++ s.todo ∧ ∀ st ∈ d,
      match st with
      | .show src full pre => ∃ (k : Nat) (t : Task), s.tasks[k]? = some t ∧ t.src = src ∧
          t.dst = .session ∧ t.pre = pre ∧ prefixOf (sub src tr) t.c = full
      | .accept pre full => ∃ (k : Nat) (t : Task), s.tasks[k]? = some t ∧ t.src = .feed ∧
          t.dst = .locals ∧ t.pre = full ∧ prefixOf (sub .feed tr) t.c = pre
      | .force full => ∃ bc, OwnPublished tr .locals full bc := by
    clear hd
    refine Machine.Reach.induct (M := machine p) (P := fun tr s => ∃ d, program p = d ++ s.todo ∧
      ∀ st ∈ d,
      match st with
      | .show src full pre => ∃ (k : Nat) (t : Task), s.tasks[k]? = some t ∧ t.src = src ∧
          t.dst = .session ∧ t.pre = pre ∧ prefixOf (sub src tr) t.c = full
      | .accept pre full => ∃ (k : Nat) (t : Task), s.tasks[k]? = some t ∧ t.src = .feed ∧
          t.dst = .locals ∧ t.pre = full ∧ prefixOf (sub .feed tr) t.c = pre
      | .force full => ∃ bc, OwnPublished tr .locals full bc) ⟨[], rfl, by simp⟩ ?_ h
    intro tr s op hr ⟨d, hd, hall⟩
    show ∃ d, program p = d ++ (step s op).2.todo ∧ ∀ st ∈ d, _
    -- tasks are kept
    have hkeep : ∀ (k : Nat) (t : Task), s.tasks[k]? = some t →
        ∃ t', (step s op).2.tasks[k]? = some t' ∧ t'.src = t.src ∧ t'.c = t.c ∧ t'.dst = t.dst ∧
          t'.pre = t.pre := by
      intro k t hk
      have hlt := (List.getElem?_eq_some_iff.1 hk).1
      have same : ∀ s' : State, s'.tasks = s.tasks →
          ∃ t', s'.tasks[k]? = some t' ∧ t'.src = t.src ∧ t'.c = t.c ∧ t'.dst = t.dst ∧
            t'.pre = t.pre := fun s' h => ⟨t, by rw [h]; exact hk, rfl, rfl, rfl, rfl⟩
      have push : ∀ u : Task, ∀ s' : State, s'.tasks = s.tasks ++ [u] →
          ∃ t', s'.tasks[k]? = some t' ∧ t'.src = t.src ∧ t'.c = t.c ∧ t'.dst = t.dst ∧
            t'.pre = t.pre := fun u s' h =>
        ⟨t, by rw [h, List.getElem?_append_left hlt]; exact hk, rfl, rfl, rfl, rfl⟩
      have upd : ∀ (j : Nat) (u u' : Task), s.tasks[j]? = some u →
          ∀ s' : State, s'.tasks = s.tasks.set j u' → u'.src = u.src → u'.c = u.c →
          u'.dst = u.dst → u'.pre = u.pre →
          ∃ t', s'.tasks[k]? = some t' ∧ t'.src = t.src ∧ t'.c = t.c ∧ t'.dst = t.dst ∧
            t'.pre = t.pre := by
        intro j u u' hj s' hs' h1 h2 h3 h4
        rw [hs']
        by_cases hjk : j = k
        · subst hjk
          rw [hk] at hj
          injection hj with hj
          subst hj
          exact ⟨u', List.getElem?_set_self hlt, h1, h2, h3, h4⟩
        · exact ⟨t, by rw [List.getElem?_set_ne hjk]; exact hk, rfl, rfl, rfl, rfl⟩
      cases op with
      | take j =>
        cases hj : s.tasks[j]? with
        | none => simp only [step, hj]; exact same _ rfl
        | some u =>
          simp only [step, hj]
          (repeat' split) <;>
            first
            | exact same _ rfl
            | exact upd j u _ hj _ rfl rfl rfl rfl rfl
      | wait j =>
        cases hj : s.tasks[j]? with
        | none => simp only [step, hj]; exact same _ rfl
        | some u =>
          simp only [step, hj]
          (repeat' split) <;>
            first
            | exact same _ rfl
            | exact upd j u _ hj _ rfl rfl rfl rfl rfl
      | put j q =>
        cases hj : s.tasks[j]? with
        | none => simp only [step, hj]; exact same _ rfl
        | some u =>
          simp only [step, hj]
          (repeat' split) <;>
            first
            | exact same _ rfl
            | exact upd j u _ hj _ rfl rfl rfl rfl rfl
      | other w o =>
        simp only [step]
        (repeat' split) <;> exact same _ rfl
      | run q order bc =>
        simp only [step]
        (repeat' split) <;>
          first
          | exact same _ rfl
          | exact push _ _ rfl
    have hold : ∀ st ∈ d,
        match st with
        | .show src full pre => ∃ (k : Nat) (t : Task), (step s op).2.tasks[k]? = some t ∧ t.src = src ∧
            t.dst = .session ∧ t.pre = pre ∧ prefixOf (sub src (tr ++ [(op, (step s op).1)])) t.c = full
        | .accept pre full => ∃ (k : Nat) (t : Task), (step s op).2.tasks[k]? = some t ∧ t.src = .feed ∧
            t.dst = .locals ∧ t.pre = full ∧
            prefixOf (sub .feed (tr ++ [(op, (step s op).1)])) t.c = pre
        | .force full => ∃ bc, OwnPublished (tr ++ [(op, (step s op).1)]) .locals full bc := by
      intro st hst
      have := hall st hst
      cases st with
      | «show» src full pre =>
        obtain ⟨k, t, hk, h1, h2, h3, h4⟩ := this
        obtain ⟨t', hk', g1, g2, g3, g4⟩ := hkeep k t hk
        refine ⟨k, t', hk', g1.trans h1, g3.trans h2, g4.trans h3, ?_⟩
        have hm := ((inv_reach hr).tasks k t hk).made
        rw [h1] at hm
        rw [g2, (consumer_step hr op hm).2.1]
        exact h4
      | accept pre full =>
        obtain ⟨k, t, hk, h1, h2, h3, h4⟩ := this
        obtain ⟨t', hk', g1, g2, g3, g4⟩ := hkeep k t hk
        refine ⟨k, t', hk', g1.trans h1, g3.trans h2, g4.trans h3, ?_⟩
        have hm := ((inv_reach hr).tasks k t hk).made
        rw [h1] at hm
        rw [g2, (consumer_step hr op hm).2.1]
        exact h4
      | force full =>
        obtain ⟨bc, hb⟩ := this
        exact ⟨bc, ownPublished_snoc.2 (.inl hb)⟩
    by_cases htd : (step s op).2.todo = s.todo
    · exact ⟨d, by rw [htd]; exact hd, hold⟩
    -- a statement was executed
    have hInv := inv_step hr (inv_reach hr) op
    have hnew : ∃ st, s.todo = st :: (step s op).2.todo ∧
        match st with
        | .show src full pre => ∃ (k : Nat) (t : Task), (step s op).2.tasks[k]? = some t ∧ t.src = src ∧
            t.dst = .session ∧ t.pre = pre ∧ prefixOf (sub src (tr ++ [(op, (step s op).1)])) t.c = full
        | .accept pre full => ∃ (k : Nat) (t : Task), (step s op).2.tasks[k]? = some t ∧ t.src = .feed ∧
            t.dst = .locals ∧ t.pre = full ∧
            prefixOf (sub .feed (tr ++ [(op, (step s op).1)])) t.c = pre
        | .force full => ∃ bc, OwnPublished (tr ++ [(op, (step s op).1)]) .locals full bc := by
      cases op with
      | run q order bc =>
        cases htodo : s.todo with
        | nil => rw [htodo] at htd; simp [step, htodo] at htd
        | cons st rest =>
          cases st with
          | «show» src full pre =>
            by_cases hc : ∃ c, (Model.Origin.step (s.origin src) (.consumePrefix q full order)).1 = .handle c
            · obtain ⟨c, hc⟩ := hc
              obtain ⟨-, n2, -, -⟩ := consumePrefix_new (origins_reach hr src) hc
              refine ⟨.show src full pre, ?_, ?_⟩
              · simp only [step, htodo, State.act, hc]
              · refine ⟨s.tasks.length, ⟨src, c, .session, pre, none, false⟩, ?_, rfl, rfl, rfl, ?_⟩
                · simp only [step, htodo, State.act, hc]
                  rw [List.getElem?_append_right (Nat.le_refl _)]
                  simp
                · simp only [step, htodo, State.act, hc]
                  rw [sub_snoc_did, if_pos rfl]
                  exact n2
            · exfalso
              apply htd
              simp only [step, htodo, State.act]
              split
              · rename_i _ _ _ c he
                injection he with _ _ he
                exact absurd ⟨c, he⟩ hc
              · exact htodo
          | accept pre full =>
            by_cases hc : ∃ c, (Model.Origin.step (s.origin .feed) (.consumePrefix q pre order)).1 = .handle c
            · obtain ⟨c, hc⟩ := hc
              obtain ⟨-, n2, -, -⟩ := consumePrefix_new (origins_reach hr .feed) hc
              refine ⟨.accept pre full, ?_, ?_⟩
              · simp only [step, htodo, State.act, hc]
              · refine ⟨s.tasks.length, ⟨.feed, c, .locals, full, none, false⟩, ?_, rfl, rfl, rfl, ?_⟩
                · simp only [step, htodo, State.act, hc]
                  rw [List.getElem?_append_right (Nat.le_refl _)]
                  simp
                · simp only [step, htodo, State.act, hc]
                  rw [sub_snoc_did, if_pos rfl]
                  exact n2
            · exfalso
              apply htd
              simp only [step, htodo, State.act]
              split
              · rename_i _ _ _ c he
                injection he with _ _ he
                exact absurd ⟨c, he⟩ hc
              · exact htodo
          | force full =>
            by_cases hc : (Model.Origin.step (s.origin .locals) (.publishStart q full bc)).1 = .ok
            · refine ⟨.force full, ?_, ⟨bc, ownPublished_snoc.2 (.inr ⟨trivial, q, ?_⟩)⟩⟩ <;>
                simp only [step, htodo, State.act, hc]
            · exfalso
              apply htd
              simp only [step, htodo, State.act]
              split
              · rename_i he
                injection he with _ _ he
                exact absurd he hc
              · exact htodo
      | other w o =>
        exfalso; apply htd
        simp only [step]
        split <;> rfl
      | take k =>
        exfalso; apply htd
        simp only [step]
        (repeat' split) <;> rfl
      | wait k =>
        exfalso; apply htd
        simp only [step]
        (repeat' split) <;> rfl
      | put k q =>
        exfalso; apply htd
        simp only [step]
        (repeat' split) <;> rfl
    obtain ⟨st, hst, hdid⟩ := hnew
    refine ⟨d ++ [st], by rw [hd, hst]; simp, ?_⟩
    intro st' hm
    rcases List.mem_append.1 hm with hm | hm
    · exact hold st' hm
    · rw [List.mem_singleton] at hm
      subst hm
      exact hdid
  obtain ⟨d, hprog, hall⟩ := key
  rw [hd, List.append_nil] at hprog
  subst hprog
  refine ⟨?_, ?_, ?_⟩
  · intro pre hp
    obtain ⟨k₁, t₁, h1, h2, h3, h4, h5⟩ := hall (.show .locals (p.path ++ pre) pre)
      (by simp [program, hp])
    obtain ⟨k₂, t₂, g1, g2, g3, g4, g5⟩ := hall (.show .remotes (p.path ++ pre) pre)
      (by simp [program, hp])
    exact ⟨k₁, k₂, t₁, t₂, h1, g1, h2, g2, h3, g3, h4, g4, h5, g5⟩
  · intro pub hp
    obtain ⟨k, t, h1, h2, h3, h4, h5⟩ := hall (.accept pub (p.path ++ pub)) (by simp [program, hp])
    exact ⟨k, t, h1, h2, h3, h4, h5⟩
  · intro f hp
    exact hall (.force (p.path ++ f)) (by simp [program, hp])

/-- A grant for `d`, subscribing below `a`, publishing below `b`, and `f` forced.  Somebody else
has published `da1` and `x`; the peer announces `b2` and `c`. -/
def sample : List Op :=
  [.other .locals (.publishStart 0 ['d', 'a', '1'] 1), .other .locals .publishStep,
   .other .locals (.publishStart 0 ['x'] 2), .other .locals .publishStep,
   .run 0 [(['x'], 2), (['d', 'a', '1'], 1)] 0, .run 0 [] 0, .run 0 [] 0, .run 0 [] 9,
   .other .locals .publishStep, .other .locals .publishStep, .other .locals .publishStep,
   .take 0, .put 0 0, .other .session .publishStep,
   .other .feed (.publishStart 0 ['b', '2'] 5), .other .feed .publishStep,
   .other .feed .publishStep, .other .feed .publishStep,
   .other .feed (.publishStart 0 ['c'] 6), .other .feed .publishStep, .other .feed .publishStep,
   .take 2, .put 2 0, .take 2, .take 0]

/-- The grant. -/
def grant : Payload :=
  { path := ['d'], subscribe := some ['a'], publish := some ['b'], publishForce := some ['f'] }

example :
    let r := (machine grant).run sample
    r.2.todo = [] ∧ putBy 0 r.1 = [(['a', '1'], 1)] ∧ putBy 2 r.1 = [(['d', 'b', '2'], 5)] ∧
    Model.Origin.Spec.published (sub .locals r.1) =
      [(['d', 'a', '1'], 1), (['x'], 2), (['d', 'f'], 9)] ∧
    (Model.Origin.step (r.2.origin .session) (.lookup 0 ['a', '1'])).1 = .found 1 ∧
    (Model.Origin.step (r.2.origin .session) (.lookup 0 ['x'])).1 = .notFound ∧
    (r.1.map (·.2)).drop 21 =
      [.did .feed (.check 0) (.item ['2'] 5), .did .locals (.publishStart 0 ['d', 'b', '2'] 5) .ok,
       .did .feed (.check 0) .empty, .did .locals (.check 0) .empty] := by
  decide +kernel

end Confinement

/-! ## C56: lookup in a relay, and the cluster -/

section Cluster

open Verif.Relay.Cluster

/-- **C56, lookup.**  If no publication is in progress, `get` returns what `locals` has under the
path, else what `remotes` has, else nothing. -/
theorem c56_get {tl trr : Model.Origin.Spec.Trace} {l r : Model.Origin.State}
    (hl : Model.Origin.machine.Reach tl l) (hr : Model.Origin.machine.Reach trr r)
    (al : ProducerAlive tl 0) (ar : ProducerAlive trr 0) (pl : ¬ Publishing tl)
    (pr : ¬ Publishing trr) (path : Path) :
    Cluster.get l r path =
      match available tl path, available trr path with
      | some bc, _ => .local bc
      | none, some bc => .remote bc
      | none, none => .none := by
  unfold Cluster.get
  rw [Origin.lookup_available hl al pl, Origin.lookup_available hr ar pr]
  cases available tl path with
  | some bc => rfl
  | none => cases available trr path <;> rfl

/-- The hosts a relay has tried to connect to. -/
def connects (tr : List (Op × Out)) : List Text :=
  tr.filterMap fun
    | (_, .connect host _) => some host
    | _ => none

/-- The relays that were announced to it, with the announcement. -/
def discovered (tr : List (Op × Out)) : List (Text × Nat) :=
  tr.filterMap fun
    | (.next (some e), .spawned _) => some e
    | (.next (some e), .skipped) => some e
    | _ => none

variable {c : Config} {tr : List (Op × Out)} {s : State}

structure Inv (c : Config) (tr : List (Op × Out)) (s : State) : Prop where
  remotes : ∀ (k : Nat) (t : Remote), s.remotes[k]? = some t →
    some t.node ≠ c.advertise ∧ (t.node, t.bc) ∈ discovered tr
  connects : ∀ host ∈ connects tr, c.root = some host ∨
    some host ≠ c.advertise ∧ ∃ bc, (host, bc) ∈ discovered tr
  found : ∀ e ∈ discovered tr, some e.1 = c.advertise ∨
    ∃ (k : Nat) (t : Remote), s.remotes[k]? = some t ∧ t.node = e.1 ∧ t.bc = e.2

theorem inv_reach (h : (machine c).Reach tr s) : Inv c tr s := by
  refine Machine.Reach.induct (M := machine c) (P := fun tr s => Inv c tr s) ?_ ?_ h
  · refine ⟨?_, ?_, ?_⟩
    · intro k t hk; simp [init] at hk
    · intro host hm; cases hm
    · intro e hm; cases hm
  clear h
  intro tr s op _ h
  show Inv c (tr ++ [(op, (step c s op).1)]) (step c s op).2
  have dsnoc : ∀ e, discovered (tr ++ [e]) = discovered tr ++ discovered [e] := by
    intro e; simp [discovered]
  have csnoc : ∀ e, connects (tr ++ [e]) = connects tr ++ connects [e] := by
    intro e; simp [connects]
  -- tasks keep node and announcement, nothing is discovered, and every connection is explained
  have keep : ∀ (o : Out) (s' : State),
      (∀ (k : Nat) (t : Remote), s'.remotes[k]? = some t →
        ∃ u, s.remotes[k]? = some u ∧ t.node = u.node ∧ t.bc = u.bc) →
      (∀ (k : Nat) (u : Remote), s.remotes[k]? = some u →
        ∃ t, s'.remotes[k]? = some t ∧ t.node = u.node ∧ t.bc = u.bc) →
      discovered [(op, o)] = [] →
      (∀ host ∈ connects [(op, o)], c.root = some host ∨
        ∃ (k : Nat) (u : Remote), s.remotes[k]? = some u ∧ u.node = host) →
      Inv c (tr ++ [(op, o)]) s' := by
    intro o s' h1 h1' h2 h3
    refine ⟨?_, ?_, ?_⟩
    · intro k t hk
      obtain ⟨u, hu, e1, e2⟩ := h1 k t hk
      obtain ⟨g1, g2⟩ := h.remotes k u hu
      rw [e1, e2, dsnoc, h2, List.append_nil]
      exact ⟨g1, g2⟩
    · intro host hm
      rw [csnoc] at hm
      rw [dsnoc, h2, List.append_nil]
      rcases List.mem_append.1 hm with hm | hm
      · exact h.connects host hm
      · rcases h3 host hm with h3 | ⟨k, u, hu, rfl⟩
        · exact .inl h3
        · obtain ⟨g1, g2⟩ := h.remotes k u hu
          exact .inr ⟨g1, _, g2⟩
    · intro e hm
      rw [dsnoc, h2, List.append_nil] at hm
      rcases h.found e hm with hf | ⟨k, t, hk, e1, e2⟩
      · exact .inl hf
      · obtain ⟨t', hk', g1, g2⟩ := h1' k t hk
        exact .inr ⟨k, t', hk', g1.trans e1, g2.trans e2⟩
  have same : ∀ (o : Out) (s' : State), s'.remotes = s.remotes → discovered [(op, o)] = [] →
      (∀ host ∈ connects [(op, o)], c.root = some host ∨
        ∃ (k : Nat) (u : Remote), s.remotes[k]? = some u ∧ u.node = host) →
      Inv c (tr ++ [(op, o)]) s' := by
    intro o s' h1 h2 h3
    refine keep o s' ?_ ?_ h2 h3
    · intro k t hk; rw [h1] at hk; exact ⟨t, hk, rfl, rfl⟩
    · intro k u hk; rw [← h1] at hk; exact ⟨u, hk, rfl, rfl⟩
  have upd : ∀ (o : Out) (s' : State) (k : Nat) (t t' : Remote), s.remotes[k]? = some t →
      s'.remotes = s.remotes.set k t' → t'.node = t.node → t'.bc = t.bc → discovered [(op, o)] = [] →
      (∀ host ∈ connects [(op, o)], c.root = some host ∨
        ∃ (k : Nat) (u : Remote), s.remotes[k]? = some u ∧ u.node = host) →
      Inv c (tr ++ [(op, o)]) s' := by
    intro o s' k t t' hk h1 e1 e2 h2 h3
    have hlt := (List.getElem?_eq_some_iff.1 hk).1
    refine keep o s' ?_ ?_ h2 h3
    · intro j u hj
      rw [h1] at hj
      by_cases hjk : k = j
      · subst hjk
        rw [List.getElem?_set_self hlt] at hj
        injection hj with hj
        subst hj
        exact ⟨t, hk, e1, e2⟩
      · rw [List.getElem?_set_ne hjk] at hj
        exact ⟨u, hj, rfl, rfl⟩
    · intro j u hj
      rw [h1]
      by_cases hjk : k = j
      · subst hjk
        rw [hk] at hj
        injection hj with hj
        subst hj
        exact ⟨t', List.getElem?_set_self hlt, e1, e2⟩
      · exact ⟨u, by rw [List.getElem?_set_ne hjk]; exact hj, rfl, rfl⟩
  cases op with
  | start =>
    simp only [step]
    (repeat' split) <;> refine same _ _ rfl rfl ?_
    · rename_i host hh
      intro x hx
      simp only [connects, List.filterMap_cons, List.filterMap_nil, List.mem_singleton] at hx
      subst hx
      exact .inl hh
    · intro x hx; cases hx
    · intro x hx; cases hx
  | rooted ok =>
    simp only [step]
    (repeat' split) <;> refine same _ _ rfl rfl ?_ <;> (intro x hx; cases hx)
  | next item =>
    simp only [step]
    split
    · split
      · refine same _ _ rfl rfl ?_; intro x hx; cases hx
      · rename_i node bc
        split
        · rename_i heq
          refine ⟨?_, ?_, ?_⟩
          · intro k t hk
            obtain ⟨g1, g2⟩ := h.remotes k t hk
            exact ⟨g1, by rw [dsnoc]; exact List.mem_append_left _ g2⟩
          · intro host hm
            rw [csnoc] at hm
            rcases List.mem_append.1 hm with hm | hm
            · rcases h.connects host hm with hc | ⟨g1, b, g2⟩
              · exact .inl hc
              · exact .inr ⟨g1, b, by rw [dsnoc]; exact List.mem_append_left _ g2⟩
            · cases hm
          · intro e hm
            rw [dsnoc] at hm
            rcases List.mem_append.1 hm with hm | hm
            · exact h.found e hm
            · simp only [discovered, List.filterMap_cons, List.filterMap_nil, List.mem_singleton] at hm
              subst hm
              exact .inl heq
        · rename_i hne
          refine ⟨?_, ?_, ?_⟩
          · intro k t hk
            simp only at hk
            rcases Nat.lt_or_ge k s.remotes.length with hlt | hge
            · rw [List.getElem?_append_left hlt] at hk
              obtain ⟨g1, g2⟩ := h.remotes k t hk
              exact ⟨g1, by rw [dsnoc]; exact List.mem_append_left _ g2⟩
            · rw [List.getElem?_append_right hge] at hk
              cases hkk : k - s.remotes.length with
              | zero =>
                rw [hkk] at hk
                injection hk with hk
                subst hk
                exact ⟨hne, by rw [dsnoc]; exact List.mem_append_right _ (List.mem_singleton.2 rfl)⟩
              | succ n => rw [hkk] at hk; cases hk
          · intro host hm
            rw [csnoc] at hm
            rcases List.mem_append.1 hm with hm | hm
            · rcases h.connects host hm with hc | ⟨g1, b, g2⟩
              · exact .inl hc
              · exact .inr ⟨g1, b, by rw [dsnoc]; exact List.mem_append_left _ g2⟩
            · cases hm
          · intro e hm
            rw [dsnoc] at hm
            rcases List.mem_append.1 hm with hm | hm
            · rcases h.found e hm with hf | ⟨k, t, hk, e1, e2⟩
              · exact .inl hf
              · refine .inr ⟨k, t, ?_, e1, e2⟩
                simp only
                rw [List.getElem?_append_left (List.getElem?_eq_some_iff.1 hk).1]
                exact hk
            · simp only [discovered, List.filterMap_cons, List.filterMap_nil, List.mem_singleton] at hm
              subst hm
              refine .inr ⟨s.remotes.length, ⟨node, bc, .head⟩, ?_, rfl, rfl⟩
              simp only
              rw [List.getElem?_append_right (Nat.le_refl _)]
              simp
    · refine same _ _ rfl (by cases item <;> rfl) ?_; intro x hx; cases item <;> cases hx
  | close bc =>
    refine same _ _ rfl rfl ?_; intro x hx; cases hx
  | poll k =>
    simp only [step]
    split
    · refine same _ _ rfl rfl ?_; intro x hx; cases hx
    · rename_i t hk
      split
      · refine same _ _ rfl rfl ?_; intro x hx; cases hx
      · refine upd _ _ k t _ hk rfl rfl rfl rfl ?_; intro x hx; cases hx
      · split
        · refine upd _ _ k t _ hk rfl rfl rfl rfl ?_; intro x hx; cases hx
        · refine upd _ _ k t _ hk rfl rfl rfl rfl ?_
          intro x hx
          simp only [connects, List.filterMap_cons, List.filterMap_nil, List.mem_singleton] at hx
          exact .inr ⟨k, t, hk, hx.symm⟩
      · split
        · refine upd _ _ k t _ hk rfl rfl rfl rfl ?_; intro x hx; cases hx
        · refine same _ _ rfl rfl ?_; intro x hx; cases hx
  | failed k =>
    simp only [step]
    split
    · refine same _ _ rfl rfl ?_; intro x hx; cases hx
    · rename_i t hk
      split
      · refine upd _ _ k t _ hk rfl rfl rfl rfl ?_; intro x hx; cases hx
      · refine same _ _ rfl rfl ?_; intro x hx; cases hx

/-- **C56, no connection to itself.**  A relay never connects to the host it advertises. -/
theorem c56_not_itself (h : (machine c).Reach tr s) {host : Text} (hm : host ∈ connects tr) :
    c.advertise ≠ some host := by
  intro he
  rcases (inv_reach h).connects host hm with hr | ⟨hn, -⟩
  · unfold Config.root at hr
    split at hr
    · split at hr
      · rename_i hne
        injection hr with hr
        subst hr
        exact hne he.symm
      · cases hr
    · cases hr
  · exact hn he.symm

/-- **C56, only known hosts.**  A relay connects only to the configured root and to relays that
were announced to it. -/
theorem c56_known (h : (machine c).Reach tr s) {host : Text} (hm : host ∈ connects tr) :
    c.connect = some host ∨ ∃ bc, (host, bc) ∈ discovered tr := by
  rcases (inv_reach h).connects host hm with hr | ⟨-, hd⟩
  · unfold Config.root at hr
    split at hr
    · rename_i hc
      split at hr
      · injection hr with hr; subst hr; exact .inl hc
      · cases hr
    · cases hr
  · exact .inr hd

/-- **C56, every other relay.**  For every announced relay other than itself there is a task; as
long as the announcement stands the task connects to the relay, again and again whenever the
connection ends, and afterwards it ends. -/
theorem c56_connects (h : (machine c).Reach tr s) {host : Text} {bc : Nat}
    (hm : (host, bc) ∈ discovered tr) (hn : c.advertise ≠ some host) :
    ∃ (k : Nat) (t : Remote), s.remotes[k]? = some t ∧ t.node = host ∧ t.bc = bc ∧
      (t.phase = .head → bc ∉ s.closed → (step c s (.poll k)).1 = .connect host c.path) ∧
      (t.phase = .head ∨ t.phase = .once → bc ∈ s.closed → (step c s (.poll k)).1 = .ended) ∧
      (t.phase = .once → bc ∉ s.closed →
        ((machine c).runFrom s [.failed k, .poll k, .poll k]).1.map (·.2) =
          [.ok, .ok, .connect host c.path]) := by
  rcases (inv_reach h).found _ hm with hf | ⟨k, t, hk, rfl, rfl⟩
  · exact absurd hf.symm hn
  · have hlt := (List.getElem?_eq_some_iff.1 hk).1
    refine ⟨k, t, hk, rfl, rfl, ?_, ?_, ?_⟩
    · intro hp hc
      simp only [step, hk, hp]
      rw [if_neg hc]
    · rintro (hp | hp) hc <;>
      · simp only [step, hk, hp]
        rw [if_pos hc]
    · intro hp hc
      have e1 : step c s (.failed k) =
          (.ok, { s with remotes := s.remotes.set k { t with phase := .sleeping } }) := by
        simp only [step, hk, hp, if_true]
      simp only [Machine.runFrom, e1]
      have e2 : step c { s with remotes := s.remotes.set k { t with phase := .sleeping } } (.poll k) =
          (.ok, { s with remotes := s.remotes.set k { t with phase := .head } }) := by
        simp only [step, List.getElem?_set_self hlt, List.set_set]
      simp only [e2]
      have e3 : (step c { s with remotes := s.remotes.set k { t with phase := .head } } (.poll k)).1 =
          .connect t.node c.path := by
        simp only [step, List.getElem?_set_self hlt]
        rw [if_neg hc]
      simp [e3]

/-- **C56, relays find each other.**  Two relays with the same prefix, connected to a root: the path
that one announces is the prefix that the other asks for, followed by the advertised name, so that
this name is what the other is told. -/
theorem c56_peers {c₁ c₂ : Config} {s₁ s₂ : State} (hp : c₁.pre = c₂.pre) {path pre pre₁ : Text}
    {path₂ : Option Text}
    (h₁ : (step c₁ s₁ (.rooted true)).1 = .announced (some path) pre₁)
    (h₂ : (step c₂ s₂ (.rooted true)).1 = .announced path₂ pre) :
    ∃ name, c₁.advertise = some name ∧ path = pre ++ name ∧
      ∃ dir, pre = dir ++ ['/'] ∧ ∀ d, c₂.pre = some d → dir = d := by
  simp only [step, if_true] at h₁ h₂
  split at h₁
  · cases h₁
  split at h₂
  · cases h₂
  simp only [Out.announced.injEq] at h₁ h₂
  obtain ⟨h₁, -⟩ := h₁
  obtain ⟨-, rfl⟩ := h₂
  cases ha : c₁.advertise with
  | none => rw [ha] at h₁; cases h₁
  | some name =>
    rw [ha] at h₁
    injection h₁ with h₁
    refine ⟨name, rfl, ?_, c₂.dir, rfl, ?_⟩
    · rw [← h₁]
      simp [Config.dir, hp]
    · intro d hd
      simp [Config.dir, hd]

/-- **C56, relays are admitted.**  A relay connects with a path that another relay admits, if the key
of the other relay applies, exactly if this key verifies the configured token, and for what the token
says.  Without a token it connects to the path of everything. -/
theorem c56_admitted (h : (machine c).Reach tr s) {op : Op} {host path : Text}
    (hm : (op, Out.connect host path) ∈ tr) :
    (c.token = none → path = []) ∧
    ∀ token, c.token = some token → '/' ∉ token →
      ∀ (verify : Token.Key → Text → Except Token.Error Token.Payload) (a : Auth.Auth) (key : Token.Key)
        (p : Token.Payload), Props.Auth.Table a → Props.Auth.Applies a [] (some key) →
        (Auth.validate verify a ('/' :: path) = .ok p ↔ verify key token = .ok p) := by
  have hpath : path = c.path := by
    refine Machine.Reach.induct (M := machine c)
      (P := fun tr _ => ∀ op host path, (op, Out.connect host path) ∈ tr → path = c.path) ?_ ?_ h
      op host path hm
    · intro _ _ _ hx; cases hx
    · intro tr s op' _ ih op host path hm
      rcases List.mem_append.1 hm with hm | hm
      · exact ih op host path hm
      · have hm := List.mem_singleton.1 hm
        injection hm with h1 h2
        subst h1
        change Out.connect host path = (step c s op).1 at h2
        cases op <;> simp only [step] at h2 <;> repeat' split at h2
        all_goals first | cases h2; done | (cases h2; rfl)
  subst hpath
  refine ⟨fun ht => by simp [Config.path, ht], fun token ht hs verify a key p ha hk => ?_⟩
  have hp : c.path = token ++ ['.', 'j', 'w', 't'] := by
    simp [Config.path, ht]
  have hs' : '/' ∉ token ++ ['.', 'j', 'w', 't'] := by
    intro hx
    rcases List.mem_append.1 hx with hx | hx
    · exact hs hx
    · revert hx; decide
  have h1 : Props.Auth.Trimmed ('/' :: c.path) c.path := by
    refine ⟨1, rfl, fun hx => ?_⟩
    rw [hp] at hx
    exact hs' (List.mem_of_head? hx)
  have h2 : Props.Auth.Located c.path [] c.path := ⟨hp ▸ hs', .inr ⟨rfl, rfl⟩⟩
  rw [Props.Auth.validate_parts ha h1 h2 hk]
  have hst : Auth.stripSuffix Auth.extension c.path = some token := Verif.Relay.Auth.stripSuffix_some.2 hp
  simp only [Props.Auth.answer, hst]
  cases hv : verify key token with
  | error e => exact iff_of_false (fun hx => by cases hx) (fun hx => by cases hx)
  | ok q => simp

/-- A leaf that advertises itself as `b` and connects to the root `r`. -/
def leaf : Config := ⟨some ['r'], some ['t'], some ['b'], none⟩

example :
    let r := (machine leaf).run [.start, .rooted true, .next (some (['b'], 0)), .next (some (['e'], 1)),
      .poll 0, .failed 0, .poll 0, .poll 0, .close 1, .poll 0]
    connects r.1 = [['r'], ['e'], ['e']] ∧ discovered r.1 = [(['b'], 0), (['e'], 1)] ∧
    r.1.map (·.2) =
      [.connect ['r'] ['t', '.', 'j', 'w', 't'],
       .announced (some ("internal/origins/b".toList)) ("internal/origins/".toList),
       .skipped, .spawned 0, .connect ['e'] ['t', '.', 'j', 'w', 't'], .ok, .ok,
       .connect ['e'] ['t', '.', 'j', 'w', 't'], .ok, .ended] := by
  decide +kernel

example :
    let l := (Model.Origin.machine.run [.publishStart 0 ['a'] 1, .publishStep])
    let r := (Model.Origin.machine.run [.publishStart 0 ['a'] 2, .publishStep, .publishStart 0 ['b'] 3,
      .publishStep])
    Cluster.get l.2 r.2 ['a'] = .local 1 ∧ Cluster.get l.2 r.2 ['b'] = .remote 3 ∧
    Cluster.get l.2 r.2 ['c'] = .none ∧
    available l.1 ['a'] = some 1 ∧ (Model.Origin.Spec.book l.1).publishing = false := by
  decide +kernel

end Cluster

end Verif.Props.Relay
