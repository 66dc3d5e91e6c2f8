import Verif.Relay.WebLemmas
import Verif.Relay.Auth
import Verif.Props.Origin
import Verif.Props.Relay

/-!
# Properties of the HTTP requests: C77 (`/announced`), C78 (`/fetch`) and C79 (access)
-/

set_option autoImplicit false

namespace Verif.Props.Web

open Verif Verif.Relay Verif.Relay.Web Verif.Relay.Web.Spec
open Verif.Model.Origin (Path)
open Verif.Model.Origin.Spec (under available)

/-! ## C77: the list of broadcasts -/

section listing

variable {t₁ t₂ : Trace} {s : State} {p c : Nat} {pre : Path} {order : List (Path × Nat)}
  {op op' : Model.Origin.Op} {o : Model.Origin.Out} {l₀ : Option (List Path)} {l : List Path}

theorem listed (h : machine.Reach (t₁ ++ (.request p pre order, .did op (.handle c) l₀) :: t₂) s)
    (hl : (step s .turn).1 = .did op' o (some l)) :
    ∃ d, l = (under pre order ++ d).map (·.1) ∧ d <+: under pre (begun (calls t₂)) := by
  obtain ⟨rfl, q, k, hq, rfl, hk⟩ := loop_reach h rfl
  have hc : calls (t₁ ++ (.request p pre order,
      .did (.consumePrefix p pre order) (.handle q.c) l₀) :: t₂) =
      calls t₁ ++ (.consumePrefix p pre order, .handle q.c) :: calls t₂ := by
    rw [calls_append]; rfl
  obtain ⟨-, hs⟩ := since_reach (reach_calls h) hc
  have hpre := Verif.Props.Origin.c34_prefix (reach_calls h) hs.clean
  have hexp : Model.Origin.Spec.expected (calls (t₁ ++ (.request p pre order,
      .did (.consumePrefix p pre order) (.handle q.c) l₀) :: t₂)) q.c = _ := hs.expected
  rw [hexp] at hpre
  have hf : under pre order <+: Model.Origin.Spec.delivered (calls (t₁ ++ (.request p pre order,
      .did (.consumePrefix p pre order) (.handle q.c) l₀) :: t₂)) q.c ∧ l = q.got := by
    have hf := hk.first
    revert hl
    cases hp : q.phase with
    | checking =>
      simp only [step, hq, hp]
      split <;> intro hl <;> cases hl
    | polling =>
      rw [hp] at hf
      simp only [step, hq, hp]
      split <;> intro hl <;> cases hl
      exact ⟨hf, rfl⟩
    | leaving =>
      rw [hp] at hf
      simp only [step, hq, hp]
      intro hl
      cases hl
      exact ⟨hf, rfl⟩
    | done => simp [step, hq, hp]
  obtain ⟨⟨d, hd⟩, rfl⟩ := hf
  rw [← hd, List.prefix_append_right_inj] at hpre
  exact ⟨d, by rw [hk.got, hd], hpre⟩

theorem start (h : machine.Reach (t₁ ++ (.request p pre order, .did op (.handle c) l₀) :: t₂) s) :
    (order.map (·.1)).Nodup ∧
      ∀ path bc, (path, bc) ∈ order ↔ available (calls t₁) path = some bc := by
  obtain ⟨rfl, -⟩ := loop_reach h rfl
  have hr := reach_calls h
  rw [calls_append] at hr
  have hr' : Model.Origin.machine.Reach
      (calls t₁ ++ (.consumePrefix p pre order, .handle c) :: calls t₂) s.o := hr
  have key : ∀ {tr : Model.Origin.Spec.Trace} {s : Model.Origin.State},
      Model.Origin.machine.Reach tr s → ∀ {a b : Model.Origin.Spec.Trace}
        {e : Model.Origin.Op × Model.Origin.Out}, tr = a ++ e :: b →
        ∃ s', Model.Origin.machine.Reach a s' ∧ e.2 = (Model.Origin.step s' e.1).1 := by
    intro tr s h
    refine Machine.Reach.induct (M := Model.Origin.machine) (P := fun tr s =>
      ∀ {a b : Model.Origin.Spec.Trace} {e : Model.Origin.Op × Model.Origin.Out}, tr = a ++ e :: b →
        ∃ s', Model.Origin.machine.Reach a s' ∧ e.2 = (Model.Origin.step s' e.1).1) ?_ ?_ h
    · intro a b e he
      simp at he
    · intro tr s op hr ih a b e he
      rcases snoc_cases he with ⟨rfl, rfl, rfl⟩ | ⟨b', rfl, rfl⟩
      · exact ⟨s, hr, rfl⟩
      · exact ih rfl
  obtain ⟨s', hs', ho⟩ := key hr' rfl
  exact Verif.Props.Origin.c34_start hs' ho.symm

/-- **C77, complete.**  Every broadcast below the prefix that was available when the request came
is listed, without the prefix. -/
theorem c77_complete
    (h : machine.Reach (t₁ ++ (.request p pre order, .did op (.handle c) l₀) :: t₂) s)
    (hl : (step s .turn).1 = .did op' o (some l)) {suffix : Path} {bc : Nat}
    (ha : available (calls t₁) (pre ++ suffix) = some bc) : suffix ∈ l := by
  obtain ⟨d, rfl, -⟩ := listed h hl
  refine List.mem_map.2 ⟨(suffix, bc), List.mem_append_left _ ?_, rfl⟩
  exact Model.Origin.mem_under.2 (((start h).2 _ _).2 ha)

/-- **C77, sound.**  Every listed path is, with the prefix, one that was available when the
request came or one whose publication began since. -/
theorem c77_sound
    (h : machine.Reach (t₁ ++ (.request p pre order, .did op (.handle c) l₀) :: t₂) s)
    (hl : (step s .turn).1 = .did op' o (some l)) {suffix : Path} (hm : suffix ∈ l) :
    (∃ bc, available (calls t₁) (pre ++ suffix) = some bc) ∨
      ∃ bc, (pre ++ suffix, bc) ∈ begun (calls t₂) := by
  obtain ⟨d, rfl, hd⟩ := listed h hl
  obtain ⟨⟨x, bc⟩, hm', rfl⟩ := List.mem_map.1 hm
  rcases List.mem_append.1 hm' with hm | hm
  · exact .inl ⟨bc, ((start h).2 _ _).1 (Model.Origin.mem_under.1 hm)⟩
  · exact .inr ⟨bc, Model.Origin.mem_under.1 (hd.subset hm)⟩

/-- **C77, once.**  If no publication begins in the meantime, no path is listed twice. -/
theorem c77_once
    (h : machine.Reach (t₁ ++ (.request p pre order, .did op (.handle c) l₀) :: t₂) s)
    (hl : (step s .turn).1 = .did op' o (some l)) (hb : begun (calls t₂) = []) : l.Nodup := by
  obtain ⟨d, rfl, hd⟩ := listed h hl
  rw [hb] at hd
  have : d = [] := List.prefix_nil.1 hd
  subst this
  rw [List.append_nil]
  have hn := (start h).1
  clear h hl hd hb
  induction order with
  | nil => simp [under]
  | cons e order ih =>
    obtain ⟨path, bc⟩ := e
    simp only [List.map_cons, List.nodup_cons] at hn
    have ih := ih hn.2
    have happ := Model.Origin.under_append pre [(path, bc)] order
    rw [show (path, bc) :: order = [(path, bc)] ++ order from rfl, happ]
    cases hw : Model.Origin.Spec.without pre path with
    | none => simpa [under, hw] using ih
    | some suffix =>
      have hone : under pre [(path, bc)] = [(suffix, bc)] := by simp [under, hw]
      rw [hone]
      simp only [List.singleton_append, List.map_cons, List.nodup_cons]
      refine ⟨fun hm => hn.1 ?_, ih⟩
      obtain ⟨⟨x, b⟩, hm', rfl⟩ := List.mem_map.1 hm
      have := Model.Origin.mem_under.1 hm'
      rw [Model.Origin.without_eq_some.1 hw]
      exact List.mem_map.2 ⟨_, this, rfl⟩

theorem done_step {s : State} {op : Op} {q : Req} (hq : (step s op).2.req = some q)
    (hd : q.phase = .done) :
    (∃ q₀, s.req = some q₀ ∧ q₀.phase = .done) ∨
      op = .turn ∧ ∃ a b l, (step s op).1 = .did a b (some l) := by
  cases op with
  | other op =>
    simp only [step] at hq
    split at hq <;> exact .inl ⟨q, hq, hd⟩
  | request p pre order =>
    cases hs : s.req with
    | some q' =>
      simp only [step, hs] at hq
      exact .inl ⟨q, by simpa [hs] using hq, hd⟩
    | none =>
      simp only [step, hs] at hq
      split at hq
      · cases hq
        cases hd
      · simp at hq
  | turn =>
    cases hs : s.req with
    | none =>
      simp only [step, hs] at hq
      cases hq
    | some q' =>
      cases hp : q'.phase with
      | checking =>
        simp only [step, hs, hp] at hq
        split at hq
        · injection hq with hq
          subst hq
          cases hd
        · injection hq with hq
          subst hq
          cases hd
        · injection hq with hq
          subst hq
          rw [hp] at hd
          cases hd
      | polling =>
        simp only [step, hs, hp] at hq ⊢
        split at hq
        · injection hq with hq
          subst hq
          cases hd
        · rename_i he
          exact .inr ⟨trivial, _, _, _, rfl⟩
        · injection hq with hq
          subst hq
          cases hd
      | leaving =>
        simp only [step, hs, hp]
        exact .inr ⟨trivial, _, _, _, rfl⟩
      | done => exact .inl ⟨q', rfl, hp⟩

theorem done_listed {tr : Trace} {s : State} (h : machine.Reach tr s) {q : Req}
    (hq : s.req = some q) (hd : q.phase = .done) :
    ∃ op o l, (Op.turn, Out.did op o (some l)) ∈ tr := by
  revert q
  refine Machine.Reach.induct (M := machine) (P := fun tr s => ∀ {q : Req}, s.req = some q →
    q.phase = .done → ∃ op o l, (Op.turn, Out.did op o (some l)) ∈ tr) ?_ ?_ h
  · intro q hq
    cases hq
  · intro tr s op hr ih q hq hd
    rcases done_step hq hd with ⟨q₀, h1, h2⟩ | ⟨rfl, a, b, l, h1⟩
    · obtain ⟨a, b, c, hm⟩ := ih h1 h2
      exact ⟨a, b, c, List.mem_append_left _ hm⟩
    · refine ⟨a, b, l, List.mem_append_right _ (List.mem_singleton.2 ?_)⟩
      exact congrArg (Prod.mk Op.turn) h1.symm

/-- How far the loop is from its end. -/
def distance (q : Req) (k : Model.Origin.Cons) : Nat :=
  k.updates.length + (if k.token then 10 else 0) +
    match q.phase with
    | .checking => 3
    | .polling => 2
    | .leaving => 1
    | .done => 0

theorem closer {tr : Model.Origin.Spec.Trace} {s : State} {q : Req} {first : List (Path × Nat)}
    {k : Model.Origin.Cons} (hq : s.req = some q) (h : Loop tr s.o q first k)
    (hn : q.phase ≠ .done) {q' : Req} {k' : Model.Origin.Cons}
    (hq' : (step s .turn).2.req = some q')
    (hk' : (step s .turn).2.o.consumers.get q'.c = some k') : distance q' k' < distance q k := by
  have hk := h.get
  have hph := h.phase
  revert hq' hk'
  cases hp : q.phase with
  | checking =>
    rw [hp] at hph
    simp only at hph
    cases hu : k.updates with
    | nil =>
      simp only [step, hq, hp, Model.Origin.step, hk, hph, hu, if_true]
      intro hq' hk'
      cases hq'
      rw [Slots.get_put_self _ hk] at hk'
      cases hk'
      simp [distance, hp, hu]
    | cons e rest =>
      simp only [step, hq, hp, Model.Origin.step, hk, hph, hu, if_true]
      intro hq' hk'
      cases hq'
      rw [Slots.get_put_self _ hk] at hk'
      cases hk'
      simp [distance, hp, hu]
  | polling =>
    rw [hp] at hph
    simp only at hph
    by_cases ht : k.token
    · simp only [step, hq, hp, Model.Origin.step, hk, hph, ht, if_true]
      intro hq' hk'
      cases hq'
      rw [Slots.get_put_self _ hk] at hk'
      cases hk'
      simp [distance, hp, ht]
    · by_cases ha : (s.o.alive && decide (q.c ∈ s.o.entries)) = true
      · simp only [step, hq, hp, Model.Origin.step, hk, hph, ht, ha, if_true, if_false,
          Bool.false_eq_true]
        intro hq' hk'
        cases hq'
        rw [hk] at hk'
        cases hk'
        simp [distance, hp, ht]
      · simp only [step, hq, hp, Model.Origin.step, hk, hph, ht, ha, if_true, if_false,
          Bool.false_eq_true]
        intro hq' hk'
        cases hq'
        rw [Slots.get_put_self _ hk] at hk'
        cases hk'
        simp [distance, hp, ht]
  | leaving =>
    rw [hp] at hph
    simp only at hph
    simp only [step, hq, hp, Model.Origin.step, hk, hph, if_true]
    intro hq' hk'
    cases hq'
    rw [Slots.get_put_self _ hk] at hk'
    cases hk'
    simp [distance, hp]
  | done => exact absurd hp hn

/-- **C77, progress.**  The loop does not wait for anything: if it runs alone for a while, the
response is there. -/
theorem c77_progress
    (h : machine.Reach (t₁ ++ (.request p pre order, .did op (.handle c) l₀) :: t₂) s) :
    ∃ n op' o l, (Op.turn, Out.did op' o (some l)) ∈
      (t₁ ++ (.request p pre order, .did op (.handle c) l₀) :: t₂) ++
        (machine.runFrom s (List.replicate n .turn)).1 := by
  obtain ⟨-, q, k, hq, -, hk⟩ := loop_reach h rfl
  generalize hn : distance q k = n
  induction n using Nat.strongRecOn generalizing t₂ s q k with
  | ind n ih =>
    by_cases hd : q.phase = .done
    · obtain ⟨a, b, c, hm⟩ := done_listed h hq hd
      exact ⟨0, a, b, c, List.mem_append_left _ hm⟩
    · have hr := Machine.Reach.step (M := machine) .turn h
      rw [List.append_assoc, List.cons_append] at hr
      obtain ⟨-, q', k', hq', -, hk'⟩ := loop_reach hr rfl
      have hlt := closer hq hk hd hq' hk'.get
      obtain ⟨m, a, b, l, hm⟩ := ih _ (hn ▸ hlt) hr q' k' hq' hk' rfl
      refine ⟨m + 1, a, b, l, ?_⟩
      rw [List.replicate_succ]
      simpa [Machine.runFrom] using hm

end listing

/-- `x/a` and `y` are available, `x/b` is published while the list is made. -/
def listOps : List Op :=
  [.other (.publishStart 0 ['x', '/', 'a'] 1), .other .publishStep,
   .other (.publishStart 0 ['y'] 2), .other .publishStep,
   .request 0 ['x', '/'] [(['y'], 2), (['x', '/', 'a'], 1)], .turn,
   .other (.publishStart 0 ['x', '/', 'b'] 3), .other .publishStep, .turn, .turn, .other .publishStep,
   .other .publishStep, .turn, .turn, .turn, .turn]

example : (machine.run listOps).1.map (·.2) =
    [.did (.publishStart 0 ['x', '/', 'a'] 1) .ok none,
     .did .publishStep (.published ['x', '/', 'a'] 1 true) none,
     .did (.publishStart 0 ['y'] 2) .ok none, .did .publishStep (.published ['y'] 2 true) none,
     .did (.consumePrefix 0 ['x', '/'] [(['y'], 2), (['x', '/', 'a'], 1)]) (.handle 0) none,
     .did (.check 0) (.item ['a'] 1) none, .did (.publishStart 0 ['x', '/', 'b'] 3) .ok none,
     .did .publishStep .pending none, .did (.check 0) (.item ['b'] 3) none,
     .did (.check 0) .empty none, .did .publishStep .pending none,
     .did .publishStep (.published ['x', '/', 'b'] 3 true) none,
     .did (.recv 0) .woken none, .did (.check 0) .empty none, .did (.recv 0) .pending none,
     .did (.cancel 0) .ok (some [['a'], ['b']])] := by
  decide +kernel

/-! ### The text of the response -/

theorem lines_split {ls : List Path} {s : Path} (h : Lines ls s) : split '\n' s = ls := by
  induction h with
  | one w hw => exact split_of_not_mem hw
  | more w hw _ ih => rw [split_append hw, ih]

theorem lines_join {ls : List Path} (hl : ls ≠ []) (h : ∀ w ∈ ls, '\n' ∉ w) :
    Lines ls (join '\n' ls) := by
  induction ls with
  | nil => exact absurd rfl hl
  | cons w ws ih =>
    cases ws with
    | nil => exact .one w (h w (by simp))
    | cons v vs =>
      exact .more w (h w (by simp)) (ih (by simp) fun x hx => h x (List.mem_cons_of_mem _ hx))

/-- **C77, text.**  If something is listed and no path contains a line break, the lines of the
response are exactly the paths. -/
theorem c77_text_partial {locals remotes : List Path} (hl : locals ++ remotes ≠ [])
    (h : ∀ w ∈ locals ++ remotes, '\n' ∉ w) (ls : List Path) :
    Lines ls (announcedBody locals remotes) ↔ ls = locals ++ remotes := by
  have hb := lines_join hl h
  constructor
  · intro h'
    rw [← lines_split h', announcedBody, lines_split hb]
  · rintro rfl
    exact hb

example : announcedBody [['a'], ['b']] [['c']] = ['a', '\n', 'b', '\n', 'c'] := rfl

/-- The list of a request for the prefix `pre` in an origin with these broadcasts. -/
def listOf (paths : List Path) (pre : Path) : List Out :=
  ((machine.run (paths.flatMap (fun path => [.other (.publishStart 0 path 0), .other .publishStep]) ++
    [.request 0 pre (paths.map fun path => (path, 0)), .turn, .turn, .turn, .turn, .turn])).1.map (·.2)).drop
      (2 * paths.length)

/-- **C77 fails for other paths.**  The broadcasts `a` and `b` are not distinguished from a
broadcast whose path is `a`, a line break and `b`; and a broadcast whose path is the prefix is not
distinguished from no broadcast. -/
theorem c77_ambiguous :
    (.did (.cancel 0) .ok (some [['a'], ['b']]) ∈ listOf [['a'], ['b']] [] ∧
     .did (.cancel 0) .ok (some [['a', '\n', 'b']]) ∈ listOf [['a', '\n', 'b']] [] ∧
     announcedBody [['a'], ['b']] [] = announcedBody [['a', '\n', 'b']] []) ∧
    (.did (.cancel 0) .ok (some [[]]) ∈ listOf [['x']] ['x'] ∧
     .did (.cancel 0) .ok (some []) ∈ listOf [] ['x'] ∧
     announcedBody [[]] [] = announcedBody [] []) := by
  decide +kernel

/-! ## C78: fetching a group -/

/-- **C78, path.**  The last piece of the path is the track, everything before it is the
broadcast; a path of one piece is refused, without any other effect. -/
theorem c78_path (l r : Model.Origin.State) (next : Nat → Path → Next) (path : Path) :
    (serveFetch l r next path = .badRequest ↔ '/' ∉ path) ∧
      ∀ broadcast track, path = broadcast ++ '/' :: track → '/' ∉ track →
        fetchPath path = some (broadcast, track) := by
  constructor
  · constructor
    · intro h
      rw [← fetchPath_none]
      cases hf : fetchPath path with
      | none => rfl
      | some bt =>
        obtain ⟨b, t⟩ := bt
        simp only [serveFetch, hf] at h
        split at h <;> (try split at h) <;> cases h
    · intro h
      simp [serveFetch, fetchPath_none.2 h]
  · intro b t h1 h2
    exact fetchPath_some.2 ⟨h1, h2⟩

/-- **C78, response.**  If no publication is in progress, the response is the first group of the
track of the broadcast available under the path, locally if there is one, else remotely; and
"not found" if there is none or the track has no group. -/
theorem c78_response {tl trr : Model.Origin.Spec.Trace} {l r : Model.Origin.State}
    (hl : Model.Origin.machine.Reach tl l) (hr : Model.Origin.machine.Reach trr r)
    (al : Model.Origin.Spec.ProducerAlive tl 0) (ar : Model.Origin.Spec.ProducerAlive trr 0)
    (pl : ¬ Model.Origin.Spec.Publishing tl) (pr : ¬ Model.Origin.Spec.Publishing trr)
    (next : Nat → Path → Next) {broadcast track : Path} (ht : '/' ∉ track) :
    serveFetch l r next (broadcast ++ '/' :: track) =
      match (available tl broadcast).or (available trr broadcast) with
      | none => .notFound
      | some bc =>
        match next bc track with
        | .group g => .group g
        | .ended => .notFound
        | .failed => .internalError
        | .waits => .waits := by
  simp only [serveFetch, fetchPath_some.2 ⟨rfl, ht⟩,
    Verif.Props.Relay.c56_get hl hr al ar pl pr broadcast]
  cases available tl broadcast with
  | some bc => rfl
  | none => cases available trr broadcast <;> rfl

example :
    let l := (Model.Origin.machine.run [.publishStart 0 ['a', '/', 'b'] 1, .publishStep]).2
    let r := (Model.Origin.machine.run [.publishStart 0 ['c'] 2, .publishStep]).2
    let next := fun bc track => if bc = 1 ∧ track = ['t'] then Next.group 7 else .ended
    serveFetch l r next ['a', '/', 'b', '/', 't'] = .group 7 ∧
    serveFetch l r next ['c', '/', 't'] = .notFound ∧
    serveFetch l r next ['d', '/', 't'] = .notFound ∧
    serveFetch l r next ['c'] = .badRequest := by
  decide +kernel

/-! ## C79: access -/

/-- **C79 fails.**  A relay with a key for everything: a session for the directory `d` is refused
without a token, whatever the keys; but the groups of the broadcast `d/b` are handed out over HTTP,
and its path is listed, without any. -/
theorem c79_open (verify : Token.Key → Token.Text → Except Token.Error Token.Payload)
    (key : Token.Key) :
    Auth.validate verify ⟨some key, []⟩ ['/', 'd', '/'] = .tokenRequired ∧
    (let l := (Model.Origin.machine.run [.publishStart 0 ['d', '/', 'b'] 1, .publishStep]).2
     serveFetch l Model.Origin.init (fun _ _ => .group 7) ['d', '/', 'b', '/', 't'] = .group 7) ∧
    .did (.cancel 0) .ok (some [['b']]) ∈ listOf [['d', '/', 'b']] ['d', '/'] :=
  ⟨rfl, by decide +kernel, by decide +kernel⟩

end Verif.Props.Web
