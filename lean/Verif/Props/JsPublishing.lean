import Verif.Js.Publishing

/-!
# C129: publishing from the browser

Whether the broadcast is to be published, and the publications that have not been taken back, are taken from the history.
-/

set_option autoImplicit false

namespace Verif.Props.JsPublishing

open Verif Verif.Js Verif.Js.Publishing

/-! ## Specification -/

structure Hist where
  enabled : Bool
  conn : Option Nat
  path : Str
  closed : Bool
  /-- how many connections there have been -/
  count : Nat
  /-- the publications that have not been taken back: connection, path, consumer -/
  pending : List (Nat × Str × Nat)
  /-- the last publication -/
  last : Option (Nat × Str × Nat)
  /-- a path was published on a connection before a former publication there was taken back -/
  clash : Bool
  deriving DecidableEq

/-- What was asked for. -/
def ask (h : Hist) (op : Op) : Hist :=
  match op with
  | .setEnabled b => { h with enabled := b }
  | .setPath p => { h with path := p }
  | .connection true => { h with conn := some h.count, count := h.count + 1 }
  | .connection false => { h with conn := none }
  | .close => { h with closed := true }
  | _ => h

def see (h : Hist) (e : Op × Out) : Hist :=
  let h := ask h e.1
  match e.2 with
  | .publish c p b =>
    { h with pending := h.pending ++ [(c, p, b)], last := some (c, p, b),
             clash := h.clash || h.pending.any fun x => x.1 == c && x.2.1 == p }
  | .ended c p b => { h with pending := h.pending.filter fun x => x ≠ (c, p, b) }
  | _ => h

def hist (tr : Trace) : Hist := tr.foldl see ⟨false, none, [], false, 0, [], none, false⟩

theorem hist_snoc (tr : Trace) (e : Op × Out) : hist (tr ++ [e]) = see (hist tr) e := by simp [hist]

/-- Where the broadcast is to be published. -/
def wanted (h : Hist) : Option (Nat × Str) := if h.enabled && !h.closed then h.conn.map fun c => (c, h.path) else none

/-! ## Invariant -/

structure Inv (h : Hist) (s : State) : Prop where
  enabled : h.enabled = s.enabled
  conn : h.conn = s.established
  path : h.path = s.path
  closed : h.closed = s.closed
  count : h.count = s.count
  pending : ∀ (c : Nat) (p : Str) (b : Nat), (c, p, b) ∈ h.pending ↔ ∃ t : Nat, (s.conns c).tasks[t]? = some ⟨p, b, false⟩
  /-- consumers are new -/
  fresh : ∀ (c t : Nat) k, (s.conns c).tasks[t]? = some k → k.broadcast < s.made
  once : ∀ (c t t' : Nat) k k', (s.conns c).tasks[t]? = some k → (s.conns c).tasks[t']? = some k' → k.broadcast = k'.broadcast → t = t'
  over : ∀ c b, b ∈ (s.conns c).over → b < s.made
  ended : ∀ c p b, (c, p, b) ∈ h.pending → (b ∈ (s.conns c).over ↔ s.current ≠ some (c, p, b))
  found : h.clash = false → ∀ c p b, Publisher.get (s.conns c).broadcasts p = some b ↔ (c, p, b) ∈ h.pending
  current : s.current.map (fun x => (x.1, x.2.1)) = wanted h
  last : ∀ x, s.current = some x → h.last = some x ∧ x ∈ h.pending
  flag : s.published = s.current.isSome

theorem get_put (m : List (Str × Nat)) (p q : Str) (b : Nat) :
    Publisher.get (Publisher.put m p b) q = if p = q then some b else Publisher.get m q := by
  unfold Publisher.get Publisher.put Publisher.delete
  by_cases h : p = q
  · subst h; simp
  · rw [if_neg h, List.find?_cons_of_neg (by simpa using h), List.find?_filter]
    congr 2
    funext e
    by_cases he : e.1 = q
    · have : e.1 ≠ p := fun h' => h (h' ▸ he)
      simp [he]; exact fun h' => h h'.symm
    · simp [he]

theorem get_delete (m : List (Str × Nat)) (p q : Str) :
    Publisher.get (Publisher.delete m p) q = if p = q then none else Publisher.get m q := by
  unfold Publisher.get Publisher.delete
  by_cases h : p = q
  · subst h
    rw [if_pos rfl, List.find?_filter]
    simp
  · rw [if_neg h, List.find?_filter]
    congr 2
    funext e
    by_cases he : e.1 = q
    · simp [he]; exact fun h' => h h'.symm
    · simp [he]

/-- The cleanups, when what is wanted has changed to nothing. -/
theorem inv_cleanups {h h' : Hist} {s : State} (v : Inv h s) (hp : h'.pending = h.pending) (hc : h'.clash = h.clash)
    {e : Bool} {d : Option Nat} {q : Str} {k : Bool} {n : Nat} (h1 : h'.enabled = e) (h2 : h'.conn = d) (h3 : h'.path = q)
    (h4 : h'.closed = k) (h5 : h'.count = n) (hw : wanted h' = none) :
    Inv h' { cleanups s with enabled := e, established := d, path := q, closed := k, count := n } := by
  obtain ⟨_, _, _, _, _, v1, v2, v3, v4, v5, v6, v7, v8, v9⟩ := v
  unfold cleanups
  cases hcur : s.current with
  | none =>
    exact ⟨h1, h2, h3, h4, h5, by rw [hp]; exact v1, v2, v3, v4, by rw [hp]; exact v5, by rw [hp, hc]; exact v6,
      by rw [hw]; simp [hcur], fun x hx => by simp [hcur] at hx, by simpa using v9⟩
  | some x =>
    obtain ⟨c, p, b⟩ := x
    have hin := (v8 _ hcur).2
    have ht : ∀ i, (if i = c then (Publisher.step (s.conns i) (.over b)).2 else s.conns i).tasks = (s.conns i).tasks := by
      intro i; split <;> rfl
    have hg : ∀ i, (if i = c then (Publisher.step (s.conns i) (.over b)).2 else s.conns i).broadcasts = (s.conns i).broadcasts := by
      intro i; split <;> rfl
    have hov : ∀ i, (if i = c then (Publisher.step (s.conns i) (.over b)).2 else s.conns i).over =
        if i = c then b :: (s.conns i).over else (s.conns i).over := by
      intro i; split <;> rfl
    have hb : b < s.made := by
      obtain ⟨t, hk⟩ := (v1 _ _ _).1 hin
      exact v2 _ _ _ hk
    refine ⟨h1, h2, h3, h4, h5, ?_, ?_, ?_, ?_, ?_, ?_, by rw [hw]; rfl, fun x hx => (nomatch hx), rfl⟩
    · intro i; simp only [at_, ht, hp]; exact v1 i
    · intro i; simp only [at_, ht]; exact v2 i
    · intro i; simp only [at_, ht]; exact v3 i
    · intro i b' hb'
      simp only [at_, hov] at hb'
      split at hb'
      · rcases List.mem_cons.1 hb' with rfl | hb'
        · exact hb
        · exact v4 _ _ hb'
      · exact v4 _ _ hb'
    · intro i p' b' hm
      rw [hp] at hm
      simp only [at_, hov]
      have := v5 i p' b' hm
      simp only [ne_eq, reduceCtorEq, not_false_eq_true, iff_true]
      by_cases hx : (i, p', b') = (c, p, b)
      · obtain ⟨rfl, rfl, rfl⟩ : i = c ∧ p' = p ∧ b' = b := by simpa using hx
        simp
      · have := this.2 (by rw [hcur]; exact fun h => hx (Option.some.inj h).symm)
        split
        · exact List.mem_cons_of_mem _ this
        · exact this
    · intro hcl i
      rw [hc] at hcl
      simp only [at_, hg, hp]
      exact v6 hcl i

/-- The effect, after the cleanups. -/
theorem inv_body {h : Hist} {s : State} (hi : Inv { h with closed := true } { s with closed := true }) (hcl : h.closed = false)
    (hs : s.closed = false) (hcur : s.current = none) :
    Inv (match (body s).1 with
      | .publish c p b =>
        { h with pending := h.pending ++ [(c, p, b)], last := some (c, p, b),
                 clash := h.clash || h.pending.any fun x => x.1 == c && x.2.1 == p }
      | .ended c p b => { h with pending := h.pending.filter fun x => x ≠ (c, p, b) }
      | _ => h) (body s).2 := by
  obtain ⟨v01, v02, v03, _, v05, v1, v2, v3, v4, v5, v6, v7, v8, v9⟩ := hi
  dsimp only at v01 v02 v03 v05 v1 v2 v3 v4 v5 v6 v7 v8 v9
  unfold body
  by_cases he : s.enabled = true
  · rw [if_neg (by simp [he])]
    cases hc : s.established with
    | none =>
      refine ⟨v01, v02, v03, by rw [hcl, hs], v05, v1, v2, v3, v4, v5, v6, ?_, v8, v9⟩
      simp [hcur, wanted, v02, hc]
    | some c =>
      have ht : ∀ i, (if i = c then (Publisher.step (s.conns i) (.publish s.path s.made)).2 else s.conns i).tasks =
          (s.conns i).tasks ++ if i = c then [⟨s.path, s.made, false⟩] else [] := by
        intro i; split
        · rfl
        · simp
      have hg : ∀ i q, Publisher.get (if i = c then (Publisher.step (s.conns i) (.publish s.path s.made)).2 else s.conns i).broadcasts q =
          if i = c ∧ s.path = q then some s.made else Publisher.get (s.conns i).broadcasts q := by
        intro i q
        by_cases hi : i = c
        · simp only [hi, true_and]
          exact get_put _ _ _ _
        · simp [hi]
      have hov : ∀ i, (if i = c then (Publisher.step (s.conns i) (.publish s.path s.made)).2 else s.conns i).over =
          (s.conns i).over := by
        intro i; split <;> rfl
      have hnew : ∀ i q, (i, q, s.made) ∉ h.pending := by
        intro i q hm
        obtain ⟨t, hk⟩ := (v1 _ _ _).1 hm
        exact absurd (v2 _ _ _ hk) (by simp)
      have hlook : ∀ (i t : Nat) k, ((s.conns i).tasks ++ if i = c then [⟨s.path, s.made, false⟩] else [])[t]? = some k →
          (s.conns i).tasks[t]? = some k ∨ (i = c ∧ t = (s.conns i).tasks.length ∧ k = ⟨s.path, s.made, false⟩) := by
        intro i t k hk
        by_cases hlt : t < (s.conns i).tasks.length
        · rw [List.getElem?_append_left hlt] at hk
          exact .inl hk
        · rw [List.getElem?_append_right (by omega)] at hk
          split at hk
          · rename_i hi
            rw [List.getElem?_singleton] at hk
            split at hk
            · exact .inr ⟨hi, by omega, (Option.some.inj hk).symm⟩
            · cases hk
          · simp at hk
      refine ⟨v01, v02, v03, by simp [at_, hcl, hs], v05, ?_, ?_, ?_, ?_, ?_, ?_, ?_, ?_, rfl⟩
      · intro i p b
        simp only [at_, ht, List.mem_append, List.mem_singleton, Prod.mk.injEq]
        constructor
        · rintro (hm | ⟨rfl, rfl, rfl⟩)
          · obtain ⟨t, hk⟩ := (v1 _ _ _).1 hm
            exact ⟨t, by rw [List.getElem?_append_left (List.getElem?_eq_some_iff.1 hk).1]; exact hk⟩
          · exact ⟨(s.conns i).tasks.length, by simp⟩
        · rintro ⟨t, hk⟩
          rcases hlook _ _ _ hk with hk | ⟨hi, -, hk⟩
          · exact .inl ((v1 _ _ _).2 ⟨t, hk⟩)
          · simp only [Publisher.Task.mk.injEq, and_true] at hk
            exact .inr ⟨hi, hk.1, hk.2⟩
      · intro i t k hk
        simp only [at_, ht] at hk
        rcases hlook _ _ _ hk with hk | ⟨-, -, rfl⟩
        · exact Nat.lt_succ_of_lt (v2 _ _ _ hk)
        · exact Nat.lt_succ_self _
      · intro i t t' k k' hk hk' hb
        simp only [at_, ht] at hk hk'
        rcases hlook _ _ _ hk with hk | ⟨-, h1, rfl⟩ <;> rcases hlook _ _ _ hk' with hk' | ⟨-, h2, rfl⟩
        · exact v3 _ _ _ _ _ hk hk' hb
        · exact absurd (v2 _ _ _ hk) (by rw [hb]; simp)
        · exact absurd (v2 _ _ _ hk') (by rw [← hb]; simp)
        · omega
      · intro i b hb
        simp only [at_, hov] at hb
        exact Nat.lt_succ_of_lt (v4 _ _ hb)
      · intro i p b hm
        simp only [at_, hov]
        simp only [List.mem_append, List.mem_singleton] at hm
        rcases hm with hm | hm
        · have := v5 _ _ _ hm
          rw [hcur] at this
          simp only [ne_eq, reduceCtorEq, not_false_eq_true, iff_true] at this
          simp only [this, true_iff, ne_eq, Option.some.injEq, Prod.mk.injEq]
          rintro ⟨rfl, rfl, rfl⟩
          exact hnew _ _ hm
        · simp only [Prod.mk.injEq] at hm
          obtain ⟨rfl, rfl, rfl⟩ := hm
          simp only [ne_eq, not_true_eq_false, iff_false]
          exact fun hx => absurd (v4 _ _ hx) (by simp)
      · intro hcl' i p b
        simp only [Bool.or_eq_false_iff, List.any_eq_false, Bool.and_eq_true, beq_iff_eq, not_and] at hcl'
        have v6 := v6 hcl'.1
        simp only [at_, hg, List.mem_append, List.mem_singleton, Prod.mk.injEq]
        by_cases hx : i = c ∧ s.path = p
        · rw [if_pos hx]
          obtain ⟨rfl, rfl⟩ := hx
          constructor
          · intro hb; exact .inr ⟨rfl, rfl, (Option.some.inj hb).symm⟩
          · rintro (hm | ⟨-, -, rfl⟩)
            · exact absurd rfl (hcl'.2 _ hm rfl)
            · rfl
        · rw [if_neg hx, v6]
          constructor
          · exact .inl
          · rintro (hm | ⟨rfl, rfl, -⟩)
            · exact hm
            · exact absurd ⟨rfl, rfl⟩ hx
      · simp [wanted, v01, he, hcl, v02, hc, v03]
      · intro x hx
        cases hx
        exact ⟨rfl, by simp⟩
  · rw [if_pos (by simp [he])]
    refine ⟨v01, v02, v03, by rw [hcl, hs], v05, v1, v2, v3, v4, v5, v6, ?_, v8, v9⟩
    simp [hcur, wanted, v01, he]

theorem cleanups_fields (s : State) (e : Bool) (d : Option Nat) (q : Str) (n : Nat) :
    cleanups { s with enabled := e, established := d, path := q, count := n } =
      { cleanups s with enabled := e, established := d, path := q, count := n } := by
  obtain ⟨_, _, _, _, _, _, _, cur, _⟩ := s
  cases cur <;> rfl

theorem cleanups_closed (s : State) : (cleanups s).closed = s.closed ∧ (cleanups s).current = none := by
  unfold cleanups at_
  cases h : s.current <;> simp [h]

/-- A signal has changed. -/
theorem inv_rerun {h h' : Hist} {s : State} (v : Inv h s) (hp : h'.pending = h.pending) (hc : h'.clash = h.clash)
    {e : Bool} {d : Option Nat} {q : Str} {n : Nat} (h1 : h'.enabled = e) (h2 : h'.conn = d) (h3 : h'.path = q)
    (h4 : h'.closed = s.closed) (h5 : h'.count = n) :
    Inv (match (rerun { s with enabled := e, established := d, path := q, count := n }).1 with
      | .publish c p b =>
        { h' with pending := h'.pending ++ [(c, p, b)], last := some (c, p, b),
                  clash := h'.clash || h'.pending.any fun x => x.1 == c && x.2.1 == p }
      | .ended c p b => { h' with pending := h'.pending.filter fun x => x ≠ (c, p, b) }
      | _ => h') (rerun { s with enabled := e, established := d, path := q, count := n }).2 := by
  unfold rerun
  by_cases hcl : s.closed = true
  · simp only [hcl, if_true]
    have hw : s.current = none := by
      have := v.current
      rw [wanted, v.closed, hcl] at this
      simpa using this
    exact ⟨h1, h2, h3, by rw [h4, hcl], h5, by rw [hp]; exact v.pending, v.fresh, v.once, v.over, by rw [hp]; exact v.ended,
      by rw [hp, hc]; exact v.found, by simp [wanted, h4, hcl, hw], fun x hx => by simp [hw] at hx, v.flag⟩
  · rw [if_neg hcl, cleanups_fields]
    refine inv_body ?_ (by rw [h4]; simpa using hcl) (by simpa [(cleanups_closed s).1] using hcl) (cleanups_closed s).2
    exact inv_cleanups (h' := { h' with closed := true }) v hp hc h1 h2 h3 rfl h5 (by simp [wanted])

theorem inv_run {h : Hist} {s : State} (v : Inv h s) (c t : Nat) :
    Inv (see h (.run c t, (step s (.run c t)).1)) (step s (.run c t)).2 := by
  simp only [step]
  cases hk : (s.conns c).tasks[t]? with
  | none => exact v
  | some k =>
    by_cases hr : k.done = false ∧ k.broadcast ∈ (s.conns c).over
    · have hstep : Publisher.step (s.conns c) (.run t) = (.ended k.path, { s.conns c with
          broadcasts := Publisher.delete (s.conns c).broadcasts k.path
          announced := Publisher.announce (s.conns c).announced k.path false
          tasks := (s.conns c).tasks.set t { k with done := true } }) := by
        simp only [Publisher.step, hk, if_pos hr]
      simp only [hstep]
      obtain ⟨kp, kb, kd⟩ := k
      obtain ⟨rfl, ho⟩ : kd = false ∧ kb ∈ (s.conns c).over := hr
      obtain ⟨v01, v02, v03, v04, v05, v1, v2, v3, v4, v5, v6, v7, v8, v9⟩ := v
      have hin : (c, kp, kb) ∈ h.pending := (v1 _ _ _).2 ⟨t, hk⟩
      have hlt : t < (s.conns c).tasks.length := (List.getElem?_eq_some_iff.1 hk).1
      have ht : ∀ i, (at_ s c (.run t)).conns i = if i = c then { s.conns c with
          broadcasts := Publisher.delete (s.conns c).broadcasts kp
          announced := Publisher.announce (s.conns c).announced kp false
          tasks := (s.conns c).tasks.set t ⟨kp, kb, true⟩ } else s.conns i := by
        intro i
        simp only [at_]
        split
        · rename_i hi; rw [hi, hstep]
        · rfl
      refine ⟨v01, v02, v03, v04, v05, ?_, ?_, ?_, ?_, ?_, ?_, v7, ?_, v9⟩
      · intro i p b
        simp only [see, ask, List.mem_filter, decide_eq_true_eq, ne_eq, Prod.mk.injEq]
        rw [ht]
        by_cases hi : i = c
        · subst hi
          rw [if_pos rfl, v1]
          simp only [true_and]
          constructor
          · rintro ⟨⟨t', hk'⟩, hne⟩
            refine ⟨t', ?_⟩
            rw [List.getElem?_set_ne]
            · exact hk'
            · rintro rfl
              rw [hk] at hk'
              simp only [Option.some.injEq, Publisher.Task.mk.injEq, and_true] at hk'
              exact hne ⟨hk'.1.symm, hk'.2.symm⟩
          · rintro ⟨t', hk'⟩
            by_cases htt : t = t'
            · subst htt
              rw [List.getElem?_set_self hlt] at hk'
              simp at hk'
            · rw [List.getElem?_set_ne htt] at hk'
              refine ⟨⟨t', hk'⟩, ?_⟩
              rintro ⟨rfl, rfl⟩
              exact htt (v3 _ _ _ _ _ hk hk' rfl)
        · rw [if_neg hi, v1]
          simp [hi]
      · intro i t' k' hk'
        rw [ht] at hk'
        split at hk'
        · rename_i hi
          subst hi
          by_cases htt : t = t'
          · subst htt
            rw [List.getElem?_set_self hlt] at hk'
            cases hk'
            have := v2 _ _ _ hk
            exact this
          · rw [List.getElem?_set_ne htt] at hk'
            exact v2 _ _ _ hk'
        · exact v2 _ _ _ hk'
      · have key : ∀ (i t' : Nat) k', ((at_ s c (.run t)).conns i).tasks[t']? = some k' →
            ∃ k'', (s.conns i).tasks[t']? = some k'' ∧ k''.broadcast = k'.broadcast := by
          intro i t' k' hk'
          rw [ht] at hk'
          split at hk'
          · rename_i hi
            subst hi
            by_cases htt : t = t'
            · subst htt
              rw [List.getElem?_set_self hlt] at hk'
              cases hk'
              exact ⟨_, hk, rfl⟩
            · rw [List.getElem?_set_ne htt] at hk'
              exact ⟨_, hk', rfl⟩
          · exact ⟨_, hk', rfl⟩
        intro i t1 t2 k1 k2 hk1 hk2 hb
        obtain ⟨k1', h1, e1⟩ := key _ _ _ hk1
        obtain ⟨k2', h2, e2⟩ := key _ _ _ hk2
        exact v3 _ _ _ _ _ h1 h2 (by rw [e1, e2, hb])
      · intro i b hb
        rw [ht] at hb
        split at hb
        · exact v4 _ _ hb
        · exact v4 _ _ hb
      · intro i p b hm
        have hm' := (List.mem_filter.1 hm).1
        rw [ht]
        have := v5 _ _ _ hm'
        split
        · rename_i hi; subst hi; exact this
        · exact this
      · intro hcl i p b
        have v6 := v6 hcl
        simp only [see, ask, List.mem_filter, decide_eq_true_eq, ne_eq, Prod.mk.injEq]
        rw [ht]
        by_cases hi : i = c
        · subst hi
          rw [if_pos rfl]
          simp only [get_delete]
          by_cases hpp : kp = p
          · subst hpp
            simp only [if_true, reduceCtorEq, true_and, false_iff]
            rintro ⟨hm, hne⟩
            have h1 := (v6 _ _ _).2 hm
            have h2 := (v6 _ _ _).2 hin
            rw [h1] at h2
            exact hne (Option.some.inj h2)
          · rw [if_neg hpp, v6]
            simp only [true_and, not_and]
            exact ⟨fun hm => ⟨hm, fun h' => absurd h'.symm hpp⟩, fun hm => hm.1⟩
        · rw [if_neg hi, v6]
          simp [hi]
      · intro x hx
        obtain ⟨h1, h2⟩ := v8 x hx
        refine ⟨h1, List.mem_filter.2 ⟨h2, ?_⟩⟩
        have := (v5 _ _ _ hin).1 ho
        simp only [ne_eq, decide_not, Bool.not_eq_true', decide_eq_false_iff_not]
        rintro rfl
        exact this hx
    · have hstep : Publisher.step (s.conns c) (.run t) = (.invalid, s.conns c) := by
        simp only [Publisher.step, hk, if_neg hr]
      simp only [hstep]
      exact v

theorem inv_step {h : Hist} {s : State} (v : Inv h s) (op : Op) : Inv (see h (op, (step s op).1)) (step s op).2 := by
  cases op with
  | run c t => exact inv_run v c t
  | lookup c p => exact v
  | published => exact v
  | setEnabled b =>
    simp only [step]
    by_cases hb : s.enabled = b
    · rw [if_pos hb]
      subst hb
      have : see h (.setEnabled s.enabled, .ok) = h := by simp only [see, ask, ← v.enabled]
      rw [this]
      exact v
    · rw [if_neg hb]
      exact inv_rerun (h' := ask h (.setEnabled b)) v rfl rfl rfl v.conn v.path v.closed v.count
  | setPath p =>
    simp only [step]
    by_cases hb : s.path = p
    · rw [if_pos hb]
      subst hb
      have : see h (.setPath s.path, .ok) = h := by simp only [see, ask, ← v.path]
      rw [this]
      exact v
    · rw [if_neg hb]
      exact inv_rerun (h' := ask h (.setPath p)) v rfl rfl v.enabled v.conn rfl v.closed v.count
  | connection up =>
    cases up
    · simp only [step]
      by_cases hb : s.established = none
      · rw [if_pos hb]
        have : see h (.connection false, .ok) = h := by
          have := v.conn
          rw [hb] at this
          simp only [see, ask, ← this]
        rw [this]
        exact v
      · rw [if_neg hb]
        exact inv_rerun (h' := ask h (.connection false)) v rfl rfl v.enabled rfl v.path v.closed v.count
    · exact inv_rerun (h' := ask h (.connection true)) v rfl rfl v.enabled (by simp [ask, v.count]) v.path v.closed (by simp [ask, v.count])
  | close =>
    simp only [step]
    by_cases hb : s.closed = true
    · rw [if_pos hb]
      have : see h (.close, .ok) = h := by
        have := v.closed
        rw [hb] at this
        simp only [see, ask, ← this]
      rw [this]
      exact v
    · rw [if_neg hb]
      have he : { cleanups s with closed := true } = { cleanups s with
          enabled := s.enabled, established := s.established, path := s.path, closed := true, count := s.count } := by
        unfold cleanups at_
        cases s.current <;> rfl
      simp only [he]
      exact inv_cleanups (h' := ask h .close) v rfl rfl v.enabled v.conn v.path rfl v.count (by simp [wanted, ask])

variable {tr : Trace} {s : State}

theorem inv_reach (h : machine.Reach tr s) : Inv (hist tr) s :=
  Machine.Reach.induct (M := machine) (P := fun tr s => Inv (hist tr) s)
    ⟨rfl, rfl, rfl, rfl, rfl, by simp [hist, machine, init, Publisher.init], by simp [init, Publisher.init],
      by simp [init, Publisher.init], by simp [init, Publisher.init], by simp [hist],
      by simp [hist, machine, init, Publisher.init, Publisher.get], rfl, fun _ h => (nomatch h), rfl⟩
    (fun tr s op _ v => by rw [hist_snoc]; exact inv_step v op) h

theorem current_iff (v : Inv (hist tr) s) (c : Nat) (p : Str) (b : Nat) :
    s.current = some (c, p, b) ↔ wanted (hist tr) = some (c, p) ∧ (hist tr).last = some (c, p, b) := by
  constructor
  · intro h
    refine ⟨by rw [← v.current, h]; rfl, (v.last _ h).1⟩
  · rintro ⟨h1, h2⟩
    have := v.current
    rw [h1] at this
    cases hc : s.current with
    | none => rw [hc] at this; cases this
    | some x => rw [← (v.last x hc).1, h2]

theorem changes (s : State) (op : Op) :
    (∃ c p, (step s op).1 = .publish c p s.made ∧ (step s op).2.current = some (c, p, s.made)) ∨
      (step s op).2.current = none ∨ (step s op).2.current = s.current := by
  have key : ∀ s' : State, s'.made = s.made → s'.current = s.current →
      (∃ c p, (rerun s').1 = .publish c p s.made ∧ (rerun s').2.current = some (c, p, s.made)) ∨
        (rerun s').2.current = none ∨ (rerun s').2.current = s.current := by
    intro s' hm hc
    have hm' : (cleanups s').made = s.made := by rw [← hm]; unfold cleanups at_; cases s'.current <;> rfl
    have hc' := (cleanups_closed s').2
    unfold rerun body
    split
    · exact .inr (.inr hc)
    · split
      · exact .inr (.inl hc')
      · split
        · exact .inr (.inl hc')
        · exact .inl ⟨_, _, by rw [hm'], by rw [hm']⟩
  cases op with
  | setEnabled b =>
    simp only [step]
    split
    · exact .inr (.inr rfl)
    · exact key _ rfl rfl
  | setPath p =>
    simp only [step]
    split
    · exact .inr (.inr rfl)
    · exact key _ rfl rfl
  | connection up =>
    cases up
    · simp only [step]
      split
      · exact .inr (.inr rfl)
      · exact key _ rfl rfl
    · exact key _ rfl rfl
  | close =>
    simp only [step]
    split
    · exact .inr (.inr rfl)
    · exact .inr (.inl (cleanups_closed s).2)
  | run c t =>
    simp only [step]
    split
    · exact .inr (.inr rfl)
    · split <;> exact .inr (.inr rfl)
  | lookup c p => exact .inr (.inr rfl)
  | published => exact .inr (.inr rfl)

theorem publishes (s : State) (op : Op) (c : Nat) (p : Str) (b : Nat) (ho : (step s op).1 = .publish c p b) :
    (step s op).2.current = some (c, p, b) := by
  have key : ∀ s' : State, (rerun s').1 = .publish c p b → (rerun s').2.current = some (c, p, b) := by
    intro s'
    unfold rerun body
    split
    · exact fun h => nomatch h
    · split
      · exact fun h => nomatch h
      · split
        · exact fun h => nomatch h
        · intro h
          cases h
          rfl
  cases op with
  | setEnabled b =>
    simp only [step] at ho ⊢
    split at ho
    · cases ho
    · rw [if_neg (by assumption)]
      exact key _ ho
  | setPath p =>
    simp only [step] at ho ⊢
    split at ho
    · cases ho
    · rw [if_neg (by assumption)]
      exact key _ ho
  | connection up =>
    cases up
    · simp only [step] at ho ⊢
      split at ho
      · cases ho
      · rw [if_neg (by assumption)]
        exact key _ ho
    · exact key _ ho
  | close =>
    simp only [step] at ho
    split at ho <;> cases ho
  | run c t =>
    simp only [step] at ho
    split at ho
    · cases ho
    · split at ho <;> cases ho
  | lookup c p => cases ho
  | published => cases ho

theorem cleanups_place (s : State) : (cleanups s).enabled = s.enabled ∧ (cleanups s).established = s.established ∧
    (cleanups s).path = s.path ∧ (cleanups s).count = s.count := by
  unfold cleanups at_
  cases s.current <;> exact ⟨rfl, rfl, rfl, rfl⟩

theorem rerun_place (s : State) : (rerun s).2.established = s.established ∧ (rerun s).2.count = s.count := by
  obtain ⟨-, h1, -, h2⟩ := cleanups_place s
  unfold rerun body at_
  split
  · exact ⟨rfl, rfl⟩
  · split
    · exact ⟨h1, h2⟩
    · split <;> exact ⟨h1, h2⟩

theorem place (s : State) (c : Nat) (p : Str) (b : Nat) (ho : (rerun s).1 = .publish c p b) :
    s.enabled = true ∧ s.established = some c ∧ s.path = p := by
  obtain ⟨h1, h2, h3, -⟩ := cleanups_place s
  rw [← h1, ← h2, ← h3]
  unfold rerun body at ho
  split at ho
  · cases ho
  · split at ho
    · cases ho
    · split at ho
      · cases ho
      · rename_i he _ _ hx
        cases ho
        exact ⟨by simpa using he, hx, rfl⟩

theorem bound_reach (h : machine.Reach tr s) : ∀ c, s.established = some c → c < s.count := by
  refine Machine.Reach.induct (M := machine) (P := fun _ s => ∀ c, s.established = some c → c < s.count)
    (fun c h => nomatch h) (fun tr s op _ ih => ?_) h
  have key : ∀ s' : State, (∀ c, s'.established = some c → c < s'.count) →
      ∀ c, (rerun s').2.established = some c → c < (rerun s').2.count := by
    intro s' h
    rw [(rerun_place s').1, (rerun_place s').2]
    exact h
  cases op with
  | setEnabled b =>
    simp only [step]
    split
    · exact ih
    · exact key _ ih
  | setPath p =>
    simp only [step]
    split
    · exact ih
    · exact key _ ih
  | connection up =>
    cases up
    · simp only [step]
      split
      · exact ih
      · exact key _ fun c h => nomatch h
    · refine key _ fun c h => ?_
      simp only [Option.some.injEq] at h
      simp only
      omega
  | close =>
    simp only [step]
    split
    · exact ih
    · obtain ⟨-, h1, -, h2⟩ := cleanups_place s
      simp only [h1, h2]
      exact ih
  | run c t =>
    simp only [step]
    split
    · exact ih
    · split <;> exact ih
  | lookup c p => exact ih
  | published => exact ih

/-! ## C129 -/

/-- `published` says whether the broadcast is to be published. -/
theorem c129_flag (h : machine.Reach tr s) : (step s .published).1 = .flag (wanted (hist tr)).isSome := by
  have v := inv_reach h
  simp only [step, v.flag, ← v.current, Option.isSome_map]

/-- Whenever there is a new place for the broadcast, it is published there, with a consumer that is in no publication before. -/
theorem c129_publish (h : machine.Reach tr s) (op : Op) (c : Nat) (p : Str) (hw : wanted (ask (hist tr) op) = some (c, p))
    (hn : wanted (hist tr) ≠ some (c, p)) :
    ∃ b, (step s op).1 = .publish c p b ∧ ∀ c' p', (c', p', b) ∉ (hist tr).pending := by
  have v := inv_reach h
  have v' := inv_step v op
  have hw' : wanted (see (hist tr) (op, (step s op).1)) = some (c, p) := by
    rw [← hw]
    simp only [see]
    split <;> rfl
  have hcur := v'.current
  rw [hw'] at hcur
  rcases changes s op with ⟨c1, p1, h1, h2⟩ | h1 | h1
  · rw [h2] at hcur
    simp only [Option.map_some, Option.some.injEq, Prod.mk.injEq] at hcur
    obtain ⟨rfl, rfl⟩ := hcur
    refine ⟨s.made, h1, fun c' p' hm => ?_⟩
    obtain ⟨t, hk⟩ := (v.pending _ _ _).1 hm
    exact absurd (v.fresh _ _ _ hk) (by simp)
  · rw [h1] at hcur
    cases hcur
  · rw [h1, v.current] at hcur
    exact (hn hcur).elim

/-- With every path published on a connection only after former publications of it there were taken back: a path is found there exactly
until its publication is taken back.  (Missing: without that assumption, see `c129_lost`.) -/
theorem c129_found_partial (h : machine.Reach tr s) (hc : (hist tr).clash = false) (c : Nat) (p : Str) (b : Nat) :
    (step s (.lookup c p)).1 = .found (some b) ↔ (c, p, b) ∈ (hist tr).pending := by
  simp only [step, Out.found.injEq]
  exact (inv_reach h).found hc c p b

/-- With the same assumption: where the broadcast is to be published it is found. -/
theorem c129_served_partial (h : machine.Reach tr s) (hc : (hist tr).clash = false) (c : Nat) (p : Str)
    (hw : wanted (hist tr) = some (c, p)) :
    ∃ b, (hist tr).last = some (c, p, b) ∧ (step s (.lookup c p)).1 = .found (some b) := by
  have v := inv_reach h
  have := v.current
  rw [hw] at this
  cases hcur : s.current with
  | none => rw [hcur] at this; cases this
  | some x =>
    obtain ⟨c', p', b⟩ := x
    rw [hcur] at this
    simp only [Option.map_some, Option.some.injEq, Prod.mk.injEq] at this
    obtain ⟨rfl, rfl⟩ := this
    obtain ⟨h1, h2⟩ := v.last _ hcur
    exact ⟨b, h1, (c129_found_partial h hc _ _ _).2 h2⟩

/-- A publication is taken back exactly if it has not been, and it is not the one where the broadcast is to be published now. -/
theorem c129_taken_back (h : machine.Reach tr s) (c : Nat) (p : Str) (b : Nat) :
    (∃ t, (step s (.run c t)).1 = .ended c p b) ↔
      (c, p, b) ∈ (hist tr).pending ∧ ¬ (wanted (hist tr) = some (c, p) ∧ (hist tr).last = some (c, p, b)) := by
  have v := inv_reach h
  rw [← current_iff v]
  constructor
  · rintro ⟨t, ht⟩
    simp only [step] at ht
    cases hk : (s.conns c).tasks[t]? with
    | none => rw [hk] at ht; cases ht
    | some k =>
      rw [hk] at ht
      by_cases hr : k.done = false ∧ k.broadcast ∈ (s.conns c).over
      · simp only [Publisher.step, hk, if_pos hr, Out.ended.injEq, true_and] at ht
        obtain ⟨kp, kb, kd⟩ := k
        obtain ⟨rfl, rfl⟩ := ht
        obtain ⟨rfl, ho⟩ := hr
        have hin := (v.pending _ _ _).2 ⟨t, hk⟩
        exact ⟨hin, (v.ended _ _ _ hin).1 ho⟩
      · simp only [Publisher.step, hk, if_neg hr] at ht
        cases ht
  · rintro ⟨hin, hne⟩
    obtain ⟨t, hk⟩ := (v.pending _ _ _).1 hin
    have ho := (v.ended _ _ _ hin).2 hne
    refine ⟨t, ?_⟩
    simp only [step, hk, Publisher.step]
    rw [if_pos ⟨trivial, ho⟩]

/-- What is published is published where the broadcast is to be published and was not before, and it is found there at once. -/
theorem c129_only (h : machine.Reach tr s) (op : Op) (c : Nat) (p : Str) (b : Nat) (ho : (step s op).1 = .publish c p b) :
    wanted (ask (hist tr) op) = some (c, p) ∧ wanted (hist tr) ≠ some (c, p) ∧
      (step (step s op).2 (.lookup c p)).1 = .found (some b) := by
  have v := inv_reach h
  have v' := inv_step v op
  have hw : wanted (see (hist tr) (op, (step s op).1)) = wanted (ask (hist tr) op) := by
    simp only [see]
    split <;> rfl
  refine ⟨?_, ?_, ?_⟩
  · rw [← hw, ← v'.current, publishes s op c p b ho]
    rfl
  · intro hx
    have hy : s.enabled = true ∧ s.established = some c ∧ s.path = p := by
      rw [← v.enabled, ← v.conn, ← v.path]
      simp only [wanted] at hx
      split at hx
      · rename_i hz
        obtain ⟨a, ha, he⟩ := Option.map_eq_some_iff.1 hx
        cases he
        simp only [Bool.and_eq_true] at hz
        exact ⟨hz.1, ha, rfl⟩
      · cases hx
    obtain ⟨h1, h2, h3⟩ := hy
    have hlt := bound_reach h c h2
    cases op with
    | setEnabled e =>
      simp only [step] at ho
      split at ho
      · cases ho
      · rename_i hne
        have := (place _ _ _ _ ho).1
        dsimp only at this
        rw [h1, this] at hne
        exact hne rfl
    | setPath q =>
      simp only [step] at ho
      split at ho
      · cases ho
      · rename_i hne
        have := (place _ _ _ _ ho).2.2
        dsimp only at this
        rw [h3, this] at hne
        exact hne rfl
    | connection up =>
      cases up
      · simp only [step] at ho
        split at ho
        · cases ho
        · have := (place _ _ _ _ ho).2.1
          cases this
      · have := (place _ _ _ _ ho).2.1
        simp only [Option.some.injEq] at this
        omega
    | close =>
      simp only [step] at ho
      split at ho <;> cases ho
    | run c t =>
      simp only [step] at ho
      split at ho
      · cases ho
      · split at ho <;> cases ho
    | lookup c p => cases ho
    | published => cases ho
  · have key : ∀ s' : State, (rerun s').1 = .publish c p b → Publisher.get ((rerun s').2.conns c).broadcasts p = some b := by
      intro s'
      unfold rerun body
      split
      · exact fun h => nomatch h
      · split
        · exact fun h => nomatch h
        · split
          · exact fun h => nomatch h
          · intro h
            cases h
            simp [at_, Publisher.step, get_put]
    have goal : Publisher.get ((step s op).2.conns c).broadcasts p = some b := by
      cases op with
      | setEnabled e =>
        simp only [step] at ho ⊢
        split at ho
        · cases ho
        · rw [if_neg (by assumption)]
          exact key _ ho
      | setPath q =>
        simp only [step] at ho ⊢
        split at ho
        · cases ho
        · rw [if_neg (by assumption)]
          exact key _ ho
      | connection up =>
        cases up
        · simp only [step] at ho ⊢
          split at ho
          · cases ho
          · rw [if_neg (by assumption)]
            exact key _ ho
        · exact key _ ho
      | close =>
        simp only [step] at ho
        split at ho <;> cases ho
      | run c t =>
        simp only [step] at ho
        split at ho
        · cases ho
        · split at ho <;> cases ho
      | lookup c p => cases ho
      | published => cases ho
    exact congrArg Out.found goal

/-- Switching the broadcast off and on again before the connection has noticed loses it: it is to be published, `published` says that
it is, but it is not found. -/
theorem c129_lost (h : machine.Reach tr s) (c : Nat) (p : Str) (hw : wanted (hist tr) = some (c, p)) :
    ∃ t, let s' := (machine.runFrom s [.setEnabled false, .setEnabled true, .run c t]).2
      (step s' (.lookup c p)).1 = .found none ∧ (step s' .published).1 = .flag true ∧
      ∃ tr', machine.Reach tr' s' ∧ wanted (hist tr') = some (c, p) := by
  have v := inv_reach h
  have hcur := v.current
  rw [hw] at hcur
  cases hc : s.current with
  | none => rw [hc] at hcur; cases hcur
  | some x =>
    obtain ⟨c', p', b⟩ := x
    rw [hc] at hcur
    simp only [Option.map_some, Option.some.injEq, Prod.mk.injEq] at hcur
    obtain ⟨rfl, rfl⟩ := hcur
    obtain ⟨hl, hin⟩ := v.last _ hc
    obtain ⟨t, hk⟩ := (v.pending _ _ _).1 hin
    have hlt := (List.getElem?_eq_some_iff.1 hk).1
    have hcl : s.closed = false := by
      rw [← v.closed]
      cases hx : (hist tr).closed
      · rfl
      · simp [wanted, hx] at hw
    have hen : s.enabled = true := by
      rw [← v.enabled]
      cases hx : (hist tr).enabled
      · simp [wanted, hx] at hw
      · rfl
    have hes : s.established = some c' ∧ s.path = p' := by
      simp only [wanted, v.enabled, hen, v.closed, hcl, v.conn, v.path] at hw
      obtain ⟨a, ha, rfl, hp⟩ : ∃ a, s.established = some a ∧ a = c' ∧ s.path = p' := by simpa using hw
      exact ⟨ha, hp⟩
    obtain ⟨hes, hpa⟩ := hes
    refine ⟨t, ?_⟩
    have hr := machine.reach_runFrom h [.setEnabled false, .setEnabled true, .run c' t]
    clear hin hl hw v h
    obtain ⟨en, est, pa, cl, cnt, conns, made, cur, pub⟩ := s
    dsimp only at hc hk hlt hcl hen hes hpa
    subst hc hcl hen hes hpa
    have hq : (conns c').tasks[t]? = some ⟨pa, b, false⟩ := hk
    refine ⟨?_, ?_, _, hr, ?_⟩
    · simp [Machine.runFrom, step, rerun, cleanups, body, at_, Publisher.step, List.getElem?_append_left hlt, hq, get_delete]
    · simp [Machine.runFrom, step, rerun, cleanups, body, at_, Publisher.step, List.getElem?_append_left hlt, hq]
    · rw [← (inv_reach hr).current]
      simp [Machine.runFrom, step, rerun, cleanups, body, at_, Publisher.step, List.getElem?_append_left hlt, hq]

/-- A broadcast that moves to another path, and to another connection; the former publications are taken back. -/
example : ∃ (tr : Trace) (s : State), machine.Reach tr s ∧ (hist tr).clash = false ∧ wanted (hist tr) = some (1, [98]) ∧
    (hist tr).last = some (1, [98], 2) ∧ (hist tr).pending = [(0, [98], 1), (1, [98], 2)] ∧
    (step s (.lookup 0 [97])).1 = .found none ∧ (step s (.lookup 1 [98])).1 = .found (some 2) :=
  ⟨_, _, machine.reach_run [.setPath [97], .setEnabled true, .connection true, .setPath [98], .run 0 0, .connection false,
    .connection true], by decide +kernel, by decide +kernel, by decide +kernel, by decide +kernel, by decide +kernel, by decide +kernel⟩

end Verif.Props.JsPublishing
