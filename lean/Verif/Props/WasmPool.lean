import Verif.Wasm.Pool

/-!
# C122: sessions shared by the elements of a page (hang-wasm)

What is known of a task is read off the history, `life`; so is the task that a `Connect` listens to, `held`.
-/

set_option autoImplicit false

namespace Verif.Props.WasmPool

open Verif Verif.Wasm.Pool

/-! ## Specification -/

/-- What happened to a task. -/
structure Life where
  /-- it was spawned for this URL -/
  url : Option Url := none
  ran : Bool := false
  /-- the request is over, with this body if it succeeded -/
  body : Option (Option Text) := none
  dial : Option Bool := none
  setup : Option Bool := none
  /-- the session closed -/
  closed : Bool := false
  /-- and the task noticed -/
  noticed : Bool := false
  deriving DecidableEq

def note (t : Nat) (x : Life) (e : Op × Out) : Life :=
  match e with
  | (.new u, .conn _ (some n)) => if n = t then { x with url := some u } else x
  | (.run n, .did _) => if n = t then { x with ran := true } else x
  | (.fetched n b, .did _) => if n = t then { x with body := some b } else x
  | (.dialled n b, .did _) => if n = t then { x with dial := some b } else x
  | (.setup n b, .did _) => if n = t then { x with setup := some b } else x
  | (.close n, .did _) => if n = t then { x with closed := true } else x
  | (.notice n, .did _) => if n = t then { x with noticed := true } else x
  | _ => x

def life (t : Nat) (tr : Trace) : Life := tr.foldl (note t) {}

/-- The fingerprint that a body has. -/
def pin (space : Char → Bool) (b : Text) : Option Bytes := Native.hexDecode (Native.trim space b)

/-- The task goes on to connect. -/
def Ready (space : Char → Bool) (u : Url) (body : Option (Option Text)) : Prop :=
  (u.scheme = "https".toList ∧ body = none) ∨
    (u.scheme = "http".toList ∧ ∃ b, body = some (some b) ∧ (pin space b).isSome = true)

/-- How connecting ended, if it did. -/
inductive Outcome (space : Char → Bool) (t : Nat) (x : Life) (u : Url) : Res → Prop
  | scheme (h : x.ran = true) (h1 : u.scheme ≠ "http".toList) (h2 : u.scheme ≠ "https".toList) :
      Outcome space t x u (.failed .scheme)
  | http (h : x.body = some none) : Outcome space t x u (.failed .http)
  | fingerprint (b : Text) (h : x.body = some (some b)) (hp : pin space b = none) : Outcome space t x u (.failed .fingerprint)
  | transport (h : x.dial = some false) : Outcome space t x u (.failed .transport)
  | moq (h : x.setup = some false) : Outcome space t x u (.failed .moq)
  | session (h : x.setup = some true) : Outcome space t x u (.session t)

/-- The last place where a URL occurs. -/
def lastOf (u : Url) : List Url → Option Nat
  | [] => none
  | v :: r =>
    match lastOf u r with
    | some n => some (n + 1)
    | none => if v = u then some 0 else none

/-- The URLs of the tasks, and the task that each `Connect` listens to unless it was dropped: the last one for its URL. -/
structure Held where
  urls : List Url := []
  conns : List (Option Nat) := []
  deriving DecidableEq

def hold (x : Held) (e : Op × Out) : Held :=
  match e with
  | (.new u, .conn _ (some _)) => ⟨x.urls ++ [u], x.conns ++ [lastOf u (x.urls ++ [u])]⟩
  | (.new u, .conn _ none) => { x with conns := x.conns ++ [lastOf u x.urls] }
  | (.clone c, .conn _ _) => { x with conns := x.conns ++ [(x.conns[c]?).join] }
  | (.drop c, .did _) => { x with conns := x.conns.set c none }
  | _ => x

def held (tr : Trace) : Held := tr.foldl hold {}

/-! ## Lemmas -/

theorem life_snoc (t : Nat) (tr : Trace) (e : Op × Out) : life t (tr ++ [e]) = note t (life t tr) e := by
  unfold life
  rw [List.foldl_append]
  rfl

theorem held_snoc (tr : Trace) (e : Op × Out) : held (tr ++ [e]) = hold (held tr) e := by
  unfold held
  rw [List.foldl_append]
  rfl

theorem lastOf_none {u : Url} : ∀ {l : List Url}, (∀ t : Nat, l[t]? ≠ some u) → lastOf u l = none
  | [], _ => rfl
  | v :: r, h => by
    have hr : lastOf u r = none := lastOf_none fun t ht => h (t + 1) (by simpa using ht)
    have hv : v ≠ u := fun e => h 0 (by simp [e])
    simp [lastOf, hr, hv]

theorem lastOf_eq {u : Url} : ∀ {l : List Url} {t : Nat}, l[t]? = some u → (∀ t' : Nat, t < t' → l[t']? ≠ some u) → lastOf u l = some t
  | [], t, h, _ => by simp at h
  | v :: r, 0, h, hl => by
    have hr : lastOf u r = none := lastOf_none fun t ht => hl (t + 1) (by omega) (by simpa using ht)
    have hv : v = u := by simpa using h
    simp [lastOf, hr, hv]
  | v :: r, t + 1, h, hl => by
    have hr : lastOf u r = some t :=
      lastOf_eq (by simpa using h) fun t' ht' hx => hl (t' + 1) (by omega) (by simpa using hx)
    simp [lastOf, hr]

theorem lookup_append (l : List (Url × Nat)) (u v : Url) (t : Nat) (h : lookup l u = none) :
    lookup (l ++ [(u, t)]) v = if v = u then some t else lookup l v := by
  unfold lookup at h ⊢
  rw [List.find?_append]
  by_cases e : v = u
  · subst e
    rw [if_pos rfl]
    rw [Option.map_eq_none_iff] at h
    rw [h]
    simp
  · rw [if_neg e]
    have : ([(u, t)] : List (Url × Nat)).find? (fun p => p.1 == v) = none := by
      simp
      exact fun x => e x.symm
    rw [this]
    simp

theorem lookup_filter (l : List (Url × Nat)) (u v : Url) :
    lookup (l.filter fun p => p.1 != u) v = if v = u then none else lookup l v := by
  unfold lookup
  rw [List.find?_filter]
  by_cases e : v = u
  · subst e
    rw [if_pos rfl]
    rw [Option.map_eq_none_iff, List.find?_eq_none]
    intro p _
    simp
  · rw [if_neg e]
    congr 1
    congr 1
    funext p
    by_cases hp : p.1 = v
    · simp [hp, e]
    · simp [hp]

theorem watched_of {s : State} {u : Url} {t : Nat} (h : lookup s.pool u = some t) : watched s t = true := by
  unfold lookup at h
  obtain ⟨p, hp, rfl⟩ := Option.map_eq_some_iff.1 h
  unfold watched
  rw [Bool.or_eq_true]
  left
  rw [List.any_eq_true]
  exact ⟨p, List.mem_of_find?_eq_some hp, by simp⟩

/-- A task and what happened to it. -/
inductive Fit (space : Char → Bool) (t : Nat) : Task → Life → Prop
  | start (u : Url) : Fit space t ⟨u, .start, none, false⟩ { url := some u }
  | fetch (u : Url) (h : u.scheme = "http".toList) : Fit space t ⟨u, .fetch, none, false⟩ { url := some u, ran := true }
  | dial (u : Url) (b : Option (Option Text)) (h : Ready space u b) :
      Fit space t ⟨u, .dial, none, false⟩ { url := some u, ran := true, body := b }
  | setup (u : Url) (b : Option (Option Text)) (h : Ready space u b) :
      Fit space t ⟨u, .setup, none, false⟩ { url := some u, ran := true, body := b, dial := some true }
  | watch (u : Url) (b : Option (Option Text)) (h : Ready space u b) (c : Bool) :
      Fit space t ⟨u, .watch, some (.session t), !c⟩
        { url := some u, ran := true, body := b, dial := some true, setup := some true, closed := c }
  | noticed (u : Url) (b : Option (Option Text)) (h : Ready space u b) :
      Fit space t ⟨u, .over, some (.session t), false⟩
        { url := some u, ran := true, body := b, dial := some true, setup := some true, closed := true, noticed := true }
  | scheme (u : Url) (h1 : u.scheme ≠ "http".toList) (h2 : u.scheme ≠ "https".toList) :
      Fit space t ⟨u, .over, some (.failed .scheme), false⟩ { url := some u, ran := true }
  | http (u : Url) (h : u.scheme = "http".toList) :
      Fit space t ⟨u, .over, some (.failed .http), false⟩ { url := some u, ran := true, body := some none }
  | fingerprint (u : Url) (h : u.scheme = "http".toList) (b : Text) (hp : pin space b = none) :
      Fit space t ⟨u, .over, some (.failed .fingerprint), false⟩ { url := some u, ran := true, body := some (some b) }
  | transport (u : Url) (b : Option (Option Text)) (h : Ready space u b) :
      Fit space t ⟨u, .over, some (.failed .transport), false⟩ { url := some u, ran := true, body := b, dial := some false }
  | moq (u : Url) (b : Option (Option Text)) (h : Ready space u b) :
      Fit space t ⟨u, .over, some (.failed .moq), false⟩
        { url := some u, ran := true, body := b, dial := some true, setup := some false }

theorem Fit.url {space : Char → Bool} {t : Nat} {x : Task} {y : Life} (h : Fit space t x y) : y.url = some x.url := by
  cases h <;> rfl

structure Inv (space : Char → Bool) (tr : Trace) (s : State) : Prop where
  fit : ∀ (t : Nat) x, s.tasks[t]? = some x → Fit space t x (life t tr)
  fresh : ∀ t, s.tasks.length ≤ t → life t tr = {}
  pool : ∀ u t, lookup s.pool u = some t ↔ (life t tr).url = some u ∧ (life t tr).noticed = false
  order : ∀ t t' u, t < t' → (life t tr).url = some u → (life t' tr).url = some u → (life t tr).noticed = true
  urls : (held tr).urls = s.tasks.map (·.url)
  conns : (held tr).conns = s.conns
  bound : ∀ c t : Nat, s.conns[c]? = some (some t) → t < s.tasks.length

theorem Inv.known {space : Char → Bool} {tr : Trace} {s : State} (v : Inv space tr s) {t : Nat} {u : Url}
    (h : (life t tr).url = some u) : ∃ x, s.tasks[t]? = some x ∧ x.url = u := by
  cases hx : s.tasks[t]? with
  | none =>
    rw [v.fresh t (List.getElem?_eq_none_iff.1 hx)] at h
    cases h
  | some x =>
    refine ⟨x, rfl, ?_⟩
    have := (v.fit t x hx).url
    rw [h] at this
    exact (Option.some.inj this).symm

theorem Inv.place {space : Char → Bool} {tr : Trace} {s : State} (v : Inv space tr s) (t : Nat) :
    (held tr).urls[t]? = (life t tr).url := by
  rw [v.urls, List.getElem?_map]
  cases hx : s.tasks[t]? with
  | none => rw [v.fresh t (List.getElem?_eq_none_iff.1 hx)]; rfl
  | some x => rw [(v.fit t x hx).url]; rfl

/-- Nothing changes. -/
theorem inv_same {space : Char → Bool} {tr : Trace} {s : State} (v : Inv space tr s) (e : Op × Out) (hn : ∀ t x, note t x e = x)
    (hh : ∀ x, hold x e = x) : Inv space (tr ++ [e]) s := by
  have hl : ∀ t, life t (tr ++ [e]) = life t tr := fun t => by rw [life_snoc, hn]
  have hd : held (tr ++ [e]) = held tr := by rw [held_snoc, hh]
  refine ⟨?_, ?_, ?_, ?_, ?_, ?_, v.bound⟩
  · intro t x; rw [hl]; exact v.fit t x
  · intro t; rw [hl]; exact v.fresh t
  · intro u t; rw [hl]; exact v.pool u t
  · intro t t' u; rw [hl, hl]; exact v.order t t' u
  · rw [hd]; exact v.urls
  · rw [hd]; exact v.conns

/-- The `Connect`s change. -/
theorem inv_conns {space : Char → Bool} {tr : Trace} {s : State} (v : Inv space tr s) (e : Op × Out) (hn : ∀ t x, note t x e = x)
    (l : List (Option Nat)) (hh : hold (held tr) e = { held tr with conns := l })
    (hb : ∀ c t : Nat, l[c]? = some (some t) → t < s.tasks.length) : Inv space (tr ++ [e]) { s with conns := l } := by
  have hl : ∀ t, life t (tr ++ [e]) = life t tr := fun t => by rw [life_snoc, hn]
  have hd : held (tr ++ [e]) = { held tr with conns := l } := by rw [held_snoc, hh]
  refine ⟨?_, ?_, ?_, ?_, ?_, ?_, hb⟩
  · intro t x; rw [hl]; exact v.fit t x
  · intro t; rw [hl]; exact v.fresh t
  · intro u t; rw [hl]; exact v.pool u t
  · intro t t' u; rw [hl, hl]; exact v.order t t' u
  · rw [hd]; exact v.urls
  · rw [hd]

/-- A task changes. -/
theorem inv_set {space : Char → Bool} {tr : Trace} {s : State} (v : Inv space tr s) (e : Op × Out) {t : Nat} {x x' : Task}
    (hx : s.tasks[t]? = some x) (hu : x'.url = x.url) (hn : ∀ t', t' ≠ t → ∀ y, note t' y e = y) (hh : ∀ y, hold y e = y)
    (hf : Fit space t x' (note t (life t tr) e)) (hk : (note t (life t tr) e).noticed = (life t tr).noticed) :
    Inv space (tr ++ [e]) (set s t x') := by
  have ht : t < s.tasks.length := (List.getElem?_eq_some_iff.1 hx).1
  have hl : ∀ t', t' ≠ t → life t' (tr ++ [e]) = life t' tr := fun t' h => by rw [life_snoc, hn t' h]
  have hl0 : life t (tr ++ [e]) = note t (life t tr) e := life_snoc t tr e
  have hurl : ∀ t', (life t' (tr ++ [e])).url = (life t' tr).url := by
    intro t'
    by_cases h : t' = t
    · subst h
      rw [hl0, hf.url, (v.fit _ x hx).url, hu]
    · rw [hl t' h]
  have hno : ∀ t', (life t' (tr ++ [e])).noticed = (life t' tr).noticed := by
    intro t'
    by_cases h : t' = t
    · subst h
      rw [hl0, hk]
    · rw [hl t' h]
  have hd : held (tr ++ [e]) = held tr := by rw [held_snoc, hh]
  refine ⟨?_, ?_, ?_, ?_, ?_, ?_, ?_⟩
  · intro t' y hy
    by_cases h : t' = t
    · subst h
      rw [show (set s t' x').tasks = s.tasks.set t' x' from rfl, List.getElem?_set_self ht] at hy
      cases hy
      rw [hl0]
      exact hf
    · rw [show (set s t x').tasks = s.tasks.set t x' from rfl, List.getElem?_set_ne (Ne.symm h)] at hy
      rw [hl t' h]
      exact v.fit t' y hy
  · intro t' h
    rw [show (set s t x').tasks = s.tasks.set t x' from rfl, List.length_set] at h
    rw [hl t' (by omega)]
    exact v.fresh t' h
  · intro u t'; rw [hurl, hno]; exact v.pool u t'
  · intro t1 t2 u; rw [hurl, hurl, hno]; exact v.order t1 t2 u
  · rw [hd, v.urls]
    apply List.ext_getElem?
    intro i
    rw [List.getElem?_map, List.getElem?_map]
    show _ = Option.map _ ((s.tasks.set t x')[i]?)
    by_cases h : i = t
    · subst h
      rw [List.getElem?_set_self ht, hx]
      exact congrArg some hu.symm
    · rw [List.getElem?_set_ne (Ne.symm h)]
  · rw [hd]; exact v.conns
  · intro c t' h
    show t' < (s.tasks.set t x').length
    rw [List.length_set]
    exact v.bound c t' h

theorem inPhase_cases (s : State) (t : Nat) (p : Phase) (f : Task → Out × State) :
    inPhase s t p f = (.invalid, s) ∨ ∃ x, s.tasks[t]? = some x ∧ x.phase = p ∧ inPhase s t p f = f x := by
  unfold inPhase
  cases hx : s.tasks[t]? with
  | none => exact .inl rfl
  | some x =>
    dsimp only
    by_cases h : x.phase = p
    · exact .inr ⟨x, rfl, h, if_pos h⟩
    · exact .inl (if_neg h)

theorem onConn_cases (s : State) (c : Nat) (f : Nat → Out × State) :
    onConn s c f = (.invalid, s) ∨ ∃ t, s.conns[c]? = some (some t) ∧ onConn s c f = f t := by
  unfold onConn
  cases hx : s.conns[c]? with
  | none => exact .inl rfl
  | some o =>
    cases o with
    | none => exact .inl rfl
    | some t => exact .inr ⟨t, rfl, rfl⟩

theorem Inv.watched {space : Char → Bool} {tr : Trace} {s : State} (v : Inv space tr s) {t : Nat} {x : Task}
    (hx : s.tasks[t]? = some x) (hn : (life t tr).noticed = false) : watched s t = true :=
  watched_of ((v.pool x.url t).2 ⟨(v.fit t x hx).url, hn⟩)

theorem tell_eq {space : Char → Bool} {tr : Trace} {s : State} (v : Inv space tr s) {t : Nat} {x : Task}
    (hx : s.tasks[t]? = some x) (hn : (life t tr).noticed = false) (r : Res) :
    tell s t x r =
      set s t
        (match r with
        | .session _ => { x with value := some r, phase := .watch, alive := true }
        | .failed _ => { x with value := some r, phase := .over }) := by
  unfold tell
  rw [if_pos (v.watched hx hn)]
  cases r <;> rfl

theorem lookup_last {space : Char → Bool} {tr : Trace} {s : State} (v : Inv space tr s) {u : Url} {t : Nat}
    (h : lookup s.pool u = some t) : lastOf u (held tr).urls = some t := by
  have hp := (v.pool u t).1 h
  refine lastOf_eq (by rw [v.place]; exact hp.1) ?_
  intro t' ht hx
  rw [v.place] at hx
  have := v.order t t' u ht hp.1 hx
  rw [hp.2] at this
  cases this

theorem inv_new {space : Char → Bool} {tr : Trace} {s : State} (v : Inv space tr s) (u : Url) :
    Inv space (tr ++ [(.new u, (new s u).1)]) (new s u).2 := by
  unfold new
  cases hp : lookup s.pool u with
  | some t =>
    have hk := v.known ((v.pool u t).1 hp).1
    obtain ⟨x, hx, _⟩ := hk
    refine inv_conns v _ (fun _ _ => rfl) _ ?_ ?_
    · show Held.mk _ _ = _
      rw [lookup_last v hp, v.conns]
    · intro c t' hc
      rw [List.getElem?_append] at hc
      split at hc
      · exact v.bound c t' hc
      · rw [List.getElem?_singleton] at hc
        split at hc
        · cases hc
          exact (List.getElem?_eq_some_iff.1 hx).1
        · cases hc
  | none =>
    dsimp only
    have e : ∀ t, life t (tr ++ [(.new u, .conn s.conns.length (some s.tasks.length))]) =
        if t = s.tasks.length then { url := some u } else life t tr := by
      intro t
      rw [life_snoc]
      show (if s.tasks.length = t then { life t tr with url := some u } else life t tr) = _
      by_cases h : t = s.tasks.length
      · subst h
        rw [if_pos rfl, if_pos rfl, v.fresh _ (Nat.le_refl _)]
      · rw [if_neg (Ne.symm h), if_neg h]
    have hd : held (tr ++ [(.new u, .conn s.conns.length (some s.tasks.length))]) =
        ⟨(held tr).urls ++ [u], (held tr).conns ++ [lastOf u ((held tr).urls ++ [u])]⟩ := held_snoc _ _
    have hno : ∀ t, (life t tr).url = some u → (life t tr).noticed = true := by
      intro t ht
      cases hh : (life t tr).noticed with
      | true => rfl
      | false =>
        rw [(v.pool u t).2 ⟨ht, hh⟩] at hp
        cases hp
    have hlast : lastOf u ((held tr).urls ++ [u]) = some s.tasks.length := by
      have hlen : (held tr).urls.length = s.tasks.length := by rw [v.urls, List.length_map]
      refine lastOf_eq ?_ ?_
      · rw [← hlen]
        simp
      · intro t' ht hx
        rw [List.getElem?_eq_none (by rw [List.length_append, List.length_singleton, hlen]; omega)] at hx
        cases hx
    refine ⟨?_, ?_, ?_, ?_, ?_, ?_, ?_⟩
    · intro t x hx
      rw [e]
      rw [List.getElem?_append] at hx
      split at hx
      · rw [if_neg (by omega)]
        exact v.fit t x hx
      · rw [List.getElem?_singleton] at hx
        split at hx
        · cases hx
          rw [if_pos (by omega)]
          exact .start u
        · cases hx
    · intro t ht
      rw [List.length_append, List.length_singleton] at ht
      rw [e, if_neg (by omega)]
      exact v.fresh t (by omega)
    · intro w t
      rw [lookup_append _ _ _ _ hp, e]
      by_cases hw : w = u
      · subst hw
        rw [if_pos rfl]
        by_cases ht : t = s.tasks.length
        · subst ht
          rw [if_pos rfl]
          exact ⟨fun _ => ⟨rfl, rfl⟩, fun _ => rfl⟩
        · rw [if_neg ht]
          constructor
          · intro h
            exact absurd (Option.some.inj h).symm ht
          · intro h
            rw [hno t h.1] at h
            cases h.2
      · rw [if_neg hw]
        by_cases ht : t = s.tasks.length
        · subst ht
          rw [if_pos rfl]
          constructor
          · intro h
            have := ((v.pool w _).1 h).1
            rw [v.fresh _ (Nat.le_refl _)] at this
            cases this
          · intro h
            exact absurd (Option.some.inj h.1).symm hw
        · rw [if_neg ht]
          exact v.pool w t
    · intro t t' w ht h1 h2
      rw [e] at h1 h2 ⊢
      by_cases ha : t = s.tasks.length
      · subst ha
        rw [if_neg (by omega), v.fresh t' (by omega)] at h2
        cases h2
      · rw [if_neg ha] at h1 ⊢
        by_cases hb : t' = s.tasks.length
        · rw [if_pos hb] at h2
          cases h2
          exact hno t h1
        · rw [if_neg hb] at h2
          exact v.order t t' w ht h1 h2
    · rw [hd, List.map_append, ← v.urls]
      rfl
    · rw [hd, hlast, v.conns]
    · intro c t' hc
      rw [List.length_append, List.length_singleton]
      rw [List.getElem?_append] at hc
      split at hc
      · have := v.bound c t' hc
        omega
      · rw [List.getElem?_singleton] at hc
        split at hc
        · cases hc
          omega
        · cases hc

/-- The task notices that its session closed. -/
theorem inv_notice {space : Char → Bool} {tr : Trace} {s : State} (v : Inv space tr s) {t : Nat} {x : Task}
    (hx : s.tasks[t]? = some x) (hp : x.phase = .watch) (ha : x.alive = false) (l : List Event) :
    Inv space (tr ++ [(.notice t, .did l)])
      { set s t { x with phase := .over } with pool := s.pool.filter fun p => p.1 != x.url } := by
  have ht : t < s.tasks.length := (List.getElem?_eq_some_iff.1 hx).1
  have hl : ∀ t', t' ≠ t → life t' (tr ++ [(.notice t, .did l)]) = life t' tr := by
    intro t' h
    rw [life_snoc]
    exact if_neg (Ne.symm h)
  have hl0 : life t (tr ++ [(.notice t, .did l)]) = { life t tr with noticed := true } := by
    rw [life_snoc]
    exact if_pos rfl
  have hurl : ∀ t', (life t' (tr ++ [(.notice t, .did l)])).url = (life t' tr).url := by
    intro t'
    by_cases h : t' = t
    · subst h
      rw [hl0]
    · rw [hl t' h]
  have hd : held (tr ++ [(.notice t, .did l)]) = held tr := held_snoc _ _
  have f := v.fit t x hx
  have hut := f.url
  have hfn : (life t tr).noticed = false := by
    generalize life t tr = y at f
    cases f <;> first | rfl | cases hp
  refine ⟨?_, ?_, ?_, ?_, ?_, ?_, ?_⟩
  · intro t' y hy
    by_cases h : t' = t
    · subst h
      change (s.tasks.set t' _)[t']? = some y at hy
      rw [List.getElem?_set_self ht] at hy
      cases hy
      rw [hl0]
      generalize life t' tr = z at f ⊢
      cases f with
      | watch u b h c =>
        cases c with
        | true => exact .noticed u b h
        | false => cases ha
      | _ => cases hp
    · change (s.tasks.set t _)[t']? = some y at hy
      rw [List.getElem?_set_ne (Ne.symm h)] at hy
      rw [hl t' h]
      exact v.fit t' y hy
  · intro t' h
    change (s.tasks.set t _).length ≤ t' at h
    rw [List.length_set] at h
    rw [hl t' (by omega)]
    exact v.fresh t' h
  · intro u t'
    show lookup (s.pool.filter _) u = _ ↔ _
    rw [lookup_filter, hurl]
    by_cases hu : u = x.url
    · subst hu
      rw [if_pos rfl]
      constructor
      · intro h
        cases h
      · intro h
        by_cases h' : t' = t
        · subst h'
          rw [hl0] at h
          cases h.2
        · rw [hl t' h'] at h
          have h1 := (v.pool _ t').2 h
          rw [(v.pool _ t).2 ⟨hut, hfn⟩] at h1
          exact absurd (Option.some.inj h1).symm h'
    · rw [if_neg hu]
      by_cases h' : t' = t
      · subst h'
        rw [hl0]
        constructor
        · intro h
          have := ((v.pool u _).1 h).1
          rw [hut] at this
          exact absurd (Option.some.inj this).symm hu
        · intro h
          cases h.2
      · rw [hl t' h']
        exact v.pool u t'
  · intro t1 t2 u h1 h2 h3
    rw [hurl] at h2 h3
    by_cases h' : t1 = t
    · subst h'
      rw [hl0]
    · rw [hl t1 h']
      exact v.order t1 t2 u h1 h2 h3
  · rw [hd, v.urls]
    apply List.ext_getElem?
    intro i
    rw [List.getElem?_map, List.getElem?_map]
    show _ = Option.map _ ((s.tasks.set t _)[i]?)
    by_cases h : i = t
    · subst h
      rw [List.getElem?_set_self ht, hx]
      rfl
    · rw [List.getElem?_set_ne (Ne.symm h)]
  · rw [hd]; exact v.conns
  · intro c t' h
    show t' < (s.tasks.set t _).length
    rw [List.length_set]
    exact v.bound c t' h

theorem inv_step {space : Char → Bool} {tr : Trace} {s : State} (v : Inv space tr s) (op : Op) :
    Inv space (tr ++ [(op, (step space s op).1)]) (step space s op).2 := by
  cases op with
  | new u => exact inv_new v u
  | clone c =>
    unfold step
    dsimp only
    rcases onConn_cases s c fun t => (.conn s.conns.length none, { s with conns := s.conns ++ [some t] }) with h | ⟨t, hc, h⟩
    · rw [h]
      exact inv_same v _ (fun _ _ => rfl) (fun _ => rfl)
    · rw [h]
      refine inv_conns v _ (fun _ _ => rfl) _ ?_ ?_
      · show Held.mk _ _ = _
        rw [v.conns, hc]
        rfl
      · intro c' t' hc'
        rw [List.getElem?_append] at hc'
        split at hc'
        · exact v.bound c' t' hc'
        · rw [List.getElem?_singleton] at hc'
          split at hc'
          · cases hc'
            exact v.bound c _ hc
          · cases hc'
  | drop c =>
    unfold step
    dsimp only
    rcases onConn_cases s c fun _ => (.did [], { s with conns := s.conns.set c none }) with h | ⟨t, hc, h⟩
    · rw [h]
      exact inv_same v _ (fun _ _ => rfl) (fun _ => rfl)
    · rw [h]
      refine inv_conns v _ (fun _ _ => rfl) _ ?_ ?_
      · show Held.mk _ _ = _
        rw [v.conns]
      · intro c' t' hc'
        rw [List.getElem?_set] at hc'
        split at hc'
        · split at hc' <;> cases hc'
        · exact v.bound c' t' hc'
  | poll c =>
    unfold step
    dsimp only
    rcases onConn_cases s c fun t => (poll s t, s) with h | ⟨t, hc, h⟩
    · rw [h]
      exact inv_same v _ (fun _ _ => rfl) (fun _ => rfl)
    · rw [h]
      exact inv_same v _ (fun _ _ => rfl) (fun _ => rfl)
  | run t =>
    unfold step
    dsimp only
    rcases inPhase_cases s t .start (start s t) with h | ⟨x, hx, hp, h⟩
    · rw [h]
      exact inv_same v _ (fun _ _ => rfl) (fun _ => rfl)
    · rw [h]
      have f := v.fit t x hx
      have hl : life t tr = { url := some x.url } ∧ x = ⟨x.url, .start, none, false⟩ := by
        generalize life t tr = y at f
        cases f <;> first | exact ⟨rfl, rfl⟩ | cases hp
      have hn : ∀ l, note t (life t tr) (.run t, .did l) = { url := some x.url, ran := true } := by
        intro l
        rw [hl.1]
        exact if_pos rfl
      unfold start
      by_cases h1 : x.url.scheme = http
      · rw [if_pos h1]
        refine inv_set v _ hx rfl (fun t' h' y => if_neg (Ne.symm h')) (fun _ => rfl) ?_ ?_
        · rw [hn, hl.2]
          exact .fetch _ h1
        · rw [hn, hl.1]
      · rw [if_neg h1]
        by_cases h2 : x.url.scheme = https
        · rw [if_pos h2]
          refine inv_set v _ hx rfl (fun t' h' y => if_neg (Ne.symm h')) (fun _ => rfl) ?_ ?_
          · rw [hn, hl.2]
            exact .dial _ none (.inl ⟨h2, rfl⟩)
          · rw [hn, hl.1]
        · rw [if_neg h2]
          dsimp only
          rw [tell_eq v hx (by rw [hl.1])]
          refine inv_set v _ hx rfl (fun t' h' y => if_neg (Ne.symm h')) (fun _ => rfl) ?_ ?_
          · rw [hn, hl.2]
            exact .scheme _ h1 h2
          · rw [hn, hl.1]
  | fetched t body =>
    unfold step
    dsimp only
    rcases inPhase_cases s t .fetch (fun x => fetched space s t x body) with h | ⟨x, hx, hp, h⟩
    · rw [h]
      exact inv_same v _ (fun _ _ => rfl) (fun _ => rfl)
    · rw [h]
      have f := v.fit t x hx
      have hl : life t tr = { url := some x.url, ran := true } ∧ x = ⟨x.url, .fetch, none, false⟩ ∧
          x.url.scheme = "http".toList := by
        generalize life t tr = y at f
        cases f <;> first | exact ⟨rfl, rfl, by assumption⟩ | cases hp
      have hn : ∀ l, note t (life t tr) (.fetched t body, .did l) = { url := some x.url, ran := true, body := some body } := by
        intro l
        rw [hl.1]
        exact if_pos rfl
      unfold fetched
      cases body with
      | none =>
        dsimp only
        rw [tell_eq v hx (by rw [hl.1])]
        refine inv_set v _ hx rfl (fun t' h' y => if_neg (Ne.symm h')) (fun _ => rfl) ?_ ?_
        · rw [hn, hl.2.1]
          exact .http _ hl.2.2
        · rw [hn, hl.1]
      | some b =>
        dsimp only
        cases hh : Native.hexDecode (Native.trim space b) with
        | none =>
          dsimp only
          rw [tell_eq v hx (by rw [hl.1])]
          refine inv_set v _ hx rfl (fun t' h' y => if_neg (Ne.symm h')) (fun _ => rfl) ?_ ?_
          · rw [hn, hl.2.1]
            exact .fingerprint _ hl.2.2 b hh
          · rw [hn, hl.1]
        | some p =>
          dsimp only
          refine inv_set v _ hx rfl (fun t' h' y => if_neg (Ne.symm h')) (fun _ => rfl) ?_ ?_
          · rw [hn, hl.2.1]
            refine .dial _ _ (.inr ⟨hl.2.2, b, rfl, ?_⟩)
            show (Native.hexDecode (Native.trim space b)).isSome = true
            rw [hh]
            rfl
          · rw [hn, hl.1]
  | dialled t ok =>
    unfold step
    dsimp only
    rcases inPhase_cases s t .dial (fun x =>
      (.did [], if ok then set s t { x with phase := .setup } else tell s t x (.failed .transport))) with h | ⟨x, hx, hp, h⟩
    · rw [h]
      exact inv_same v _ (fun _ _ => rfl) (fun _ => rfl)
    · rw [h]
      have f := v.fit t x hx
      have hl : ∃ b, life t tr = { url := some x.url, ran := true, body := b } ∧ x = ⟨x.url, .dial, none, false⟩ ∧
          Ready space x.url b := by
        generalize life t tr = y at f
        cases f <;> first | exact ⟨_, rfl, rfl, by assumption⟩ | cases hp
      obtain ⟨b, hl⟩ := hl
      have hn : note t (life t tr) (.dialled t ok, .did []) = { url := some x.url, ran := true, body := b, dial := some ok } := by
        rw [hl.1]
        exact if_pos rfl
      cases ok with
      | true =>
        rw [if_pos rfl]
        refine inv_set v _ hx rfl (fun t' h' y => if_neg (Ne.symm h')) (fun _ => rfl) ?_ ?_
        · rw [hn, hl.2.1]
          exact .setup _ b hl.2.2
        · rw [hn, hl.1]
      | false =>
        rw [if_neg (by decide), tell_eq v hx (by rw [hl.1])]
        refine inv_set v _ hx rfl (fun t' h' y => if_neg (Ne.symm h')) (fun _ => rfl) ?_ ?_
        · rw [hn, hl.2.1]
          exact .transport _ b hl.2.2
        · rw [hn, hl.1]
  | setup t ok =>
    unfold step
    dsimp only
    rcases inPhase_cases s t .setup (fun x => (.did [], tell s t x (if ok then .session t else .failed .moq))) with
      h | ⟨x, hx, hp, h⟩
    · rw [h]
      exact inv_same v _ (fun _ _ => rfl) (fun _ => rfl)
    · rw [h]
      have f := v.fit t x hx
      have hl : ∃ b, life t tr = { url := some x.url, ran := true, body := b, dial := some true } ∧
          x = ⟨x.url, .setup, none, false⟩ ∧ Ready space x.url b := by
        generalize life t tr = y at f
        cases f <;> first | exact ⟨_, rfl, rfl, by assumption⟩ | cases hp
      obtain ⟨b, hl⟩ := hl
      have hn : note t (life t tr) (.setup t ok, .did []) =
          { url := some x.url, ran := true, body := b, dial := some true, setup := some ok } := by
        rw [hl.1]
        exact if_pos rfl
      dsimp only
      rw [tell_eq v hx (by rw [hl.1])]
      cases ok with
      | true =>
        refine inv_set v _ hx rfl (fun t' h' y => if_neg (Ne.symm h')) (fun _ => rfl) ?_ ?_
        · rw [hn, hl.2.1]
          exact .watch _ b hl.2.2 false
        · rw [hn, hl.1]
      | false =>
        refine inv_set v _ hx rfl (fun t' h' y => if_neg (Ne.symm h')) (fun _ => rfl) ?_ ?_
        · rw [hn, hl.2.1]
          exact .moq _ b hl.2.2
        · rw [hn, hl.1]
  | close t =>
    unfold step
    dsimp only
    rcases inPhase_cases s t .watch (fun x =>
      if x.alive then (.did [], set s t { x with alive := false }) else (.invalid, s)) with h | ⟨x, hx, hp, h⟩
    · rw [h]
      exact inv_same v _ (fun _ _ => rfl) (fun _ => rfl)
    · rw [h]
      have f := v.fit t x hx
      cases ha : x.alive with
      | false =>
        rw [if_neg (by decide)]
        exact inv_same v _ (fun _ _ => rfl) (fun _ => rfl)
      | true =>
        rw [if_pos rfl]
        have hn : ∀ y, note t y (.close t, .did []) = { y with closed := true } := fun y => if_pos rfl
        refine inv_set v _ hx rfl (fun t' h' y => if_neg (Ne.symm h')) (fun _ => rfl) ?_ ?_
        · rw [hn]
          generalize life t tr = y at f
          cases f with
          | watch u b hr c => exact .watch u b hr true
          | _ => cases hp
        · rw [hn]
  | notice t =>
    unfold step
    dsimp only
    rcases inPhase_cases s t .watch (fun x =>
      if x.alive then (.invalid, s)
      else (.did [], { set s t { x with phase := .over } with pool := s.pool.filter fun p => p.1 != x.url })) with
      h | ⟨x, hx, hp, h⟩
    · rw [h]
      exact inv_same v _ (fun _ _ => rfl) (fun _ => rfl)
    · rw [h]
      cases ha : x.alive with
      | true =>
        rw [if_pos rfl]
        exact inv_same v _ (fun _ _ => rfl) (fun _ => rfl)
      | false =>
        rw [if_neg (by decide)]
        exact ha ▸ inv_notice v hx hp ha []
  | idle t =>
    unfold step
    dsimp only
    rcases inPhase_cases s t .watch (fun x =>
      if watched s t then (.invalid, s) else (.did [.close], set s t { x with phase := .over, alive := false })) with
      h | ⟨x, hx, hp, h⟩
    · rw [h]
      exact inv_same v _ (fun _ _ => rfl) (fun _ => rfl)
    · rw [h]
      have f := v.fit t x hx
      have hfn : (life t tr).noticed = false := by
        generalize life t tr = y at f
        cases f <;> first | rfl | cases hp
      rw [if_pos (v.watched hx hfn)]
      exact inv_same v _ (fun _ _ => rfl) (fun _ => rfl)

theorem inv_reach {space : Char → Bool} {tr : Trace} {s : State} (h : (machine space).Reach tr s) : Inv space tr s := by
  refine Machine.Reach.induct (M := machine space) (P := fun tr s => Inv space tr s) ?_ ?_ h
  · refine ⟨?_, fun _ _ => rfl, ?_, ?_, rfl, rfl, ?_⟩
    · intro t x hx
      cases hx
    · intro u t
      exact ⟨fun h => (nomatch h), fun h => (nomatch h.1)⟩
    · intro t t' u _ h
      cases h
    · intro c t hc
      cases hc
  · intro tr s op _ ih
    exact inv_step ih op

/-! ## Theorems -/

/-- A URL with the scheme replaced; the default port is not written. -/
def tls (u : Url) : Url := ⟨"https".toList, u.host, if u.port = some 443 then none else u.port, u.path⟩

/-- What a task starts with. -/
def asked (x : Life) : Out :=
  match x.url, x.ran with
  | some u, false =>
    if u.scheme = "http".toList then .did [.fetch { u with path := "/certificate.sha256".toList }]
    else if u.scheme = "https".toList then .did [.dial u none]
    else .did []
  | _, _ => .invalid

/-- How it goes on with a fingerprint. -/
def pinned (space : Char → Bool) (x : Life) (body : Option Text) : Out :=
  match x.url, x.ran, x.body with
  | some u, true, none =>
    if u.scheme = "http".toList then
      match body.bind (pin space) with
      | some f => .did [.dial (tls u) (some f)]
      | none => .did []
    else .invalid
  | _, _, _ => .invalid

/-- **`Connect::new` starts a task for its URL exactly when every task for that URL has noticed that its session closed.** -/
theorem c122_spawn {space : Char → Bool} {tr : Trace} {s : State} (h : (machine space).Reach tr s) (u : Url) :
    ((∀ t, (life t tr).url = some u → (life t tr).noticed = true) →
      (step space s (.new u)).1 = .conn (held tr).conns.length (some (held tr).urls.length)) ∧
    (∀ t, (life t tr).url = some u → (life t tr).noticed = false →
      (step space s (.new u)).1 = .conn (held tr).conns.length none) := by
  have v := inv_reach h
  rw [v.conns, v.urls, List.length_map]
  refine ⟨fun ha => ?_, fun t h1 h2 => ?_⟩
  · show (new s u).1 = _
    unfold new
    cases hp : lookup s.pool u with
    | none => rfl
    | some t =>
      have := (v.pool u t).1 hp
      rw [ha t this.1] at this
      cases this.2
  · show (new s u).1 = _
    unfold new
    rw [(v.pool u t).2 ⟨h1, h2⟩]

/-- **A task for a URL that is not the last one has noticed that its session closed**: there is at most one session at a time. -/
theorem c122_one {space : Char → Bool} {tr : Trace} {s : State} (h : (machine space).Reach tr s) {t t' : Nat} {u : Url}
    (ht : t < t') (h1 : (life t tr).url = some u) (h2 : (life t' tr).url = some u) :
    (life t tr).noticed = true ∧ (life t tr).closed = true := by
  have v := inv_reach h
  have hn := v.order t t' u ht h1 h2
  refine ⟨hn, ?_⟩
  obtain ⟨x, hx, _⟩ := v.known h1
  have f := v.fit t x hx
  generalize life t tr = y at f hn
  cases f <;> first | rfl | cases hn

/-- **A `Connect` made while a task for its URL is there shares what that task has.** -/
theorem c122_share {space : Char → Bool} {tr : Trace} {s : State} (h : (machine space).Reach tr s) {t : Nat} {u : Url}
    (h1 : (life t tr).url = some u) (h2 : (life t tr).noticed = false) :
    (held (tr ++ [(.new u, (step space s (.new u)).1)])).conns = (held tr).conns ++ [some t] := by
  have v := inv_reach h
  rw [(c122_spawn h u).2 t h1 h2, held_snoc]
  show (held tr).conns ++ [lastOf u (held tr).urls] = _
  rw [lookup_last v ((v.pool u t).2 ⟨h1, h2⟩)]

/-- **A `Connect` keeps its task until it is dropped.** -/
theorem c122_keeps {space : Char → Bool} {tr : Trace} {s : State} (h : (machine space).Reach tr s) (op : Op) {c t : Nat}
    (hc : (held tr).conns[c]? = some (some t)) :
    (held (tr ++ [(op, (step space s op).1)])).conns[c]? = if op = .drop c then some none else some (some t) := by
  have v := inv_reach h
  have hlt : c < (held tr).conns.length := (List.getElem?_eq_some_iff.1 hc).1
  rw [held_snoc]
  generalize ho : (step space s op).1 = o
  cases op with
  | drop c' =>
    by_cases e : c' = c
    · subst e
      rw [if_pos rfl]
      have : o = .did [] := by
        rw [← ho]
        show (onConn s c' _).1 = _
        unfold onConn
        rw [← v.conns, hc]
      rw [this]
      show ((held tr).conns.set c' none)[c']? = _
      rw [List.getElem?_set_self hlt]
    · rw [if_neg (by rintro ⟨⟩; exact e rfl)]
      cases o with
      | did l =>
        show ((held tr).conns.set c' none)[c]? = _
        rw [List.getElem?_set_ne e, hc]
      | _ => exact hc
  | new u =>
    rw [if_neg (by rintro ⟨⟩)]
    cases o with
    | conn n sp =>
      cases sp with
      | none =>
        show ((held tr).conns ++ [_])[c]? = _
        rw [List.getElem?_append_left hlt, hc]
      | some t' =>
        show ((held tr).conns ++ [_])[c]? = _
        rw [List.getElem?_append_left hlt, hc]
    | _ => exact hc
  | clone c' =>
    rw [if_neg (by rintro ⟨⟩)]
    cases o with
    | conn n sp =>
      show ((held tr).conns ++ [_])[c]? = _
      rw [List.getElem?_append_left hlt, hc]
    | _ => exact hc
  | _ =>
    rw [if_neg (by rintro ⟨⟩)]
    exact hc

theorem Fit.outcome {space : Char → Bool} {t : Nat} {x : Task} {y : Life} (h : Fit space t x y) (r : Res) :
    x.value = some r ↔ Outcome space t y x.url r := by
  constructor
  · intro e
    cases h <;> cases e
    · exact .session rfl
    · exact .session rfl
    · exact .scheme rfl (by assumption) (by assumption)
    · exact .http rfl
    · exact .fingerprint _ rfl (by assumption)
    · exact .transport rfl
    · exact .moq rfl
  · intro e
    have ready : ∀ {u : Url} {b}, Ready space u b → (u.scheme = "http".toList ∨ u.scheme = "https".toList) ∧ b ≠ some none ∧
        ∀ c, b = some (some c) → pin space c ≠ none := by
      rintro u b (⟨h1, rfl⟩ | ⟨h1, c, rfl, h2⟩)
      · exact ⟨.inr h1, (nomatch ·), fun c hc => (nomatch hc)⟩
      · refine ⟨.inl h1, (nomatch ·), fun d hd hn => ?_⟩
        cases hd
        rw [hn] at h2
        cases h2
    cases h with
    | start u => cases e with
      | scheme h _ _ => cases h
      | fingerprint c h _ => cases h
      | _ => rename_i h; cases h
    | fetch u hu => cases e with
      | scheme _ h1 _ => exact absurd hu h1
      | fingerprint c h _ => cases h
      | _ => rename_i h; cases h
    | dial u b hr => cases e with
      | scheme _ h1 h2 => exact ((ready hr).1.elim h1 h2).elim
      | http h => exact absurd h (ready hr).2.1
      | fingerprint c h hp => exact absurd hp ((ready hr).2.2 c h)
      | _ => rename_i h; cases h
    | setup u b hr => cases e with
      | scheme _ h1 h2 => exact ((ready hr).1.elim h1 h2).elim
      | http h => exact absurd h (ready hr).2.1
      | fingerprint c h hp => exact absurd hp ((ready hr).2.2 c h)
      | _ => rename_i h; cases h
    | watch u b hr c => cases e with
      | scheme _ h1 h2 => exact ((ready hr).1.elim h1 h2).elim
      | http h => exact absurd h (ready hr).2.1
      | fingerprint c h hp => exact absurd hp ((ready hr).2.2 c h)
      | session => rfl
      | _ => rename_i h; cases h
    | noticed u b hr => cases e with
      | scheme _ h1 h2 => exact ((ready hr).1.elim h1 h2).elim
      | http h => exact absurd h (ready hr).2.1
      | fingerprint c h hp => exact absurd hp ((ready hr).2.2 c h)
      | session => rfl
      | _ => rename_i h; cases h
    | scheme u h1 h2 => cases e with
      | scheme => rfl
      | fingerprint c h _ => cases h
      | _ => rename_i h; cases h
    | http u hu => cases e with
      | scheme _ h1 _ => exact absurd hu h1
      | http => rfl
      | fingerprint c h _ => cases h
      | _ => rename_i h; cases h
    | fingerprint u hu b hb => cases e with
      | scheme _ h1 _ => exact absurd hu h1
      | fingerprint => rfl
      | _ => rename_i h; cases h
    | transport u b hr => cases e with
      | scheme _ h1 h2 => exact ((ready hr).1.elim h1 h2).elim
      | http h => exact absurd h (ready hr).2.1
      | fingerprint c h hp => exact absurd hp ((ready hr).2.2 c h)
      | transport => rfl
      | _ => rename_i h; cases h
    | moq u b hr => cases e with
      | scheme _ h1 h2 => exact ((ready hr).1.elim h1 h2).elim
      | http h => exact absurd h (ready hr).2.1
      | fingerprint c h hp => exact absurd hp ((ready hr).2.2 c h)
      | moq => rfl
      | _ => rename_i h; cases h

/-- **`established` gives how connecting ended for the URL, and waits until then**; it does not panic. -/
theorem c122_result {space : Char → Bool} {tr : Trace} {s : State} (h : (machine space).Reach tr s) {c t : Nat}
    (hc : (held tr).conns[c]? = some (some t)) :
    ∃ u, (life t tr).url = some u ∧
      (∀ r, (step space s (.poll c)).1 = .result r ↔ Outcome space t (life t tr) u r) ∧
      ((step space s (.poll c)).1 = .waiting ↔ ¬ ∃ r, Outcome space t (life t tr) u r) := by
  have v := inv_reach h
  rw [v.conns] at hc
  have ht := v.bound c t hc
  have hx : s.tasks[t]? = some s.tasks[t] := List.getElem?_eq_getElem ht
  generalize s.tasks[t] = x at hx
  have f := v.fit t x hx
  have e : (step space s (.poll c)).1 = poll s t := by
    show (onConn s c _).1 = _
    unfold onConn
    rw [hc]
  have e2 : poll s t = match x.value with
    | some r => .result r
    | none => .waiting := by
    unfold poll
    rw [hx]
    dsimp only
    cases hv : x.value with
    | some r => rfl
    | none =>
      have : x.phase ≠ .over := by
        intro hp
        generalize life t tr = y at f
        cases f <;> first | (cases hp; done) | (cases hv; done)
      exact if_neg this
  refine ⟨x.url, f.url, fun r => ?_, ?_⟩
  · rw [e, e2, ← f.outcome]
    cases x.value with
    | none => exact ⟨fun a => (nomatch a), fun a => (nomatch a)⟩
    | some r' => exact ⟨fun a => by cases a; rfl, fun a => by cases a; rfl⟩
  · rw [e, e2]
    cases hv : x.value with
    | none =>
      refine ⟨fun _ ⟨r, hr⟩ => ?_, fun _ => rfl⟩
      have := (f.outcome r).2 hr
      rw [hv] at this
      cases this
    | some r' =>
      refine ⟨fun a => (nomatch a), fun a => ?_⟩
      exact absurd ⟨r', (f.outcome r').1 hv⟩ a

/-- Only a `Connect` that exists can be polled, cloned or dropped. -/
theorem c122_gone {space : Char → Bool} {tr : Trace} {s : State} (h : (machine space).Reach tr s) {c : Nat}
    (hc : ∀ t, (held tr).conns[c]? ≠ some (some t)) (op : Op) (ho : op ∈ [Op.poll c, .clone c, .drop c]) :
    step space s op = (.invalid, s) := by
  have v := inv_reach h
  rw [v.conns] at hc
  have hi : ∀ f, onConn s c f = (.invalid, s) := by
    intro f
    rcases onConn_cases s c f with h | ⟨t, ht, _⟩
    · exact h
    · exact absurd ht (hc t)
  simp only [List.mem_cons, List.not_mem_nil, or_false] at ho
  rcases ho with rfl | rfl | rfl <;> exact hi _

/-- A copy listens to the same task. -/
theorem c122_clone {space : Char → Bool} {tr : Trace} {s : State} (h : (machine space).Reach tr s) {c t : Nat}
    (hc : (held tr).conns[c]? = some (some t)) :
    (held (tr ++ [(.clone c, (step space s (.clone c)).1)])).conns = (held tr).conns ++ [some t] := by
  have v := inv_reach h
  have e : (step space s (.clone c)).1 = .conn s.conns.length none := by
    show (onConn s c _).1 = _
    unfold onConn
    rw [← v.conns, hc]
  rw [held_snoc, e]
  show (held tr).conns ++ [((held tr).conns[c]?).join] = _
  rw [hc]
  rfl

/-- **Sessions that nobody uses are never closed**: the task never finds that it has no receiver. -/
theorem c122_idle {space : Char → Bool} {tr : Trace} {s : State} (h : (machine space).Reach tr s) (t : Nat) :
    step space s (.idle t) = (.invalid, s) := by
  have v := inv_reach h
  show inPhase s t .watch _ = _
  rcases inPhase_cases s t .watch (fun x =>
    if watched s t then (.invalid, s) else (.did [.close], set s t { x with phase := .over, alive := false })) with
    h | ⟨x, hx, hp, h⟩
  · exact h
  · rw [h]
    have f := v.fit t x hx
    have hfn : (life t tr).noticed = false := by
      generalize life t tr = y at f
      cases f <;> first | rfl | cases hp
    exact if_pos (v.watched hx hfn)

/-- **What a task asks for first**: the fingerprint for `http`, a connection for `https`, nothing for another scheme. -/
theorem c122_run {space : Char → Bool} {tr : Trace} {s : State} (h : (machine space).Reach tr s) (t : Nat) :
    (step space s (.run t)).1 = asked (life t tr) := by
  have v := inv_reach h
  show (inPhase s t .start _).1 = _
  unfold inPhase
  cases hx : s.tasks[t]? with
  | none => rw [v.fresh t (List.getElem?_eq_none_iff.1 hx)]; rfl
  | some x =>
    have f := v.fit t x hx
    generalize life t tr = y at f
    cases f with
    | start u =>
      dsimp only
      rw [if_pos rfl]
      unfold start asked
      dsimp only
      by_cases h1 : u.scheme = "http".toList
      · rw [if_pos (show u.scheme = http from h1), if_pos h1]
        rfl
      · rw [if_neg (show ¬ u.scheme = http from h1), if_neg h1]
        by_cases h2 : u.scheme = "https".toList
        · rw [if_pos (show u.scheme = https from h2), if_pos h2]
        · rw [if_neg (show ¬ u.scheme = https from h2), if_neg h2]
    | _ => rfl

/-- **What it asks for with a fingerprint**: a connection to the same URL by `https` with that fingerprint, and none without. -/
theorem c122_fetched {space : Char → Bool} {tr : Trace} {s : State} (h : (machine space).Reach tr s) (t : Nat) (body : Option Text) :
    (step space s (.fetched t body)).1 = pinned space (life t tr) body := by
  have v := inv_reach h
  show (inPhase s t .fetch _).1 = _
  unfold inPhase
  cases hx : s.tasks[t]? with
  | none => rw [v.fresh t (List.getElem?_eq_none_iff.1 hx)]; rfl
  | some x =>
    have f := v.fit t x hx
    generalize life t tr = y at f
    have no : ∀ {u : Url} {b : Option (Option Text)}, Ready space u b → b = none → ¬ u.scheme = "http".toList := by
      rintro u b (⟨h1, _⟩ | ⟨_, c, hc, _⟩) hb hu
      · rw [h1] at hu
        exact absurd hu (by decide)
      · rw [hb] at hc
        cases hc
    have out : ∀ {u : Url} {b : Option (Option Text)} (d : Option Bool) (e : Option Bool) (c : Bool) (n : Bool), Ready space u b →
        pinned space { url := some u, ran := true, body := b, dial := d, setup := e, closed := c, noticed := n } body =
          .invalid := by
      intro u b d e c n hr
      unfold pinned
      dsimp only
      cases b with
      | some b => rfl
      | none =>
        dsimp only
        rw [if_neg (no hr rfl)]
    cases f with
    | fetch u hu =>
      dsimp only
      rw [if_pos rfl]
      unfold fetched pinned
      dsimp only
      rw [if_pos hu]
      cases body with
      | none => rfl
      | some b =>
        show (match Native.hexDecode (Native.trim space b) with
          | none => _
          | some f => _ : Out × State).1 = match pin space b with
          | some f => _
          | none => _
        unfold pin
        cases Native.hexDecode (Native.trim space b) <;> rfl
    | start u => rfl
    | dial u b hr => exact (out _ _ _ _ hr).symm
    | setup u b hr => exact (out _ _ _ _ hr).symm
    | watch u b hr c => exact (out _ _ _ _ hr).symm
    | noticed u b hr => exact (out _ _ _ _ hr).symm
    | scheme u h1 h2 =>
      unfold pinned
      dsimp only
      rw [if_neg h1]
      rfl
    | http u hu => rfl
    | fingerprint u hu b hb => rfl
    | transport u b hr => exact (out _ _ _ _ hr).symm
    | moq u b hr => exact (out _ _ _ _ hr).symm

/-- **The other steps of a task come once and in order**: connecting after what it needs is there, the handshake after connecting, the
session closing after the handshake, and noticing that after it closed. -/
theorem c122_order {space : Char → Bool} {tr : Trace} {s : State} (h : (machine space).Reach tr s) (t : Nat) (b : Bool) :
    (step space s (.dialled t b)).1 ∈ [Out.did [], .invalid] ∧
    ((step space s (.dialled t b)).1 = .did [] ↔ (life t tr).ran = true ∧ (life t tr).dial = none ∧
        ∃ u, (life t tr).url = some u ∧ Ready space u (life t tr).body) ∧
    (step space s (.setup t b)).1 = (if (life t tr).dial = some true ∧ (life t tr).setup = none then .did [] else .invalid) ∧
    (step space s (.close t)).1 = (if (life t tr).setup = some true ∧ (life t tr).closed = false then .did [] else .invalid) ∧
    (step space s (.notice t)).1 =
      (if (life t tr).closed = true ∧ (life t tr).noticed = false then .did [] else .invalid) := by
  have v := inv_reach h
  show (inPhase s t .dial _).1 ∈ _ ∧ ((inPhase s t .dial _).1 = _ ↔ _) ∧ (inPhase s t .setup _).1 = _ ∧ (inPhase s t .watch _).1 = _ ∧ (inPhase s t .watch _).1 = _
  unfold inPhase
  cases hx : s.tasks[t]? with
  | none =>
    rw [v.fresh t (List.getElem?_eq_none_iff.1 hx)]
    exact ⟨.tail _ (.head _), ⟨fun a => (nomatch a), fun a => (nomatch a.1)⟩, rfl, rfl, rfl⟩
  | some x =>
    have f := v.fit t x hx
    generalize life t tr = y at f
    cases f with
    | start u => exact ⟨.tail _ (.head _), ⟨fun a => (nomatch a), fun a => (nomatch a.1)⟩, rfl, rfl, rfl⟩
    | fetch u hu =>
      refine ⟨.tail _ (.head _), ⟨fun a => (nomatch a), ?_⟩, rfl, rfl, rfl⟩
      · rintro ⟨_, _, w, hw, hr⟩
        cases hw
        rcases hr with ⟨h1, _⟩ | ⟨_, c, hc, _⟩
        · rw [hu] at h1
          exact absurd h1 (by decide)
        · cases hc
    | dial u c hr => exact ⟨.head _, ⟨fun _ => ⟨rfl, rfl, u, rfl, hr⟩, fun _ => rfl⟩, rfl, rfl, rfl⟩
    | setup u c hr => exact ⟨.tail _ (.head _), ⟨fun a => (nomatch a), fun a => (nomatch a.2.1)⟩, rfl, rfl, rfl⟩
    | watch u c hr d =>
      refine ⟨.tail _ (.head _), ⟨fun a => (nomatch a), fun a => (nomatch a.2.1)⟩, rfl, ?_, ?_⟩
      · cases d <;> rfl
      · cases d <;> rfl
    | noticed u c hr => exact ⟨.tail _ (.head _), ⟨fun a => (nomatch a), fun a => (nomatch a.2.1)⟩, rfl, rfl, rfl⟩
    | scheme u h1 h2 =>
      refine ⟨.tail _ (.head _), ⟨fun a => (nomatch a), ?_⟩, rfl, rfl, rfl⟩
      · rintro ⟨_, _, w, hw, hr⟩
        cases hw
        rcases hr with ⟨h3, _⟩ | ⟨h3, _⟩
        · exact (h2 h3).elim
        · exact (h1 h3).elim
    | http u hu =>
      refine ⟨.tail _ (.head _), ⟨fun a => (nomatch a), ?_⟩, rfl, rfl, rfl⟩
      · rintro ⟨_, _, w, hw, hr⟩
        cases hw
        rcases hr with ⟨_, h3⟩ | ⟨_, c, hc, _⟩
        · cases h3
        · cases hc
    | fingerprint u hu c hc =>
      refine ⟨.tail _ (.head _), ⟨fun a => (nomatch a), ?_⟩, rfl, rfl, rfl⟩
      · rintro ⟨_, _, w, hw, hr⟩
        cases hw
        rcases hr with ⟨_, h3⟩ | ⟨_, d, hd, h4⟩
        · cases h3
        · cases hd
          rw [hc] at h4
          cases h4
    | transport u c hr => exact ⟨.tail _ (.head _), ⟨fun a => (nomatch a), fun a => (nomatch a.2.1)⟩, rfl, rfl, rfl⟩
    | moq u c hr => exact ⟨.tail _ (.head _), ⟨fun a => (nomatch a), fun a => (nomatch a.2.1)⟩, rfl, rfl, rfl⟩

/-- What happened to a task that failed does not change any more. -/
theorem failed_stays {space : Char → Bool} {tr : Trace} {s : State} (h : (machine space).Reach tr s) (op : Op) {t : Nat} {u : Url}
    {e : Failure} (hu : (life t tr).url = some u) (he : Outcome space t (life t tr) u (.failed e)) :
    life t (tr ++ [(op, (step space s op).1)]) = life t tr := by
  have v := inv_reach h
  obtain ⟨x, hx, rfl⟩ := v.known hu
  have f := v.fit t x hx
  have hv := (f.outcome _).2 he
  have hp : x.phase = .over := by
    generalize life t tr = y at f
    cases f <;> first | rfl | (cases hv; done)
  have hi : ∀ p f, p ≠ .over → (inPhase s t p f).1 = .invalid := by
    intro p f hne
    unfold inPhase
    rw [hx]
    dsimp only
    rw [if_neg (by rw [hp]; exact fun a => hne a.symm)]
  have ht : t < s.tasks.length := (List.getElem?_eq_some_iff.1 hx).1
  rw [life_snoc]
  have key : ∀ t' p g, p ≠ .over → (∀ y o, t' ≠ t → note t y (op, o) = y) → (∀ y, note t y (op, .invalid) = y) →
      (step space s op).1 = (inPhase s t' p g).1 → note t (life t tr) (op, (step space s op).1) = life t tr := by
    intro t' p g hne h1 h2 h3
    by_cases h' : t' = t
    · subst h'
      rw [h3, hi p g hne, h2]
    · exact h1 _ _ h'
  cases op with
  | new w =>
    show note t _ (.new w, (new s w).1) = _
    unfold new
    cases lookup s.pool w with
    | some t' => rfl
    | none => exact if_neg (by omega)
  | run t' =>
    refine key t' _ _ (by decide) (fun y o h' => ?_) (fun _ => rfl) rfl
    cases o <;> first | exact if_neg h' | rfl
  | fetched t' b =>
    refine key t' _ _ (by decide) (fun y o h' => ?_) (fun _ => rfl) rfl
    cases o <;> first | exact if_neg h' | rfl
  | dialled t' b =>
    refine key t' _ _ (by decide) (fun y o h' => ?_) (fun _ => rfl) rfl
    cases o <;> first | exact if_neg h' | rfl
  | setup t' b =>
    refine key t' _ _ (by decide) (fun y o h' => ?_) (fun _ => rfl) rfl
    cases o <;> first | exact if_neg h' | rfl
  | close t' =>
    refine key t' _ _ (by decide) (fun y o h' => ?_) (fun _ => rfl) rfl
    cases o <;> first | exact if_neg h' | rfl
  | notice t' =>
    refine key t' _ _ (by decide) (fun y o h' => ?_) (fun _ => rfl) rfl
    cases o <;> first | exact if_neg h' | rfl
  | _ => rfl

theorem failed_run {space : Char → Bool} {t : Nat} {u : Url} {e : Failure} (ops : List Op) :
    ∀ {tr : Trace} {s : State}, (machine space).Reach tr s → (life t tr).url = some u →
      Outcome space t (life t tr) u (.failed e) →
      life t (tr ++ ((machine space).runFrom s ops).1) = life t tr := by
  induction ops with
  | nil => intro tr s _ _ _; exact congrArg (life t) (List.append_nil tr)
  | cons op ops ih =>
    intro tr s h hu he
    have h1 := failed_stays h op hu he
    have := ih (Machine.Reach.step (M := machine space) op h) (by rw [h1]; exact hu) (by rw [h1]; exact he)
    rw [h1, List.append_assoc] at this
    exact this

/-- **Connecting to a URL that once failed fails for ever** with the same error, without another attempt. -/
theorem c122_failed {space : Char → Bool} {tr : Trace} {s : State} (h : (machine space).Reach tr s) {t : Nat} {u : Url}
    {e : Failure} (hu : (life t tr).url = some u) (he : Outcome space t (life t tr) u (.failed e)) (ops : List Op) :
    ∃ c, (step space ((machine space).runFrom s ops).2 (.new u)).1 = .conn c none ∧
      (step space (step space ((machine space).runFrom s ops).2 (.new u)).2 (.poll c)).1 = .result (.failed e) := by
  have h1 := failed_run ops h hu he
  have hr := (machine space).reach_runFrom h ops
  have hu' : (life t (tr ++ ((machine space).runFrom s ops).1)).url = some u := by rw [h1]; exact hu
  have hn : (life t (tr ++ ((machine space).runFrom s ops).1)).noticed = false := by
    rw [h1]
    have v := inv_reach h
    obtain ⟨x, hx, rfl⟩ := v.known hu
    have f := v.fit t x hx
    have hv := (f.outcome _).2 he
    generalize life t tr = y at f
    cases f <;> first | rfl | (cases hv; done)
  have h2 := (c122_spawn hr u).2 t hu' hn
  refine ⟨_, h2, ?_⟩
  have h3 := c122_share hr hu' hn
  have hr' := Machine.Reach.step (M := machine space) (.new u) hr
  have h4 := c122_result hr' (c := (held (tr ++ ((machine space).runFrom s ops).1)).conns.length) (t := t) (by
    show (held (_ ++ [(Op.new u, (step space _ (.new u)).1)])).conns[_]? = _
    rw [h3]
    simp)
  obtain ⟨w, hw, h5, _⟩ := h4
  have h6 := failed_stays hr (.new u) hu' (by rw [h1]; exact he)
  have hw' : w = u := by
    change (life t (_ ++ [(Op.new u, (step space _ (.new u)).1)])).url = some w at hw
    rw [h6, hu'] at hw
    exact (Option.some.inj hw).symm
  subst hw'
  refine (h5 _).2 ?_
  show Outcome space t (life t (_ ++ [(Op.new w, (step space _ (.new w)).1)])) w _
  rw [h6, h1]
  exact he

/-! ## Cases -/

def sp (c : Char) : Bool := c == ' ' || c == Char.ofNat 10

def urlS : Url := ⟨"https".toList, 1, none, "/a".toList⟩

def urlH : Url := ⟨"http".toList, 1, some 4443, "/a".toList⟩

/-- A session that two `Connect`s share. -/
def exShared : List Op := [.new urlS, .run 0, .new urlS, .dialled 0 true, .setup 0 true]

example : (life 0 ((machine sp).run exShared).1).url = some urlS ∧ (life 0 ((machine sp).run exShared).1).noticed = false ∧
    (held ((machine sp).run exShared).1).conns = [some 0, some 0] := by decide

example : (step sp ((machine sp).run exShared).2 (.poll 1)).1 = .result (.session 0) := by decide

theorem leak {tr : Trace} {s : State} (h : (machine sp).Reach tr s) (h1 : (life 0 tr).setup = some true)
    (h2 : (life 0 tr).closed = false) (h3 : ∀ c ∈ (held tr).conns, c = none) :
    ∃ (tr : Trace) (s : State), (machine sp).Reach tr s ∧ (life 0 tr).setup = some true ∧
      (life 0 tr).closed = false ∧ (∀ c ∈ (held tr).conns, c = none) ∧ ∀ t, (step sp s (.idle t)).1 = .invalid :=
  ⟨tr, s, h, h1, h2, h3, fun t => by rw [c122_idle h t]⟩

/-- **A session stays open when all `Connect`s were dropped**, contrary to the comment on the task. -/
theorem c122_leak : ∃ (tr : Trace) (s : State), (machine sp).Reach tr s ∧ (life 0 tr).setup = some true ∧
    (life 0 tr).closed = false ∧ (∀ c ∈ (held tr).conns, c = none) ∧ ∀ t, (step sp s (.idle t)).1 = .invalid :=
  leak ((machine sp).reach_run (exShared ++ [.drop 0, .drop 1])) (by decide) (by decide) (by decide)

/-- **A `Connect` can get a session that closed before it was made**, as long as the task has not noticed. -/
theorem c122_stale : ∃ (tr : Trace) (s : State), (machine sp).Reach tr s ∧ (life 0 tr).closed = true ∧
    (step sp s (.new urlS)).1 = .conn 2 none ∧ (step sp (step sp s (.new urlS)).2 (.poll 2)).1 = .result (.session 0) :=
  ⟨_, _, (machine sp).reach_run (exShared ++ [.close 0]), by decide, by decide, by decide⟩

/-- **An empty answer passes for a fingerprint.** -/
theorem c122_blank : ∃ (tr : Trace) (s : State), (machine sp).Reach tr s ∧
    (step sp s (.fetched 0 (some [Char.ofNat 10]))).1 = .did [.dial (tls urlH) (some [])] :=
  ⟨_, _, (machine sp).reach_run [.new urlH, .run 0], by decide⟩

/-- After the task noticed, the next `Connect` starts another; the old one keeps the closed session. -/
def exRenew : List Op := exShared ++ [.close 0, .notice 0, .new urlS]

example : (life 0 ((machine sp).run exRenew).1).url = some urlS ∧ (life 1 ((machine sp).run exRenew).1).url = some urlS ∧
    (held ((machine sp).run exRenew).1).conns = [some 0, some 0, some 1] := by decide

example : (step sp ((machine sp).run exRenew).2 (.poll 0)).1 = .result (.session 0) ∧
    (step sp ((machine sp).run exRenew).2 (.poll 2)).1 = .waiting := by decide

/-- A failure, and a fingerprint. -/
def exFail : List Op := [.new urlH, .run 0, .fetched 0 (some "0aFf ".toList), .dialled 0 false]

example : (life 0 ((machine sp).run exFail).1).url = some urlH ∧ (life 0 ((machine sp).run exFail).1).dial = some false := by decide

example : Outcome sp 0 (life 0 ((machine sp).run exFail).1) urlH (.failed .transport) := .transport (by decide)

example : (((machine sp).run exFail).1.map (·.2)) =
    [.conn 0 (some 0), .did [.fetch { urlH with path := "/certificate.sha256".toList }],
      .did [.dial (tls urlH) (some [10, 255])], .did []] := by decide

end Verif.Props.WasmPool
