import Verif.Js.WatchingLemmas

/-!
# Property C111: watching a broadcast in the browser
-/

set_option autoImplicit false

namespace Verif.Props.JsWatching

open Verif Verif.Js.Watching

/-! ## Specification -/

/-- The connection and the path that are to be watched. -/
def wanted (tr : Trace) : Option (Nat × Nat) :=
  if Closed tr ∨ (sig tr).enabled = false then none else (sig tr).conn.map fun c => (c, (sig tr).path)

/-- Announcements `i` were asked for and not closed. -/
def OpenAnnounced (tr : Trace) (i c p : Nat) : Prop := .announced i c p ∈ calls tr ∧ .closeAnnounced i ∉ calls tr

/-- Broadcast `k` was consumed and not closed. -/
def OpenBroadcast (tr : Trace) (k c p : Nat) : Prop := .consume k c p ∈ calls tr ∧ .closeBroadcast k ∉ calls tr

/-- Subscription `j` to the catalog of broadcast `k` was made and not closed. -/
def OpenTrack (tr : Trace) (j k : Nat) : Prop := .subscribe j k ∈ calls tr ∧ .closeTrack j ∉ calls tr

/-- An announcement was heard after it was closed. -/
def LateHeard (tr : Trace) : Prop :=
  ∃ pre i b cs post, tr = pre ++ (.hear i, .heard (.active b) cs) :: post ∧ .closeAnnounced i ∈ calls pre

/-- Nothing arrives on a subscription before the loops of all older ones have ended. -/
def Swift (tr : Trace) : Prop :=
  ∀ pre j r post, tr = pre ++ (.fetched j r, .ok) :: post → ∀ i, i < j → Over pre i

/-- Nothing is under way. -/
def Idle (s : State) : Prop := (∀ u, .ready u ∉ s.loops) ∧ ∀ r, .ready r ∉ s.runs

/-! ## Lemmas -/

theorem mem_madeA (l : List Call) (i c p : Nat) : (i, c, p) ∈ madeA l ↔ .announced i c p ∈ l := by
  unfold madeA
  rw [List.mem_filterMap]
  constructor
  · rintro ⟨x, hx, h⟩
    cases x <;> simp at h
    obtain ⟨rfl, rfl, rfl⟩ := h
    exact hx
  · exact fun h => ⟨_, h, rfl⟩

theorem mem_shutA (l : List Call) (i : Nat) : i ∈ shutA l ↔ .closeAnnounced i ∈ l := by
  unfold shutA
  rw [List.mem_filterMap]
  constructor
  · rintro ⟨x, hx, h⟩
    cases x <;> simp at h
    subst h
    exact hx
  · exact fun h => ⟨_, h, rfl⟩

theorem mem_madeB (l : List Call) (i c p : Nat) : (i, c, p) ∈ madeB l ↔ .consume i c p ∈ l := by
  unfold madeB
  rw [List.mem_filterMap]
  constructor
  · rintro ⟨x, hx, h⟩
    cases x <;> simp at h
    obtain ⟨rfl, rfl, rfl⟩ := h
    exact hx
  · exact fun h => ⟨_, h, rfl⟩

theorem mem_shutB (l : List Call) (i : Nat) : i ∈ shutB l ↔ .closeBroadcast i ∈ l := by
  unfold shutB
  rw [List.mem_filterMap]
  constructor
  · rintro ⟨x, hx, h⟩
    cases x <;> simp at h
    subst h
    exact hx
  · exact fun h => ⟨_, h, rfl⟩

theorem mem_madeC (l : List Call) (j k : Nat) : (j, k) ∈ madeC l ↔ .subscribe j k ∈ l := by
  unfold madeC
  rw [List.mem_filterMap]
  constructor
  · rintro ⟨x, hx, h⟩
    cases x <;> simp at h
    obtain ⟨rfl, rfl⟩ := h
    exact hx
  · exact fun h => ⟨_, h, rfl⟩

theorem mem_shutC (l : List Call) (j : Nat) : j ∈ shutC l ↔ .closeTrack j ∈ l := by
  unfold shutC
  rw [List.mem_filterMap]
  constructor
  · rintro ⟨x, hx, h⟩
    cases x <;> simp at h
    subst h
    exact hx
  · exact fun h => ⟨_, h, rfl⟩

theorem swift_init {tr : Trace} {e : Op × Out} (h : Swift (tr ++ [e])) : Swift tr := by
  intro pre j r post ht
  exact h pre j r (post ++ [e]) (by rw [ht]; simp)

theorem swift_last {tr : Trace} {j : Nat} {r : Res} (h : Swift (tr ++ [(.fetched j r, .ok)])) :
    ∀ i, i < j → Over tr i := h tr j r [] rfl

theorem late_init {tr : Trace} {e : Op × Out} (h : LateHeard tr) : LateHeard (tr ++ [e]) := by
  obtain ⟨pre, i, b, cs, post, h1, h2⟩ := h
  exact ⟨pre, i, b, cs, post ++ [e], by rw [h1]; simp, h2⟩

/-- What the loops of subscriptions have done. -/
structure Cat (tr : Trace) (s : State) : Prop where
  over : ∀ j, Over tr j ↔ s.runs[j]? = some .over
  quiet : (∀ j, j < s.runs.length → Over tr j) → s.catalog = none ∧ s.status = .offline
  live : s.status = .live → s.catalog ≠ none
  last : ∀ j, s.track = some j → j + 1 = s.runs.length
  lt : ∀ j, s.runs.length ≤ j → shownBy tr j = none
  fresh : Swift tr → ∀ i j, i < j → j < s.runs.length → ¬ Over tr i →
    s.runs[j]? = some .waiting ∧ shownBy tr j = none
  shown : Swift tr → ∀ j, s.runs.length = j + 1 → (∀ i, i < j → Over tr i) → ¬ Over tr j →
    s.catalog = shownBy tr j ∧ (shownBy tr j ≠ none → s.status = .live)

theorem Cat.starts {tr tr' : Trace} {s s' : State} (c : Cat tr s) (st : StartsC s s')
    (hO : ∀ j, Over tr' j ↔ Over tr j) (hS : ∀ j, shownBy tr' j = shownBy tr j) (hW : Swift tr' → Swift tr) :
    Cat tr' s' := by
  rcases st.runs with ⟨h1, h2, h3⟩ | ⟨h1, h2, h3⟩
  · refine ⟨?_, ?_, ?_, ?_, ?_, ?_, ?_⟩
    · intro j
      rw [hO, h1]
      exact c.over j
    · intro h
      rw [st.catalog, h2]
      exact c.quiet fun j hj => (hO j).1 (h j (by rw [h1]; exact hj))
    · rw [h2, st.catalog]
      exact c.live
    · intro j hj
      rw [h1]
      rcases h3 with h3 | h3
      · exact c.last j (h3 ▸ hj)
      · rw [h3] at hj
        cases hj
    · intro j
      rw [h1, hS]
      exact c.lt j
    · intro hw i j
      rw [h1, hS, hO]
      exact c.fresh (hW hw) i j
    · intro hw j
      rw [h1, hS, hO, st.catalog, h2]
      intro h4 h5
      exact c.shown (hW hw) j h4 fun i hi => (hO i).1 (h5 i hi)
  · have hlen : s'.runs.length = s.runs.length + 1 := by rw [h1]; simp
    have hlast : s'.runs[s.runs.length]? = some .waiting := by rw [h1]; simp
    have hnew : ¬ Over tr s.runs.length := by
      rw [c.over]
      simp
    refine ⟨?_, ?_, ?_, ?_, ?_, ?_, ?_⟩
    · intro j
      rw [hO, c.over, h1]
      by_cases hj : j < s.runs.length
      · rw [List.getElem?_append_left hj]
      · rw [List.getElem?_eq_none (by omega)]
        constructor
        · intro h
          cases h
        · intro h
          rw [List.getElem?_append_right (by omega)] at h
          cases hk : j - s.runs.length with
          | zero => rw [hk] at h; simp at h
          | succ k => rw [hk] at h; simp at h
    · intro h
      exact absurd ((hO _).1 (h s.runs.length (by omega))) hnew
    · rw [h2]
      intro h
      cases h
    · intro j hj
      rw [h3] at hj
      injection hj with hj
      omega
    · intro j hj
      rw [hS]
      exact c.lt j (by omega)
    · intro hw i j hi hj hn
      rw [hS]
      by_cases hj' : j = s.runs.length
      · rw [hj']
        exact ⟨hlast, c.lt _ (Nat.le_refl _)⟩
      · have := c.fresh (hW hw) i j hi (by omega) fun h => hn ((hO i).2 h)
        rw [h1, List.getElem?_append_left (by omega)]
        exact this
    · intro hw j hj hall hn
      have hj' : j = s.runs.length := by omega
      subst hj'
      rw [hS, c.lt _ (Nat.le_refl _), st.catalog]
      exact ⟨(c.quiet fun i hi => (hO i).1 (hall i hi)).1, fun h => absurd rfl h⟩

theorem Cat.fetched {tr : Trace} {s : State} (c : Cat tr s) (j : Nat) (r : Res) (hj : s.runs[j]? = some .waiting) :
    Cat (tr ++ [(.fetched j r, .ok)]) { s with runs := s.runs.set j (.ready r) } := by
  have hlt : j < s.runs.length := (List.getElem?_eq_some_iff.1 hj).1
  have hO : ∀ i, Over (tr ++ [(.fetched j r, .ok)]) i ↔ Over tr i := by
    intro i
    rw [over_snoc]
    simp
  have hS : ∀ i, shownBy (tr ++ [(.fetched j r, .ok)]) i = shownBy tr i := by
    intro i
    rw [shownBy_snoc]
  refine ⟨?_, ?_, c.live, ?_, ?_, ?_, ?_⟩
  · intro i
    rw [hO, c.over]
    show _ ↔ (s.runs.set j _)[i]? = _
    by_cases hi : j = i
    · subst hi
      rw [List.getElem?_set_self hlt, hj]
      simp
    · rw [List.getElem?_set_ne hi]
  · intro h
    exact c.quiet fun i hi => (hO i).1 (h i (by simpa using hi))
  · intro i hi
    have := c.last i hi
    simpa using this
  · intro i hi
    rw [hS]
    exact c.lt i (by simpa using hi)
  · intro hw i k hi hk hn
    rw [hO] at hn
    rw [hS]
    have := c.fresh (swift_init hw) i k hi (by simpa using hk) hn
    by_cases hjk : j = k
    · subst hjk
      exact absurd (swift_last hw i hi) hn
    · exact ⟨(List.getElem?_set_ne hjk).trans this.1, this.2⟩
  · intro hw i hi hall hn
    rw [hS]
    rw [hO] at hn
    exact c.shown (swift_init hw) i (by simpa using hi) (fun k hk => (hO k).1 (hall k hk)) hn

theorem Cat.show {tr : Trace} {s : State} (c : Cat tr s) (j : Nat) (r : Res) (hj : s.runs[j]? = some (.ready r)) :
    Cat (tr ++ [(.show j, (shows s j r).1)]) (shows s j r).2 := by
  have hlt : j < s.runs.length := (List.getElem?_eq_some_iff.1 hj).1
  have hnj : ¬ Over tr j := by
    rw [c.over, hj]
    simp
  cases r with
  | update v =>
    have hO : ∀ i, Over (tr ++ [(.show j, .shown v)]) i ↔ Over tr i := by
      intro i
      rw [over_snoc]
      simp
    have hS : ∀ i, shownBy (tr ++ [(.show j, .shown v)]) i = if j = i then some v else shownBy tr i := by
      intro i
      rw [shownBy_snoc]
    refine ⟨?_, ?_, ?_, ?_, ?_, ?_, ?_⟩
    · intro i
      show Over (tr ++ [(.show j, .shown v)]) i ↔ (s.runs.set j _)[i]? = _
      rw [hO, c.over]
      by_cases hi : j = i
      · subst hi
        rw [List.getElem?_set_self hlt, hj]
        simp
      · rw [List.getElem?_set_ne hi]
    · intro h
      exact absurd ((hO j).1 (h j (by simpa [shows] using hlt))) hnj
    · exact fun _ h => (by cases h)
    · intro i hi
      have := c.last i hi
      simpa [shows] using this
    · intro i hi
      have hi' : s.runs.length ≤ i := by simpa [shows] using hi
      show shownBy (tr ++ [(.show j, .shown v)]) i = none
      rw [hS, if_neg (by omega)]
      exact c.lt i hi'
    · intro hw i k hi hk hn
      have hk' : k < s.runs.length := by simpa [shows] using hk
      have hn' : ¬ Over tr i := fun h => hn ((hO i).2 h)
      have := c.fresh (swift_init hw) i k hi hk' hn'
      have hjk : j ≠ k := by
        rintro rfl
        rw [hj] at this
        simp at this
      show (s.runs.set j _)[k]? = _ ∧ shownBy (tr ++ [(.show j, .shown v)]) k = none
      rw [hS, if_neg hjk, List.getElem?_set_ne hjk]
      exact this
    · intro hw i hi hall hn
      have hi' : s.runs.length = i + 1 := by simpa [shows] using hi
      have hij : j = i := by
        rcases Nat.lt_or_ge j i with h | h
        · exact absurd ((hO j).1 (hall j h)) hnj
        · omega
      show some v = shownBy (tr ++ [(.show j, .shown v)]) i ∧ (_ → Status.live = .live)
      rw [hS, if_pos hij]
      exact ⟨rfl, fun _ => rfl⟩
  | done =>
    have hO : ∀ i, Over (tr ++ [(.show j, .over)]) i ↔ Over tr i ∨ i = j := by
      intro i
      rw [over_snoc]
      simp [eq_comm]
    have hS : ∀ i, shownBy (tr ++ [(.show j, .over)]) i = shownBy tr i := by
      intro i
      rw [shownBy_snoc]
    refine ⟨?_, ?_, ?_, ?_, ?_, ?_, ?_⟩
    · intro i
      show Over (tr ++ [(.show j, .over)]) i ↔ (s.runs.set j _)[i]? = _
      rw [hO, c.over]
      by_cases hi : j = i
      · subst hi
        rw [List.getElem?_set_self hlt]
        simp
      · rw [List.getElem?_set_ne hi]
        constructor
        · rintro (h | h)
          · exact h
          · exact absurd h.symm hi
        · exact .inl
    · exact fun _ => ⟨rfl, rfl⟩
    · exact fun h => (by cases h)
    · intro i hi
      have := c.last i hi
      simpa [shows] using this
    · intro i hi
      show shownBy (tr ++ [(.show j, .over)]) i = none
      rw [hS]
      exact c.lt i (by simpa [shows] using hi)
    · intro hw i k hi hk hn
      have hk' : k < s.runs.length := by simpa [shows] using hk
      have hn' : ¬ Over tr i := fun h => hn ((hO i).2 (.inl h))
      have := c.fresh (swift_init hw) i k hi hk' hn'
      have hjk : j ≠ k := by
        rintro rfl
        rw [hj] at this
        simp at this
      show (s.runs.set j _)[k]? = _ ∧ shownBy (tr ++ [(.show j, .over)]) k = none
      rw [hS, List.getElem?_set_ne hjk]
      exact this
    · intro hw i hi hall hn
      have hi' : s.runs.length = i + 1 := by simpa [shows] using hi
      have hij : j < i := by
        have : ¬ i = j := fun h => hn ((hO i).2 (.inr h))
        omega
      show none = shownBy (tr ++ [(.show j, .over)]) i ∧ (shownBy (tr ++ [(.show j, .over)]) i ≠ none → Status.offline = .live)
      rw [hS, (c.fresh (swift_init hw) j i hij (by omega) hnj).2]
      exact ⟨rfl, fun h => absurd rfl h⟩

/-- What the loops of announcements have done. -/
structure Act (reload : Bool) (tr : Trace) (s : State) : Prop where
  lt : ∀ i, s.loops.length ≤ i → heardBy tr i = none
  ann : ∀ i, s.announced = some i → i < s.loops.length
  heard : reload = true → ¬ LateHeard tr → ∀ i b, s.announced = some i → heardBy tr i = some b → s.active = b

theorem Act.starts {reload : Bool} {tr tr' : Trace} {s s' : State} (a : Act reload tr s) (st : StartsA s s')
    (hact : reload = true → s'.active = s.active)
    (hH : ∀ i, heardBy tr' i = heardBy tr i) (hL : LateHeard tr → LateHeard tr') : Act reload tr' s' := by
  rcases st with ⟨h1, h2⟩ | ⟨h1, h2⟩
  · refine ⟨?_, ?_, ?_⟩
    · intro i
      rw [h1, hH]
      exact a.lt i
    · intro i hi
      rw [h1]
      rcases h2 with h2 | h2
      · exact a.ann i (h2 ▸ hi)
      · rw [h2] at hi
        cases hi
    · intro hr hl i b hi
      rw [hH, hact hr]
      rcases h2 with h2 | h2
      · exact a.heard hr (fun h => hl (hL h)) i b (h2 ▸ hi)
      · rw [h2] at hi
        cases hi
  · refine ⟨?_, ?_, ?_⟩
    · intro i hi
      rw [hH]
      rw [h1] at hi
      exact a.lt i (by omega)
    · intro i hi
      rw [h2] at hi
      injection hi with hi
      rw [h1]
      omega
    · intro hr hl i b hi hb
      rw [h2] at hi
      injection hi with hi
      rw [hH, ← hi, a.lt _ (Nat.le_refl _)] at hb
      cases hb

/-- State and history. -/
structure Inv (reload : Bool) (tr : Trace) (s : State) : Prop where
  sig : s.sig = sig tr
  closed : s.closed = true ↔ Closed tr
  things : Things reload (calls tr) s
  cat : Cat tr s
  act : Act reload tr s

theorem init_inv (reload : Bool) : Inv reload [] init := by
  have h0 : ∀ {X : Type}, One ([] : List (Nat × X)) [] 0 none :=
    ⟨fun _ h => (by cases h), fun _ h => (by cases h), fun _ h => absurd h (Nat.not_lt_zero _),
      fun _ _ => ⟨fun h => (by cases h.1), fun h => (by cases h)⟩⟩
  refine ⟨rfl, ⟨fun h => (by cases h), fun h => (by cases h)⟩, ⟨?_, ?_, ?_, ?_, ?_, ?_⟩, ⟨?_, ?_, ?_, ?_, ?_, ?_, ?_⟩,
    ⟨fun _ _ => rfl, fun _ h => (by cases h), fun _ _ _ _ h => (by cases h)⟩⟩
  · exact ⟨none, h0, rfl, by simp [wantA, init]⟩
  · exact ⟨none, h0, rfl, by simp [wantB, init]⟩
  · exact ⟨none, h0, rfl, rfl⟩
  · exact fun h => absurd rfl h
  · simp [init]
  · exact fun _ => rfl
  · intro j
    constructor
    · intro h
      cases h
    · intro h
      simp [init] at h
  · exact fun _ => ⟨rfl, rfl⟩
  · exact fun h => (by cases h)
  · exact fun _ h => (by cases h)
  · exact fun _ _ => rfl
  · exact fun _ _ j _ h => absurd h (Nat.not_lt_zero j)
  · exact fun _ j h => absurd h (by simp [init])

theorem Inv.invalid {reload : Bool} {tr : Trace} {s : State} (i : Inv reload tr s) (op : Op) (h1 : ∀ x, op ≠ .set x)
    (h2 : op = .close → Closed tr) : Inv reload (tr ++ [(op, .invalid)]) s := by
  refine ⟨?_, ?_, ?_, ?_, ?_⟩
  · rw [i.sig, sig_snoc]
    cases op <;> first | rfl | exact absurd rfl (h1 _)
  · rw [closed_snoc, i.closed]
    exact ⟨.inl, fun h => h.elim id h2⟩
  · rw [calls_snoc]
    exact (List.append_nil (calls tr)).symm ▸ i.things
  · refine i.cat.starts (Starts.refl s).c ?_ ?_ swift_init
    · intro j
      rw [over_snoc]
      simp
    · intro j
      rw [shownBy_snoc]
      split <;> first | rfl | (next h => cases h)
  · refine i.act.starts (Starts.refl s).a (fun _ => rfl) ?_ late_init
    intro j
    rw [heardBy_snoc]
    split <;> first | rfl | (next h => cases h)

theorem Inv.loop {reload : Bool} {tr : Trace} {s : State} (i : Inv reload tr s) (j : Nat) (x : Loop Upd) (op : Op) (o : Out)
    (h1 : ∀ x, op ≠ .set x) (h2 : op ≠ .close) (h3 : ∀ k, op ≠ .show k) (h4 : ∀ b cs, o ≠ .heard (.active b) cs)
    (h5 : o.calls = []) : Inv reload (tr ++ [(op, o)]) { s with loops := s.loops.set j x } := by
  refine ⟨?_, ?_, ?_, ?_, ?_⟩
  · rw [sig_snoc]
    cases op <;> first | exact i.sig | exact absurd rfl (h1 _)
  · rw [closed_snoc]
    exact i.closed.trans ⟨.inl, fun h => h.elim id fun h => absurd h h2⟩
  · rw [calls_snoc, h5, List.append_nil]
    exact i.things.frame rfl (by simp) rfl
  · refine i.cat.starts ⟨rfl, .inl ⟨rfl, rfl, .inl rfl⟩⟩ ?_ ?_ swift_init
    · intro k
      rw [over_snoc]
      exact ⟨fun h => h.elim id fun h => absurd h.1 (h3 k), .inl⟩
    · intro k
      rw [shownBy_snoc]
      split
      · exact absurd rfl (h3 _)
      · rfl
  · refine i.act.starts (.inl ⟨by simp, .inl rfl⟩) (fun _ => rfl) ?_ late_init
    intro k
    rw [heardBy_snoc]
    split
    · exact absurd rfl (h4 _ _)
    · rfl

/-- Effects in a state that agrees with the history but for signals. -/
theorem Inv.effects {reload : Bool} {tr : Trace} {s s' s'' : State} {cs : List Call} {op : Op} {o : Out}
    (ho : o.calls = cs) (hsig : s''.sig = Verif.Js.Watching.sig (tr ++ [(op, o)]))
    (hcl : s''.closed = true ↔ Closed (tr ++ [(op, o)])) (ht : Things reload (calls tr ++ cs) s'')
    (hc : Cat tr s) (hs : StartsC s s'') (h3 : ∀ k, op ≠ .show k)
    (ha : Act reload (tr ++ [(op, o)]) s') (hs' : StartsA s' s'') (hact : reload = true → s''.active = s'.active) :
    Inv reload (tr ++ [(op, o)]) s'' := by
  refine ⟨hsig, hcl, ?_, ?_, ?_⟩
  · rw [calls_snoc, ho]
    exact ht
  · refine hc.starts hs ?_ ?_ swift_init
    · intro k
      rw [over_snoc]
      exact ⟨fun h => h.elim id fun h => absurd h.1 (h3 k), .inl⟩
    · intro k
      rw [shownBy_snoc]
      split
      · exact absurd rfl (h3 _)
      · rfl
  · exact ha.starts hs' hact (fun _ => rfl) id

theorem Act.plain {reload : Bool} {tr : Trace} {s : State} (a : Act reload tr s) (op : Op) (o : Out)
    (h : ∀ k, op ≠ .hear k) : Act reload (tr ++ [(op, o)]) s := by
  refine a.starts (Starts.refl s).a (fun _ => rfl) ?_ late_init
  intro k
  rw [heardBy_snoc]
  split
  · exact absurd rfl (h _)
  · rfl

theorem effects_things {reload : Bool} {l : List Call} {s : State} (t : Things reload l s) (x : Sig) :
    Things reload (l ++ (effects reload s { s with sig := x }).1) (effects reload s { s with sig := x }).2 := by
  unfold effects
  split
  · next hc =>
    rw [List.append_nil]
    have hb : s.broadcast = none := by
      obtain ⟨cur, -, h2, h3⟩ := t.b
      rw [if_pos hc] at h3
      cases cur with
      | none => exact h2
      | some e => cases h3
    refine ⟨?_, ?_, t.c, fun h => absurd hb h, ?_, t.act⟩
    · have := t.a
      rw [if_pos hc] at this
      rw [if_pos hc]
      exact this
    · have := t.b
      rw [if_pos hc] at this
      rw [if_pos hc]
      exact this
    · have := t.sw
      rw [hc] at this
      dsimp only
      rw [this, hc]
      simp
  · next hc => exact settle_things t (Bool.eq_false_iff.2 hc) rfl rfl (fun _ => rfl)

theorem hear_things {l : List Call} {s : State} (t : Things true l s) (j : Nat) (b : Bool) :
    Things true (l ++ (effects true s { s with loops := s.loops.set j .waiting, active := b }).1)
      (effects true s { s with loops := s.loops.set j .waiting, active := b }).2 := by
  unfold effects
  split
  · next hc =>
    rw [List.append_nil]
    refine ⟨?_, ?_, t.c, t.e, t.sw, fun h => (by cases h)⟩
    · have := t.a
      unfold IsA at this ⊢
      dsimp only
      rw [List.length_set]
      exact this
    · have := t.b
      rw [if_pos hc] at this
      rw [if_pos hc]
      exact this
  · next hc =>
    exact settle_things t (Bool.eq_false_iff.2 hc) rfl (by simp) (fun h => (by cases h))

/-- Without reloading there are no announcements. -/
theorem no_loops {l : List Call} {s s' : State} (t : Things false l s') (hs : StartsA s s') (h : s.loops = []) :
    s'.loops = [] := by
  rcases hs with ⟨h1, -⟩ | ⟨-, h2⟩
  · rw [h] at h1
    exact List.length_eq_zero_iff.1 h1
  · obtain ⟨cur, -, h3, h4⟩ := t.a
    have : (if s'.closed = true then none else wantA false s'.sig) = none := by
      split
      · rfl
      · simp [wantA]
    rw [this] at h4
    cases cur with
    | none => rw [h2] at h3; cases h3
    | some e => cases h4

theorem step_inv {reload : Bool} {tr : Trace} {s : State} (i : Inv reload tr s) (hn : reload = false → s.loops = [])
    (op : Op) : Inv reload (tr ++ [(op, (step reload s op).1)]) (step reload s op).2 ∧
      (reload = false → (step reload s op).2.loops = []) := by
  have hsw : reload = true → s.switched = false := fun h => by rw [i.things.sw, h]; rfl
  cases op with
  | set x =>
    have st := effects_starts reload s { s with sig := x }
    have ht := effects_things i.things x
    have hk := effects_keep reload s { s with sig := x }
    refine ⟨Inv.effects (s := s) (s' := s) rfl ?_ ?_ ht i.cat ⟨st.c.catalog, st.c.runs⟩ (by simp)
      (i.act.plain _ _ (by simp)) st.a ?_, ?_⟩
    · rw [sig_snoc]
      exact hk.1
    · rw [closed_snoc]
      refine (Bool.eq_iff_iff.1 hk.2).trans (i.closed.trans ?_)
      simp
    · intro hr
      subst hr
      exact effects_active (s := { s with sig := x }) (hsw rfl)
    · intro hr
      subst hr
      exact no_loops ht st.a (hn rfl)
  | told j u =>
    unfold step
    dsimp only
    split
    · next h =>
      refine ⟨i.loop j (.ready u) _ _ (by simp) (by simp) (by simp) (by simp) rfl, fun hr => ?_⟩
      rw [hn hr] at h
      simp at h
    · exact ⟨i.invalid _ (by simp) (by simp), hn⟩
  | hear j =>
    unfold step
    dsimp only
    split
    · next u h =>
      have hr : reload = true := by
        cases reload with
        | true => rfl
        | false =>
          rw [hn rfl] at h
          simp at h
      subst hr
      refine ⟨?_, fun h => (by cases h)⟩
      cases u with
      | done => exact i.loop j .over _ _ (by simp) (by simp) (by simp) (by simp) rfl
      | suffix => exact i.loop j .waiting _ _ (by simp) (by simp) (by simp) (by simp) rfl
      | active b =>
        have hlt : j < s.loops.length := (List.getElem?_eq_some_iff.1 h).1
        let s' : State := { s with loops := s.loops.set j .waiting, active := b }
        have st := effects_starts true s s'
        have hk := effects_keep true s s'
        refine Inv.effects (s := s) (s' := s') rfl ?_ ?_ (hear_things i.things j b) i.cat ⟨st.c.catalog, st.c.runs⟩
          (by simp) ?_ st.a ?_
        · rw [sig_snoc]
          exact hk.1.trans i.sig
        · rw [closed_snoc]
          refine (Bool.eq_iff_iff.1 hk.2).trans (i.closed.trans ?_)
          simp
        · refine ⟨?_, ?_, ?_⟩
          · intro k hk
            have hk' : s.loops.length ≤ k := by simpa [s'] using hk
            rw [heardBy_snoc]
            dsimp only
            rw [if_neg (by omega)]
            exact i.act.lt k hk'
          · intro k hk
            have := i.act.ann k hk
            simpa [s'] using this
          · intro _ hl k b' hk hb
            rw [heardBy_snoc] at hb
            dsimp only at hb
            split at hb
            · injection hb
            · next hne =>
              exfalso
              apply hl
              refine ⟨tr, j, b, _, [], rfl, ?_⟩
              obtain ⟨cur, h1, h2, -⟩ := i.things.a
              obtain ⟨x, hx⟩ := h1.all j hlt
              apply Classical.byContradiction
              intro hns
              have := (h1.cur j x).1 ⟨hx, fun h => hns ((mem_shutA _ _).1 h)⟩
              have hk : s.announced = some k := hk
              rw [h2, this] at hk
              injection hk with hk
              exact hne hk
        · intro _
          exact effects_active (s := s') (hsw rfl)
    · exact ⟨i.invalid _ (by simp) (by simp), hn⟩
  | fetched j r =>
    unfold step
    dsimp only
    split
    · next h =>
      refine ⟨⟨?_, ?_, ?_, i.cat.fetched j r h, ?_⟩, hn⟩
      · rw [sig_snoc]
        exact i.sig
      · rw [closed_snoc]
        refine i.closed.trans ?_
        simp
      · rw [calls_snoc]
        exact (List.append_nil (calls tr)).symm ▸ i.things.frame rfl rfl (by simp)
      · exact (i.act.plain _ _ (by simp)).starts (.inl ⟨rfl, .inl rfl⟩) (fun _ => rfl) (fun _ => rfl) id
    · exact ⟨i.invalid _ (by simp) (by simp), hn⟩
  | «show» j =>
    unfold step
    dsimp only
    split
    · next r h =>
      have hf : { (shows s j r).2 with catalog := s.catalog, status := s.status, loops := s.loops, runs := s.runs } = s ∧
          (shows s j r).2.loops = s.loops ∧ (shows s j r).2.runs.length = s.runs.length ∧ (shows s j r).1.calls = [] := by
        cases r with
        | update v => exact ⟨rfl, rfl, List.length_set, rfl⟩
        | done => exact ⟨rfl, rfl, List.length_set, rfl⟩
      refine ⟨⟨?_, ?_, ?_, i.cat.show j r h, ?_⟩, fun hr => by rw [hf.2.1]; exact hn hr⟩
      · rw [sig_snoc]
        exact (congrArg State.sig hf.1 :).trans i.sig
      · rw [closed_snoc]
        refine (Bool.eq_iff_iff.1 (congrArg State.closed hf.1 :)).trans (i.closed.trans ?_)
        simp
      · rw [calls_snoc, hf.2.2.2, List.append_nil]
        exact i.things.frame hf.1 (by rw [hf.2.1]) hf.2.2.1
      · exact (i.act.plain _ _ (by simp)).starts
          (.inl ⟨by rw [hf.2.1], .inl (congrArg State.announced hf.1 :)⟩)
          (fun _ => (congrArg State.active hf.1 :)) (fun _ => rfl) id
    · exact ⟨i.invalid _ (by simp) (by simp), hn⟩
  | close =>
    unfold step
    dsimp only
    split
    · next hc => exact ⟨i.invalid _ (by simp) (fun _ => i.closed.1 hc), hn⟩
    · next hc =>
      have st := close_starts s
      have ht := close_things i.things (Bool.eq_false_iff.2 hc)
      dsimp only at ht
      have ka := cleanActive_keep (cleanBroadcast (cleanCatalog s).2).2
      have kb := cleanBroadcast_keep (cleanCatalog s).2
      have kc := cleanCatalog_keep s
      refine ⟨Inv.effects (s := s) (s' := s) rfl ?_ ?_ ht i.cat st.c (by simp) (i.act.plain _ _ (by simp)) st.a ?_, ?_⟩
      · rw [sig_snoc]
        exact (ka.sig.trans (kb.sig.trans kc.sig)).trans i.sig
      · rw [closed_snoc]
        simp
      · intro hr
        have h1 : (cleanBroadcast (cleanCatalog s).2).2.switched = false := by
          rw [kb.switched, kc.switched]
          exact hsw hr
        have h2 : (cleanBroadcast (cleanCatalog s).2).2.active = s.active := kb.active.trans kc.active
        show (cleanActive (cleanBroadcast (cleanCatalog s).2).2).2.active = s.active
        unfold cleanActive
        dsimp only
        rw [h1]
        split <;> exact h2
      · intro hr
        subst hr
        exact no_loops ht st.a (hn rfl)

theorem inv_reach {reload : Bool} {tr : Trace} {s : State} (h : (machine reload).Reach tr s) : Inv reload tr s :=
  (Machine.Reach.induct (M := machine reload) (P := fun tr s => Inv reload tr s ∧ (reload = false → s.loops = []))
    ⟨init_inv reload, fun _ => rfl⟩ (fun _ _ op _ ih => step_inv ih.1 ih.2 op) h).1

theorem wanted_iff {reload : Bool} {tr : Trace} {s : State} (i : Inv reload tr s) (c p : Nat) :
    wanted tr = some (c, p) ↔ s.closed = false ∧ s.sig.enabled = true ∧ s.sig.conn = some c ∧ s.sig.path = p := by
  unfold wanted
  simp only [← i.closed, ← i.sig]
  cases s.closed <;> cases s.sig.enabled <;> cases s.sig.conn <;> simp

/-! ## Calls -/

/-- Announcements are open for the connection and the path that are wanted, and for nothing else. -/
theorem c111_announced (reload : Bool) (tr : Trace) (s : State) (h : (machine reload).Reach tr s) :
    (∀ c p, (∃ i, OpenAnnounced tr i c p) ↔ reload = true ∧ wanted tr = some (c, p)) ∧
    ∀ i c p i' c' p', OpenAnnounced tr i c p → OpenAnnounced tr i' c' p' → i = i' := by
  have iv := inv_reach h
  obtain ⟨cur, h1, h2, h3⟩ := iv.things.a
  have key : ∀ i c p, OpenAnnounced tr i c p ↔ cur = some (i, c, p) := by
    intro i c p
    rw [← h1.cur, mem_madeA, mem_shutA]
    rfl
  constructor
  · intro c p
    simp only [key]
    rw [wanted_iff iv]
    have : (∃ i, cur = some (i, c, p)) ↔ cur.map (·.2) = some (c, p) := by
      cases cur with
      | none => simp
      | some e =>
        obtain ⟨i, c', p'⟩ := e
        simp
    rw [this, ← h3]
    unfold wantA
    cases s.closed <;> cases reload <;> cases s.sig.enabled <;> cases s.sig.conn <;> simp
  · intro i c p i' c' p' ha hb
    have := ((key _ _ _).1 ha).symm.trans ((key _ _ _).1 hb)
    injection this with this
    injection this

/-- A broadcast is open if it is wanted and active, and nothing else is. -/
theorem c111_consumed (reload : Bool) (tr : Trace) (s : State) (h : (machine reload).Reach tr s) :
    (∀ c p, (∃ k, OpenBroadcast tr k c p) ↔ wanted tr = some (c, p) ∧ s.active = true) ∧
    ∀ k c p k' c' p', OpenBroadcast tr k c p → OpenBroadcast tr k' c' p' → k = k' := by
  have iv := inv_reach h
  obtain ⟨cur, h1, h2, h3⟩ := iv.things.b
  have key : ∀ i c p, OpenBroadcast tr i c p ↔ cur = some (i, c, p) := by
    intro i c p
    rw [← h1.cur, mem_madeB, mem_shutB]
    rfl
  constructor
  · intro c p
    simp only [key]
    rw [wanted_iff iv]
    have : (∃ i, cur = some (i, c, p)) ↔ cur.map (·.2) = some (c, p) := by
      cases cur with
      | none => simp
      | some e =>
        obtain ⟨i, c', p'⟩ := e
        simp
    rw [this, ← h3]
    unfold wantB
    cases s.closed <;> cases s.active <;> cases s.sig.enabled <;> cases s.sig.conn <;> simp
  · intro i c p i' c' p' ha hb
    have := ((key _ _ _).1 ha).symm.trans ((key _ _ _).1 hb)
    injection this with this
    injection this

/-- Just the catalog of the open broadcast is subscribed to, once. -/
theorem c111_subscribed (reload : Bool) (tr : Trace) (s : State) (h : (machine reload).Reach tr s) :
    (∀ k, (∃ j, OpenTrack tr j k) ↔ ∃ c p, OpenBroadcast tr k c p) ∧
    ∀ j k j' k', OpenTrack tr j k → OpenTrack tr j' k' → j = j' := by
  have iv := inv_reach h
  obtain ⟨cur, h1, h2, h3⟩ := iv.things.c
  obtain ⟨cub, b1, b2, b3⟩ := iv.things.b
  have key : ∀ j k, OpenTrack tr j k ↔ cur = some (j, k) := by
    intro j k
    rw [← h1.cur, mem_madeC, mem_shutC]
    rfl
  have keyb : ∀ i c p, OpenBroadcast tr i c p ↔ cub = some (i, c, p) := by
    intro i c p
    rw [← b1.cur, mem_madeB, mem_shutB]
    rfl
  constructor
  · intro k
    simp only [key, keyb]
    have e1 : (∃ j, cur = some (j, k)) ↔ cur.map (·.2) = some k := by
      cases cur with
      | none => simp
      | some e => simp [Prod.ext_iff]
    have e2 : (∃ c p, cub = some (k, c, p)) ↔ cub.map (·.1) = some k := by
      cases cub with
      | none => simp
      | some e => simp [Prod.ext_iff]
    rw [e1, e2, ← h3, ← b2]
  · intro j k j' k' ha hb
    have := ((key _ _).1 ha).symm.trans ((key _ _).1 hb)
    injection this with this
    injection this

/-- Setting signals to the values that they have does nothing. -/
theorem c111_same (reload : Bool) (tr : Trace) (s : State) (h : (machine reload).Reach tr s) :
    step reload s (.set (sig tr)) = (.ran [], s) := by
  rw [← (inv_reach h).sig]
  show (Out.ran (effects reload s s).1, (effects reload s s).2) = _
  have ha : ∀ x : Sig, readsActive reload x x = false := by intro x; simp [readsActive]
  have hb : ∀ (x : Sig) (a : Bool), readsBroadcast x x a a = false := by intro x a; simp [readsBroadcast]
  have hc : ∀ (e : Bool) (b : Option Nat), readsCatalog e e b b = false := by intro e b; simp [readsCatalog]
  have : effects reload s s = ([], s) := by
    unfold effects
    split
    · rfl
    · simp [settle, rerun, ha, hb, hc]
  rw [this]

/-! ## Announcements -/

/-- Without reloading, the broadcast counts as announced while enabled. -/
theorem c111_always (tr : Trace) (s : State) (h : (machine false).Reach tr s) :
    s.active = true ↔ (sig tr).enabled = true ∧ ¬ Closed tr := by
  have iv := inv_reach h
  rw [iv.things.act rfl, iv.things.sw, ← iv.closed, iv.sig]
  simp

/-- The broadcast is active if that is what was announced last, once there was an announcement, and if none was heard
after it was closed.  Missing: that it is not active before; see `c111_stale`. -/
theorem c111_active_partial (tr : Trace) (s : State) (h : (machine true).Reach tr s) (hl : ¬ LateHeard tr)
    (i c p : Nat) (ho : OpenAnnounced tr i c p) (b : Bool) (hb : heardBy tr i = some b) : s.active = b := by
  have iv := inv_reach h
  refine iv.act.heard rfl hl i b ?_ hb
  obtain ⟨cur, h1, h2, -⟩ := iv.things.a
  rw [h2, (h1.cur i (c, p)).1 ⟨(mem_madeA _ _ _ _).2 ho.1, fun h => ho.2 ((mem_shutA _ _).1 h)⟩]
  rfl

/-- The code violates the property: whenever a broadcast is active, another path or another connection is taken to be
active too, and is consumed before anything is announced there. -/
theorem c111_stale (tr : Trace) (s : State) (h : (machine true).Reach tr s) (c p : Nat)
    (hw : wanted tr = some (c, p)) (ha : s.active = true) (d q : Nat) (hne : (d, q) ≠ (c, p)) :
    let r := step true s (.set ⟨true, some d, q⟩)
    ∃ i k j, r.1 = .ran [.closeAnnounced i, .announced s.loops.length d q, .closeBroadcast k,
        .consume s.broadcasts d q, .closeTrack j, .subscribe s.runs.length s.broadcasts] ∧
      heardBy (tr ++ [(.set ⟨true, some d, q⟩, r.1)]) s.loops.length = none := by
  have iv := inv_reach h
  obtain ⟨w1, w2, w3, w4⟩ := (wanted_iff iv c p).1 hw
  have hA := iv.things.a
  have hB := iv.things.b
  have hC := iv.things.c
  rw [if_neg (by rw [w1]; simp)] at hA hB
  obtain ⟨cA, -, a2, a3⟩ := hA
  obtain ⟨cB, -, b2, b3⟩ := hB
  obtain ⟨cC, -, c2, c3⟩ := hC
  rw [wantA, if_pos ⟨rfl, w2⟩, w3] at a3
  rw [wantB, if_pos ⟨w2, ha⟩, w3] at b3
  cases cA with
  | none => cases a3
  | some eA =>
    cases cB with
    | none => cases b3
    | some eB =>
      rw [b2] at c3
      cases cC with
      | none => cases c3
      | some eC =>
        have a2 : s.announced = some eA.1 := a2
        have b2 : s.broadcast = some eB.1 := b2
        have c2 : s.track = some eC.1 := c2
        have hsw : s.switched = false := by
          rw [iv.things.sw]
          rfl
        have hlt : ∀ k, eB = k → ¬ s.broadcasts = k.1 := by
          rintro k rfl hk
          obtain ⟨cu, o1, o2, -⟩ := iv.things.b
          rw [b2] at o2
          cases cu with
          | none => cases o2
          | some e =>
            injection o2 with o2
            have o2 : eB.1 = e.1 := o2
            have := o1.lt e ((o1.cur e.1 e.2).2 rfl).1
            rw [← o2, hk] at this
            exact Nat.lt_irrefl _ this
        have hne' : d ≠ c ∨ q ≠ p := by
          by_cases hd : d = c
          · exact .inr fun hq => hne (by rw [hd, hq])
          · exact .inl hd
        intro r
        have hr : r.1 = .ran [.closeAnnounced eA.1, .announced s.loops.length d q, .closeBroadcast eB.1,
            .consume s.broadcasts d q, .closeTrack eC.1, .subscribe s.runs.length s.broadcasts] := by
          have r1 : readsActive true s.sig ⟨true, some d, q⟩ = true := by
            simp only [readsActive, w2, w3, w4]
            rcases hne' with hd | hq <;> simp [*]
          have r2 : readsBroadcast s.sig ⟨true, some d, q⟩ true true = true := by
            simp only [readsBroadcast, w2, w3, w4]
            rcases hne' with hd | hq <;> simp [*]
          have r3 : readsCatalog true true (some eB.1) (some s.broadcasts) = true := by
            simp only [readsCatalog]
            simpa using hlt eB rfl
          show (step true s (.set ⟨true, some d, q⟩)).1 = _
          simp only [step, effects, w1, settle, rerun, r1, if_true, cleanActive, a2, runActive, ha, hsw]
          simp [r2, r3, cleanBroadcast, b2, runBroadcast, cleanCatalog, c2, runCatalog, w2]
        refine ⟨eA.1, eB.1, eC.1, hr, ?_⟩
        rw [heardBy_snoc]
        exact iv.act.lt _ (Nat.le_refl _)

/-- The code violates the property: when a broadcast that counts as active is announced, nothing happens. -/
theorem c111_deaf (s : State) (ha : s.active = true) (i : Nat)
    (hi : s.loops[i]? = some (.ready (.active true))) :
    step true s (.hear i) = (.heard (.active true) [], { s with loops := s.loops.set i .waiting }) := by
  unfold step
  dsimp only
  rw [hi]
  dsimp only
  have : hear true s i (.active true) = ([], { s with loops := s.loops.set i .waiting }) := by
    show effects true s { s with loops := s.loops.set i .waiting, active := true } = _
    rw [← ha]
    unfold effects
    split
    · rfl
    · simp [settle, rerun, readsActive, readsBroadcast, readsCatalog]
  rw [this]

/-! ## The catalog -/

/-- The catalog is the last one that was received on the open subscription, and the status is then live, if nothing
arrives on it before the loops of older ones have ended.  Missing: the other histories, see `c111_late`, and the status
before there is a catalog, see `c111_offline`. -/
theorem c111_shown_partial (reload : Bool) (tr : Trace) (s : State) (h : (machine reload).Reach tr s) (hw : Swift tr)
    (j k : Nat) (ho : OpenTrack tr j k) (hn : ¬ Over tr j) (hall : ∀ i, i < j → Over tr i) :
    s.catalog = shownBy tr j ∧ (shownBy tr j ≠ none → s.status = .live) := by
  have iv := inv_reach h
  refine iv.cat.shown hw j ?_ hall hn
  refine (iv.cat.last j ?_).symm
  obtain ⟨cur, h1, h2, -⟩ := iv.things.c
  rw [h2, (h1.cur j k).1 ⟨(mem_madeC _ _ _).2 ho.1, fun h => ho.2 ((mem_shutC _ _).1 h)⟩]
  rfl

/-- When the loops of all subscriptions have ended, there is no catalog and the status is offline. -/
theorem c111_off (reload : Bool) (tr : Trace) (s : State) (h : (machine reload).Reach tr s)
    (hall : ∀ j k, .subscribe j k ∈ calls tr → Over tr j) : s.catalog = none ∧ s.status = .offline := by
  have iv := inv_reach h
  refine iv.cat.quiet fun j hj => ?_
  obtain ⟨cur, h1, -⟩ := iv.things.c
  obtain ⟨k, hk⟩ := h1.all j hj
  exact hall j k ((mem_madeC _ _ _).1 hk)

theorem settle_subscribe (reload : Bool) (old s : State) (j k : Nat) (h : .subscribe j k ∈ (settle reload old s).1) :
    (settle reload old s).2.status = .loading := by
  have ha : ∀ s : State, .subscribe j k ∉ (cleanActive s).1 := by
    intro s; unfold cleanActive; dsimp only; split <;> simp
  have hra : ∀ s : State, .subscribe j k ∉ (runActive reload s).1 := by
    intro s; unfold runActive; split
    · simp
    · split
      · simp
      · split <;> simp
  have hb : ∀ s : State, .subscribe j k ∉ (cleanBroadcast s).1 := by
    intro s; unfold cleanBroadcast; split <;> simp
  have hrb : ∀ s : State, .subscribe j k ∉ (runBroadcast s).1 := by
    intro s; unfold runBroadcast; split
    · simp
    · split <;> simp
  have hc : ∀ s : State, .subscribe j k ∉ (cleanCatalog s).1 := by
    intro s; unfold cleanCatalog; split <;> simp
  have hrc : ∀ s : State, .subscribe j k ∈ (runCatalog s).1 → (runCatalog s).2.status = .loading := by
    intro s h; unfold runCatalog at h ⊢; split at h
    · simp at h
    · split at h
      · simp at h
      · next h1 _ _ h2 => simp [h1, h2]
  have hr : ∀ (b : Bool) (f g : State → List Call × State) (s : State), (∀ s, .subscribe j k ∉ (f s).1) →
      (∀ s, .subscribe j k ∉ (g s).1) → .subscribe j k ∉ (rerun b f g s).1 := by
    intro b f g s h1 h2; unfold rerun; split
    · simp [h1, h2]
    · simp
  have hl : ∀ (b : Bool) (s : State), .subscribe j k ∈ (rerun b cleanCatalog runCatalog s).1 →
      (rerun b cleanCatalog runCatalog s).2.status = .loading := by
    intro b s h
    unfold rerun at h ⊢
    split at h
    · next hx =>
      rw [if_pos hx]
      rcases List.mem_append.1 h with h | h
      · exact absurd h (hc _)
      · exact hrc _ h
    · simp at h
  unfold settle at h ⊢
  dsimp only at h ⊢
  rcases List.mem_append.1 h with h | h
  · rcases List.mem_append.1 h with h | h
    · exact absurd h (hr _ _ _ _ ha hra)
    · exact absurd h (hr _ _ _ _ hb hrb)
  · exact hl _ _ h

/-- When a catalog is subscribed to, the status is loading. -/
theorem c111_loading (reload : Bool) (s : State) (op : Op) (j k : Nat) (h : .subscribe j k ∈ (step reload s op).1.calls) :
    (step reload s op).2.status = .loading := by
  have he : ∀ x : State, .subscribe j k ∈ (effects reload s x).1 → (effects reload s x).2.status = .loading := by
    intro x h; unfold effects at h ⊢; split at h
    · simp at h
    · next hx => rw [if_neg hx]; exact settle_subscribe _ _ _ _ _ h
  cases op with
  | set x => exact he _ h
  | told i u => unfold step at h; dsimp only at h; split at h <;> simp [Out.calls] at h
  | hear i =>
    unfold step at h ⊢; dsimp only at h ⊢; split at h
    · next u hu =>
      simp only [hu]
      cases u with
      | done => simp [Out.calls, hear] at h
      | suffix => simp [Out.calls, hear] at h
      | active b => exact he _ h
    · simp [Out.calls] at h
  | fetched i u => unfold step at h; dsimp only at h; split at h <;> simp [Out.calls] at h
  | «show» i =>
    unfold step at h; dsimp only at h; split at h
    · next u hu => cases u <;> simp [Out.calls, shows] at h
    · simp [Out.calls] at h
  | close =>
    unfold step at h; dsimp only at h; split at h
    · simp [Out.calls] at h
    · exfalso
      simp only [Out.calls, List.mem_append] at h
      rcases h with (h | h) | h
      · unfold cleanCatalog at h; split at h <;> simp at h
      · unfold cleanBroadcast at h; split at h <;> simp at h
      · unfold cleanActive at h; dsimp only at h; split at h <;> simp at h

/-- When the status is live, there is a catalog. -/
theorem c111_live (reload : Bool) (tr : Trace) (s : State) (h : (machine reload).Reach tr s) (hs : s.status = .live) :
    s.catalog ≠ none := (inv_reach h).cat.live hs

/-! ## Witnesses -/

/-- A check of `Swift`. -/
def isSwift (pre : Trace) : Trace → Bool
  | [] => true
  | e :: tr => (match e with | (.fetched j _, .ok) => (List.range j).all fun i => decide (Over pre i) | _ => true) &&
      isSwift (pre ++ [e]) tr

theorem isSwift_sound (tr : Trace) : ∀ pre, isSwift pre tr = true →
    ∀ p j r post, tr = p ++ (.fetched j r, .ok) :: post → ∀ i, i < j → Over (pre ++ p) i := by
  induction tr with
  | nil => exact fun pre _ p j r post h => absurd h (by simp)
  | cons e tr ih =>
    intro pre h p j r post ht i hi
    unfold isSwift at h
    rw [Bool.and_eq_true] at h
    cases p with
    | nil =>
      injection ht with h1 _
      have h2 := h.1
      rw [h1] at h2
      dsimp only at h2
      rw [List.append_nil]
      exact of_decide_eq_true (List.all_eq_true.1 h2 i (List.mem_range.2 hi))
    | cons x p =>
      injection ht with h1 h2
      have := ih (pre ++ [e]) h.2 p j r post h2 i hi
      rwa [h1, List.append_assoc] at this

theorem swift_check (tr : Trace) (h : isSwift [] tr = true) : Swift tr :=
  fun pre j r post ht i hi => isSwift_sound tr [] h pre j r post ht i hi

/-- A check of `LateHeard`. -/
def isLate (pre : Trace) : Trace → Bool
  | [] => false
  | e :: tr => (match e with | (.hear i, .heard (.active _) _) => decide (.closeAnnounced i ∈ calls pre) | _ => false) ||
      isLate (pre ++ [e]) tr

theorem isLate_sound (tr : Trace) : ∀ pre p i b cs post, tr = p ++ (.hear i, .heard (.active b) cs) :: post →
    .closeAnnounced i ∈ calls (pre ++ p) → isLate pre tr = true := by
  induction tr with
  | nil => exact fun pre p i b cs post h => absurd h (by simp)
  | cons e tr ih =>
    intro pre p i b cs post ht hc
    unfold isLate
    rw [Bool.or_eq_true]
    cases p with
    | nil =>
      injection ht with h1 _
      rw [h1]
      rw [List.append_nil] at hc
      exact .inl (decide_eq_true hc)
    | cons x p =>
      injection ht with h1 h2
      refine .inr (ih (pre ++ [e]) p i b cs post h2 ?_)
      rw [h1, List.append_assoc]
      exact hc

theorem late_check (tr : Trace) (h : isLate [] tr = false) : ¬ LateHeard tr := by
  rintro ⟨pre, i, b, cs, post, h1, h2⟩
  rw [isLate_sound tr [] pre i b cs post h1 h2] at h
  cases h

def isReady {α : Type} : Loop α → Bool
  | .ready _ => true
  | _ => false

theorem idle_check (s : State) (h : s.loops.any isReady = false ∧ s.runs.any isReady = false) : Idle s := by
  rw [List.any_eq_false, List.any_eq_false] at h
  exact ⟨fun u hu => h.1 _ hu rfl, fun r hr => h.2 _ hr rfl⟩

instance (tr : Trace) (i c p : Nat) : Decidable (OpenAnnounced tr i c p) := inferInstanceAs (Decidable (_ ∧ _))
instance (tr : Trace) (k c p : Nat) : Decidable (OpenBroadcast tr k c p) := inferInstanceAs (Decidable (_ ∧ _))
instance (tr : Trace) (j k : Nat) : Decidable (OpenTrack tr j k) := inferInstanceAs (Decidable (_ ∧ _))

/-- A broadcast is announced and its catalog is shown. -/
def watch₀ : List Op :=
  [.set ⟨true, some 0, 7⟩, .told 0 .suffix, .hear 0, .told 0 (.active true), .hear 0, .fetched 0 (.update 5), .show 0]

/-- The connection is lost, and with it the announcements and the catalog. -/
def lost₀ : List Op :=
  [.set ⟨true, none, 7⟩, .told 0 .done, .hear 0, .fetched 0 .done, .show 0]

/-- The code violates the property: after a reconnect the broadcast is consumed before it is announced; if it is not
there yet, that fails, and when it is announced, it is not consumed again. -/
theorem c111_stuck : ∃ (tr : Trace) (s : State), (machine true).Reach tr s ∧ Swift tr ∧ ¬ LateHeard tr ∧
    wanted tr = some (1, 7) ∧ OpenAnnounced tr 1 1 7 ∧ heardBy tr 1 = some true ∧
    s.active = true ∧ s.catalog = none ∧ s.status = .offline ∧ Idle s ∧ ∀ j k, .subscribe j k ∈ calls tr → Over tr j := by
  let ops := watch₀ ++ lost₀ ++
    [.set ⟨true, some 1, 7⟩, .fetched 1 .done, .show 1, .told 1 (.active true), .hear 1]
  have hall : ∀ x ∈ calls ((machine true).run ops).1, (match x with | .subscribe j _ => decide (Over ((machine true).run ops).1 j) | _ => true) = true := by
    decide +kernel
  refine ⟨((machine true).run ops).1, ((machine true).run ops).2, (machine true).reach_run ops,
    swift_check _ (by decide +kernel), late_check _ (by decide +kernel), by decide +kernel, by decide +kernel,
    by decide +kernel, by decide +kernel, by decide +kernel, by decide +kernel, idle_check _ (by decide +kernel), ?_⟩
  intro j k hj
  exact of_decide_eq_true (hall _ hj)

/-- The code violates the property: after a change of the path the status is offline though the new broadcast is
announced, subscribed to and not over. -/
theorem c111_offline : ∃ (tr : Trace) (s : State), (machine true).Reach tr s ∧ Swift tr ∧ ¬ LateHeard tr ∧
    wanted tr = some (0, 8) ∧ OpenAnnounced tr 1 0 8 ∧ heardBy tr 1 = some true ∧ OpenTrack tr 1 1 ∧ ¬ Over tr 1 ∧
    s.status = .offline ∧ Idle s := by
  let ops := watch₀ ++ [.set ⟨true, some 0, 8⟩, .told 0 .done, .hear 0, .fetched 0 .done, .show 0, .told 1 (.active true),
    .hear 1]
  exact ⟨((machine true).run ops).1, ((machine true).run ops).2, (machine true).reach_run ops,
    swift_check _ (by decide +kernel), late_check _ (by decide +kernel), by decide +kernel, by decide +kernel,
    by decide +kernel, by decide +kernel, by decide +kernel, by decide +kernel, idle_check _ (by decide +kernel)⟩

/-- The code violates the property: if the loop of the old subscription ends after the new one has a catalog, that
catalog is gone. -/
theorem c111_late : ∃ (tr : Trace) (s : State), (machine true).Reach tr s ∧ ¬ LateHeard tr ∧
    OpenTrack tr 1 1 ∧ ¬ Over tr 1 ∧ Over tr 0 ∧ shownBy tr 1 = some 6 ∧ s.catalog = none ∧ s.status = .offline ∧
    Idle s := by
  let ops := watch₀ ++ [.set ⟨true, some 0, 8⟩, .told 0 .done, .hear 0, .fetched 0 .done, .fetched 1 (.update 6), .show 1,
    .show 0]
  exact ⟨((machine true).run ops).1, ((machine true).run ops).2, (machine true).reach_run ops,
    late_check _ (by decide +kernel), by decide +kernel, by decide +kernel, by decide +kernel,
    by decide +kernel, by decide +kernel, by decide +kernel, idle_check _ (by decide +kernel)⟩

/-- The code violates the property: an announcement that is under way when the path changes counts for the new path. -/
theorem c111_late_heard : ∃ (tr : Trace) (s : State), (machine true).Reach tr s ∧ Swift tr ∧
    wanted tr = some (0, 8) ∧ OpenAnnounced tr 1 0 8 ∧ heardBy tr 1 = none ∧ OpenBroadcast tr 0 0 8 ∧ s.active = true ∧
    Idle s := by
  let ops : List Op := [.set ⟨true, some 0, 7⟩, .told 0 (.active true), .set ⟨true, some 0, 8⟩, .hear 0, .told 0 .done, .hear 0]
  exact ⟨((machine true).run ops).1, ((machine true).run ops).2, (machine true).reach_run ops,
    swift_check _ (by decide +kernel), by decide +kernel, by decide +kernel, by decide +kernel, by decide +kernel,
    by decide +kernel, idle_check _ (by decide +kernel)⟩

/-! ## Examples -/

/-- The hypothesis of `c111_loading`: the broadcast is announced. -/
example : let r := (machine true).run [.set ⟨true, some 0, 7⟩, .told 0 (.active true)]
    r.2.status = .offline ∧ .subscribe 0 0 ∈ (step true r.2 (.hear 0)).1.calls := by decide +kernel

/-- The hypotheses of `c111_active_partial`, `c111_shown_partial` and `c111_stale`. -/
example : let r := (machine true).run watch₀
    Swift r.1 ∧ ¬ LateHeard r.1 ∧ OpenAnnounced r.1 0 0 7 ∧ heardBy r.1 0 = some true ∧ OpenTrack r.1 0 0 ∧
      ¬ Over r.1 0 ∧ shownBy r.1 0 = some 5 ∧ r.2.catalog = some 5 ∧ r.2.status = .live ∧ r.2.active = true ∧
      wanted r.1 = some (0, 7) :=
  ⟨swift_check _ (by decide +kernel), late_check _ (by decide +kernel), by decide +kernel, by decide +kernel,
    by decide +kernel, by decide +kernel, by decide +kernel, by decide +kernel, by decide +kernel, by decide +kernel,
    by decide +kernel⟩

/-- A second catalog on a second subscription: the broadcast is gone and comes back. -/
def again₀ : List Op :=
  [.told 0 (.active false), .hear 0, .fetched 0 .done, .show 0, .told 0 (.active true), .hear 0, .fetched 1 (.update 6),
   .show 1]

example : let r := (machine true).run (watch₀ ++ again₀)
    Swift r.1 ∧ ¬ LateHeard r.1 ∧ OpenTrack r.1 1 1 ∧ Over r.1 0 ∧ ¬ Over r.1 1 ∧ shownBy r.1 1 = some 6 ∧
      r.2.catalog = some 6 :=
  ⟨swift_check _ (by decide +kernel), late_check _ (by decide +kernel), by decide +kernel, by decide +kernel,
    by decide +kernel, by decide +kernel, by decide +kernel⟩

/-- Everything is closed by `close()`. -/
example : ((machine true).run (watch₀ ++ [.close])).1.getLast? =
    some (.close, .ran [.closeTrack 0, .closeBroadcast 0, .closeAnnounced 0]) := by decide +kernel

/-- Without reloading the broadcast is consumed at once. -/
example : ((machine false).run [.set ⟨true, some 0, 7⟩]).1 =
    [(.set ⟨true, some 0, 7⟩, .ran [.consume 0 0 7, .subscribe 0 0])] := by decide +kernel

end Verif.Props.JsWatching
