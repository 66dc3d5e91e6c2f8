import Verif.Clock

/-!
# C123: the clock (moq-clock)

The start, the number of rounds and the times that the task of each group read are taken from the history.
-/

set_option autoImplicit false

namespace Verif.Props.Clock

open Verif Verif.Clock

/-! ## Specification -/

/-- When it was started. -/
def began (x : Option Nat) (e : Op × Out) : Option Nat :=
  match e with
  | (.start t, .did _) => some t
  | _ => x

def started (tr : Trace) : Option Nat := tr.foldl began none

def count (x : Nat) (e : Op × Out) : Nat :=
  match e with
  | (.tick _, .did _) => x + 1
  | _ => x

/-- How often `run` woke. -/
def ticks (tr : Trace) : Nat := tr.foldl count 0

def read (k : Nat) (x : List Nat) (e : Op × Out) : List Nat :=
  match e with
  | (.wake i t, .did _) => if i = k then x ++ [t] else x
  | _ => x

/-- The times that the task of a group read. -/
def reads (k : Nat) (tr : Trace) : List Nat := tr.foldl (read k) []

/-- A time at which the minute hand of a clock is where it is in minute `m`. -/
def sameHand (m t : Nat) : Bool := t / 60000000000 % 60 == m % 60

/-- The time that a group begins with: that of the start, or the beginning of the minute. -/
def first (t0 k : Nat) : Nat := if k = 0 then t0 else (t0 / 60000000000 + k) * 60000000000

/-- The minute and second that are printed for a time, in a group for minute `m`. -/
def line (m t : Nat) : Nat × Nat := (m, t / 1000000000 % 60)

/-! ## Lemmas -/

theorem started_snoc (tr : Trace) (e : Op × Out) : started (tr ++ [e]) = began (started tr) e := by
  unfold started
  rw [List.foldl_append]
  rfl

theorem ticks_snoc (tr : Trace) (e : Op × Out) : ticks (tr ++ [e]) = count (ticks tr) e := by
  unfold ticks
  rw [List.foldl_append]
  rfl

theorem reads_snoc (k : Nat) (tr : Trace) (e : Op × Out) : reads k (tr ++ [e]) = read k (reads k tr) e := by
  unfold reads
  rw [List.foldl_append]
  rfl

structure Fit (t0 k : Nat) (l : List Nat) (g : Seg) : Prop where
  seq : g.seq = t0 / perMinute % 60 + k
  base : g.base = t0 / perMinute + k
  seconds : g.seconds = (first t0 k :: l.takeWhile (sameHand (t0 / perMinute + k))).map secondOf
  hand : g.done = false → minuteOf g.now = (t0 / perMinute + k) % 60 ∧ ∀ t ∈ l, sameHand (t0 / perMinute + k) t = true
  done : g.done = true → ∃ t ∈ l, sameHand (t0 / perMinute + k) t = false

structure Inv (tr : Trace) (s : State) : Prop where
  live : s.dead = false
  idle : started tr = none → s.run = none ∧ s.segs = [] ∧ ticks tr = 0
  run : ∀ t0, started tr = some t0 → s.run = some ((t0 / perMinute + ticks tr + 1) * perMinute, t0 / perMinute % 60 + ticks tr + 1)
  length : ∀ t0, started tr = some t0 → s.segs.length = ticks tr + 1
  fit : ∀ t0, started tr = some t0 → ∀ (k : Nat) g, s.segs[k]? = some g → Fit t0 k (reads k tr) g
  fresh : ∀ k, s.segs.length ≤ k → reads k tr = []

theorem takeWhile_all {p : Nat → Bool} {l : List Nat} (h : ∀ t ∈ l, p t = true) (t : Nat) :
    (l ++ [t]).takeWhile p = l ++ if p t then [t] else [] := by
  rw [List.takeWhile_append_of_pos h]
  cases hp : p t <;> simp [hp]

theorem first_hand (t0 k : Nat) : minuteOf (first t0 k) = (t0 / perMinute + k) % 60 ∧ first t0 k / perMinute = t0 / perMinute + k := by
  unfold minuteOf first
  split
  · subst_vars
    exact ⟨rfl, rfl⟩
  · have : (t0 / 60000000000 + k) * 60000000000 / perMinute = t0 / perMinute + k := Nat.mul_div_cancel _ (by decide)
    rw [this]
    exact ⟨rfl, rfl⟩

theorem fit_new (t0 k seq : Nat) (hs : seq = t0 / perMinute % 60 + k) :
    Fit t0 k [] ⟨seq, first t0 k / perMinute, [secondOf (first t0 k)], first t0 k, false⟩ := by
  have := first_hand t0 k
  exact ⟨hs, this.2, rfl, fun _ => ⟨this.1, fun t ht => (nomatch ht)⟩, fun h => (nomatch h)⟩

theorem takeWhile_id {p : Nat → Bool} {l : List Nat} (h : ∀ t ∈ l, p t = true) : l.takeWhile p = l := by
  have := List.takeWhile_append_of_pos (l₂ := []) h
  simpa using this

theorem fit_wake {t0 k : Nat} {l : List Nat} {g : Seg} (h : Fit t0 k l g) (hd : g.done = false) (t : Nat) :
    Fit t0 k (l ++ [t]) (wake g t) := by
  obtain ⟨h1, h2⟩ := h.hand hd
  have hs := h.seconds
  rw [takeWhile_id h2] at hs
  have hh : sameHand (t0 / perMinute + k) t = true ↔ minuteOf t = minuteOf g.now := by
    rw [h1]
    exact beq_iff_eq
  unfold wake
  by_cases hm : minuteOf t = minuteOf g.now
  · rw [if_neg (by exact fun a => a hm)]
    refine ⟨h.seq, h.base, ?_, ?_, ?_⟩
    · rw [takeWhile_all h2, if_pos (hh.2 hm)]
      show g.seconds ++ [secondOf t] = _
      rw [hs]
      simp
    · intro _
      refine ⟨hm.trans h1, fun u hu => ?_⟩
      rcases List.mem_append.1 hu with hu | hu
      · exact h2 u hu
      · rw [List.mem_singleton.1 hu]
        exact hh.2 hm
    · intro hc
      change g.done = true at hc
      rw [hd] at hc
      cases hc
  · rw [if_pos hm]
    have hf : sameHand (t0 / perMinute + k) t = false := by
      cases hx : sameHand (t0 / perMinute + k) t with
      | false => rfl
      | true => exact absurd (hh.1 hx) hm
    refine ⟨h.seq, h.base, ?_, fun a => (nomatch a), fun _ => ⟨t, by simp, hf⟩⟩
    rw [takeWhile_all h2, hf]
    show g.seconds = _
    rw [hs]
    simp

theorem last_seq {tr : Trace} {s : State} (v : Inv tr s) {t0 : Nat} (h : started tr = some t0) :
    fits s.segs (t0 / perMinute % 60 + ticks tr + 1) = true := by
  unfold fits
  cases hg : s.segs.getLast? with
  | none => rfl
  | some g =>
    rw [List.getLast?_eq_getElem?, v.length t0 h] at hg
    have := (v.fit t0 h _ g hg).seq
    simp only [decide_eq_true_eq]
    omega

theorem inv_round {tr : Trace} {s : State} (v : Inv tr s) (e : Op) (t0 k seq : Nat) (hk : s.segs.length = k)
    (hs : seq = t0 / perMinute % 60 + k) (hf : fits s.segs seq = true) (h1 : ∀ l, started (tr ++ [(e, .did l)]) = some t0)
    (h2 : ∀ l, ticks (tr ++ [(e, .did l)]) = k) (h3 : ∀ l i, reads i (tr ++ [(e, .did l)]) = reads i tr)
    (h4 : ∀ (i : Nat) g, s.segs[i]? = some g → Fit t0 i (reads i tr) g) :
    ∃ l, (round s (first t0 k) seq).1 = .did l ∧ Inv (tr ++ [(e, .did l)]) (round s (first t0 k) seq).2 ∧
      l = [(t0 / perMinute + k + 1) * perMinute - first t0 k, (first t0 k + perSecond) / perSecond * perSecond - first t0 k] := by
  unfold round
  rw [if_pos hf]
  have hn : next (first t0 k) = (t0 / perMinute + k + 1) * perMinute := by
    unfold next
    rw [Nat.add_div_right _ (by decide), (first_hand t0 k).2]
  refine ⟨_, rfl, ⟨v.live, ?_, ?_, ?_, ?_, ?_⟩, by rw [hn]; rfl⟩
  · intro h
    rw [h1] at h
    cases h
  · intro t h
    rw [h1] at h
    cases h
    rw [h2, hs]
    show some (next (first t0 k), _) = _
    rw [hn]
  · intro t h
    rw [h2]
    show (s.segs ++ [_]).length = _
    rw [List.length_append, hk]
    rfl
  · intro t h i g hg
    rw [h1] at h
    cases h
    rw [h3]
    change (s.segs ++ [_])[i]? = some g at hg
    rw [List.getElem?_append] at hg
    split at hg
    · exact h4 i g hg
    · rw [List.getElem?_singleton] at hg
      split at hg
      · cases hg
        have hi : i = k := by omega
        subst hi
        rw [v.fresh i (by omega)]
        exact fit_new t0 i seq hs
      · cases hg
  · intro i hi
    rw [h3]
    change (s.segs ++ [_]).length ≤ i at hi
    rw [List.length_append] at hi
    exact v.fresh i (by omega)

theorem inv_same {tr : Trace} {s : State} (v : Inv tr s) (e : Op × Out) (h1 : ∀ x, began x e = x) (h2 : ∀ x, count x e = x)
    (h3 : ∀ k x, read k x e = x) : Inv (tr ++ [e]) s := by
  have e1 : started (tr ++ [e]) = started tr := by rw [started_snoc, h1]
  have e2 : ticks (tr ++ [e]) = ticks tr := by rw [ticks_snoc, h2]
  have e3 : ∀ k, reads k (tr ++ [e]) = reads k tr := fun k => by rw [reads_snoc, h3]
  refine ⟨v.live, ?_, ?_, ?_, ?_, ?_⟩
  · rw [e1, e2]; exact v.idle
  · rw [e1, e2]; exact v.run
  · rw [e1, e2]; exact v.length
  · intro t0 h k g
    rw [e1] at h
    rw [e3]
    exact v.fit t0 h k g
  · intro k
    rw [e3]
    exact v.fresh k

theorem inv_step {tr : Trace} {s : State} (v : Inv tr s) (op : Op) :
    Inv (tr ++ [(op, (step s op).1)]) (step s op).2 ∧ (step s op).1 ≠ .panic := by
  unfold step
  rw [if_neg (show ¬ s.dead = true by rw [v.live]; decide)]
  cases op with
  | start now =>
    cases hs : started tr with
    | some t0 =>
      rw [v.run t0 hs]
      exact ⟨inv_same v _ (fun _ => rfl) (fun _ => rfl) (fun _ _ => rfl), (nomatch ·)⟩
    | none =>
      obtain ⟨h1, h2, h3⟩ := v.idle hs
      rw [h1]
      dsimp only
      obtain ⟨l, a, b, _⟩ := inv_round v (.start now) now 0 (minuteOf now) (by rw [h2]; rfl) rfl (by rw [h2]; rfl)
        (fun l => by rw [started_snoc]; rfl) (fun l => by rw [ticks_snoc]; exact h3) (fun l i => by rw [reads_snoc]; rfl)
        (fun i g hg => by rw [h2] at hg; cases hg)
      have e : first now 0 = now := if_pos rfl
      rw [e] at a b
      rw [a]
      exact ⟨b, (nomatch ·)⟩
  | tick now =>
    cases hs : started tr with
    | none =>
      rw [(v.idle hs).1]
      exact ⟨inv_same v _ (fun _ => rfl) (fun _ => rfl) (fun _ _ => rfl), (nomatch ·)⟩
    | some t0 =>
      rw [v.run t0 hs]
      dsimp only
      obtain ⟨l, a, b, _⟩ := inv_round v (.tick now) t0 (ticks tr + 1) _ (v.length t0 hs) rfl (last_seq v hs)
        (fun l => by rw [started_snoc]; exact hs) (fun l => by rw [ticks_snoc]; rfl) (fun l i => by rw [reads_snoc]; rfl) (v.fit t0 hs)
      have e : first t0 (ticks tr + 1) = (t0 / perMinute + ticks tr + 1) * perMinute := by
        unfold first
        rw [if_neg (by omega)]
        rfl
      rw [e] at a b
      change (round s _ (t0 / perMinute % 60 + ticks tr + 1)).1 = _ at a
      rw [a]
      exact ⟨b, (nomatch ·)⟩
  | wake i now =>
    dsimp only
    cases hg : s.segs[i]? with
    | none => exact ⟨inv_same v _ (fun _ => rfl) (fun _ => rfl) (fun _ _ => rfl), (nomatch ·)⟩
    | some g =>
      dsimp only
      cases hd : g.done with
      | true => exact ⟨inv_same v _ (fun _ => rfl) (fun _ => rfl) (fun _ _ => rfl), (nomatch ·)⟩
      | false =>
        rw [if_neg (by decide)]
        refine ⟨?_, (nomatch ·)⟩
        have hi : i < s.segs.length := (List.getElem?_eq_some_iff.1 hg).1
        generalize (if (wake g now).done then [] else [delay (wake g now)]) = l
        have e1 : started (tr ++ [(.wake i now, .did l)]) = started tr := by rw [started_snoc]; rfl
        have e2 : ticks (tr ++ [(.wake i now, .did l)]) = ticks tr := by rw [ticks_snoc]; rfl
        refine ⟨v.live, ?_, ?_, ?_, ?_, ?_⟩
        · intro h
          rw [e1] at h
          rw [(v.idle h).2.1] at hi
          cases hi
        · rw [e1, e2]; exact v.run
        · intro t0 h
          rw [e1] at h
          rw [e2]
          show (s.segs.set i _).length = _
          rw [List.length_set]
          exact v.length t0 h
        · intro t0 h k x hx
          rw [e1] at h
          rw [reads_snoc]
          change (s.segs.set i _)[k]? = some x at hx
          show Fit t0 k (if i = k then reads k tr ++ [now] else reads k tr) x
          by_cases hk : i = k
          · subst hk
            rw [List.getElem?_set_self hi] at hx
            cases hx
            rw [if_pos rfl]
            exact fit_wake (v.fit t0 h i g hg) hd now
          · rw [List.getElem?_set_ne hk] at hx
            rw [if_neg hk]
            exact v.fit t0 h k x hx
        · intro k hk
          change (s.segs.set i _).length ≤ k at hk
          rw [List.length_set] at hk
          rw [reads_snoc]
          show (if i = k then _ else reads k tr) = []
          rw [if_neg (by omega)]
          exact v.fresh k hk

theorem inv_reach {tr : Trace} {s : State} (h : machine.Reach tr s) : Inv tr s := by
  refine Machine.Reach.induct (M := machine) (P := fun tr s => Inv tr s) ?_ ?_ h
  · refine ⟨rfl, fun _ => ⟨rfl, rfl, rfl⟩, fun t h => (nomatch h), fun t h => (nomatch h), fun t h => (nomatch h), fun _ _ => rfl⟩
  · intro tr s op _ ih
    exact (inv_step ih op).1

/-! ## Theorems -/

/-- **There is no panic.** -/
theorem c123_panic {tr : Trace} {s : State} (h : machine.Reach tr s) (op : Op) : (step s op).1 ≠ .panic :=
  (inv_step (inv_reach h) op).2

/-- **What each group has**: as many groups as rounds; their numbers are consecutive from the minute of the start; group `k` is for the
`k`-th minute after the start and prints its first time and then those that its task read, as long as the minute hand does not move. -/
theorem c123_printed {tr : Trace} {s : State} (h : machine.Reach tr s) {t0 : Nat} (h0 : started tr = some t0) :
    s.segs.length = ticks tr + 1 ∧ ∀ k, k ≤ ticks tr → ∃ g, s.segs[k]? = some g ∧ g.seq = t0 / 60000000000 % 60 + k ∧
      printed g = (first t0 k :: (reads k tr).takeWhile (sameHand (t0 / 60000000000 + k))).map (line (t0 / 60000000000 + k)) ∧
      (g.done = true ↔ ∃ t ∈ reads k tr, sameHand (t0 / 60000000000 + k) t = false) := by
  have v := inv_reach h
  refine ⟨v.length t0 h0, fun k hk => ?_⟩
  have hl : k < s.segs.length := by rw [v.length t0 h0]; omega
  have f := v.fit t0 h0 k _ (List.getElem?_eq_getElem hl)
  refine ⟨_, List.getElem?_eq_getElem hl, f.seq, ?_, ?_⟩
  · unfold printed
    rw [f.seconds, f.base, List.map_map]
    rfl
  · refine ⟨f.done, ?_⟩
    rintro ⟨t, ht, hf⟩
    cases hd : (s.segs[k]'hl).done with
    | true => rfl
    | false =>
      rw [(f.hand hd).2 t ht] at hf
      cases hf

/-- Before the start there is nothing. -/
theorem c123_nothing {tr : Trace} {s : State} (h : machine.Reach tr s) (h0 : started tr = none) : s.segs = [] ∧ ticks tr = 0 :=
  ((inv_reach h).idle h0).2

/-- **When something can happen**: it is started once, rounds come after that, and the task of a group reads the time until the minute
hand has moved. -/
theorem c123_valid {tr : Trace} {s : State} (h : machine.Reach tr s) (op : Op) :
    (∃ l, (step s op).1 = .did l) ↔
      match op with
      | .start _ => started tr = none
      | .tick _ => started tr ≠ none
      | .wake k _ => ∃ t0, started tr = some t0 ∧ k ≤ ticks tr ∧ ∀ t ∈ reads k tr, sameHand (t0 / 60000000000 + k) t = true := by
  have v := inv_reach h
  have hp := (inv_step v op).2
  unfold step at hp ⊢
  rw [if_neg (show ¬ s.dead = true by rw [v.live]; decide)] at hp ⊢
  have hr : ∀ a b, (round s a b).1 ≠ .panic → ∃ l, (round s a b).1 = .did l := by
    intro a b
    unfold round
    split
    · intro _; exact ⟨_, rfl⟩
    · intro h; exact absurd rfl h
  cases op with
  | start now =>
    cases hs : started tr with
    | some t0 =>
      rw [v.run t0 hs]
      exact ⟨fun ⟨l, a⟩ => (nomatch a), fun a => (nomatch a)⟩
    | none =>
      rw [(v.idle hs).1] at hp ⊢
      exact ⟨fun _ => rfl, fun _ => hr _ _ hp⟩
  | tick now =>
    cases hs : started tr with
    | some t0 =>
      rw [v.run t0 hs] at hp ⊢
      exact ⟨fun _ => (nomatch ·), fun _ => hr _ _ hp⟩
    | none =>
      rw [(v.idle hs).1]
      exact ⟨fun ⟨l, a⟩ => (nomatch a), fun a => absurd rfl a⟩
  | wake k now =>
    dsimp only
    cases hg : s.segs[k]? with
    | none =>
      refine ⟨fun ⟨l, a⟩ => (nomatch a), ?_⟩
      rintro ⟨t0, h0, hk, _⟩
      have := List.getElem?_eq_none_iff.1 hg
      rw [v.length t0 h0] at this
      omega
    | some g =>
      have hl : k < s.segs.length := (List.getElem?_eq_some_iff.1 hg).1
      dsimp only
      cases hs : started tr with
      | none =>
        rw [(v.idle hs).2.1] at hl
        cases hl
      | some t0 =>
        have f := v.fit t0 hs k g hg
        rw [v.length t0 hs] at hl
        cases hd : g.done with
        | true =>
          refine ⟨fun ⟨l, a⟩ => (nomatch a), ?_⟩
          rintro ⟨t, ht, _, ha⟩
          cases ht
          obtain ⟨u, hu, hf⟩ := f.done hd
          rw [ha u hu] at hf
          cases hf
        | false => exact ⟨fun _ => ⟨t0, rfl, by omega, (f.hand hd).2⟩, fun _ => ⟨_, rfl⟩⟩

/-- **Sleeps are asked to end at the next full minute and the next full second** of the time that was read; that is, of the time assumed
for the first line of a group. -/
theorem c123_sleeps {tr : Trace} {s : State} (h : machine.Reach tr s) (op : Op) (l : List Nat) (hl : (step s op).1 = .did l) :
    match op with
    | .start t => l.map (t + ·) = [(t / 60000000000 + 1) * 60000000000, (t / 1000000000 + 1) * 1000000000]
    | .tick _ => l = [60000000000, 1000000000]
    | .wake k t => ∀ t0, started tr = some t0 →
        l.map (t + ·) = if sameHand (t0 / 60000000000 + k) t then [(t / 1000000000 + 1) * 1000000000] else [] := by
  have v := inv_reach h
  have hv := (c123_valid h op).1 ⟨l, hl⟩
  unfold step at hl
  rw [if_neg (show ¬ s.dead = true by rw [v.live]; decide)] at hl
  cases op with
  | start now =>
    dsimp only at hv ⊢
    obtain ⟨h1, h2, h3⟩ := v.idle hv
    rw [h1] at hl
    dsimp only at hl
    obtain ⟨l', a, b, c⟩ := inv_round v (.start now) now 0 (minuteOf now) (by rw [h2]; rfl) rfl (by rw [h2]; rfl)
      (fun l => by rw [started_snoc]; rfl) (fun l => by rw [ticks_snoc]; exact h3) (fun l i => by rw [reads_snoc]; rfl)
      (fun i g hg => by rw [h2] at hg; cases hg)
    have e : first now 0 = now := if_pos rfl
    rw [e] at a b c
    rw [hl] at a
    cases a
    rw [c]
    simp only [List.map_cons, List.map_nil, List.cons.injEq, and_true]
    unfold perMinute perSecond
    omega
  | tick now =>
    dsimp only at hv ⊢
    cases hs : started tr with
    | none => exact absurd hs hv
    | some t0 =>
      rw [v.run t0 hs] at hl
      dsimp only at hl
      obtain ⟨l', a, b, c⟩ := inv_round v (.tick now) t0 (ticks tr + 1) _ (v.length t0 hs) rfl (last_seq v hs)
        (fun l => by rw [started_snoc]; exact hs) (fun l => by rw [ticks_snoc]; rfl) (fun l i => by rw [reads_snoc]; rfl) (v.fit t0 hs)
      have e : first t0 (ticks tr + 1) = (t0 / perMinute + ticks tr + 1) * perMinute := by
        unfold first
        rw [if_neg (by omega)]
        rfl
      rw [e] at a b c
      change (round s _ (t0 / perMinute % 60 + ticks tr + 1)).1 = _ at a
      rw [hl] at a
      cases a
      rw [c]
      simp only [List.cons.injEq, and_true]
      unfold perMinute perSecond
      omega
  | wake k now =>
    dsimp only at hv hl ⊢
    intro t0 h0
    obtain ⟨t0', h0', hk, ha⟩ := hv
    rw [h0] at h0'
    cases h0'
    have hlen : k < s.segs.length := by rw [v.length t0 h0]; omega
    rw [List.getElem?_eq_getElem hlen] at hl
    have f := v.fit t0 h0 k _ (List.getElem?_eq_getElem hlen)
    generalize s.segs[k] = g at f hl
    dsimp only at hl
    cases hd : g.done with
    | true =>
      rw [hd] at hl
      cases hl
    | false =>
      rw [hd, if_neg (by decide)] at hl
      cases hl
      have hh : sameHand (t0 / 60000000000 + k) now = true ↔ minuteOf now = minuteOf g.now := by
        rw [(f.hand hd).1]
        exact beq_iff_eq
      by_cases hm : minuteOf now = minuteOf g.now
      · have hw : wake g now = { g with seconds := g.seconds ++ [secondOf now], now := now } := if_neg (fun a => a hm)
        rw [hw, hh.2 hm, if_pos rfl]
        dsimp only
        rw [hd, if_neg (by decide)]
        unfold delay perSecond
        simp only [List.map_cons, List.map_nil, List.cons.injEq, and_true]
        omega
      · have hw : wake g now = { g with done := true } := if_pos hm
        rw [hw]
        have hf : ¬ sameHand (t0 / 60000000000 + k) now = true := fun a => hm (hh.1 a)
        rw [if_neg hf]
        rfl

theorem line_true {m t : Nat} (h : sameHand m t = true) (h1 : m < t / 60000000000 + 60) (h2 : t / 60000000000 < m + 60) :
    line m t = (t / 60000000000, t / 1000000000 % 60) := by
  have : t / 60000000000 % 60 = m % 60 := by
    unfold sameHand at h
    simpa using h
  unfold line
  have : m = t / 60000000000 := by omega
  rw [this]

/-- **The times that were read are printed as they are, if they are less than an hour from the minute of the group.** -/
theorem c123_true_partial {tr : Trace} {s : State} (h : machine.Reach tr s) {t0 : Nat} (h0 : started tr = some t0) {k : Nat}
    (hk : k ≤ ticks tr) (hl : ∀ t ∈ reads k tr, t0 / 60000000000 + k < t / 60000000000 + 60 ∧
      t / 60000000000 < t0 / 60000000000 + k + 60) :
    ∃ g, s.segs[k]? = some g ∧ printed g = (first t0 k :: (reads k tr).takeWhile (sameHand (t0 / 60000000000 + k))).map
      fun t => (t / 60000000000, t / 1000000000 % 60) := by
  obtain ⟨g, hg, _, h2, _⟩ := (c123_printed h h0).2 k hk
  refine ⟨g, hg, ?_⟩
  rw [h2]
  apply List.map_congr_left
  intro t ht
  rcases List.mem_cons.1 ht with rfl | ht
  · have := (first_hand t0 k).2
    change first t0 k / 60000000000 = t0 / 60000000000 + k at this
    unfold line
    rw [this]
  · have hm := (List.takeWhile_sublist (sameHand (t0 / 60000000000 + k))).subset ht
    exact line_true (List.all_eq_true.1 List.all_takeWhile t ht) (hl t hm).1 (hl t hm).2

/-- Every sleep lasted until the next second, at least. -/
def Slept : Nat → List Nat → Prop
  | _, [] => True
  | a, b :: l => a / 1000000000 + 1 ≤ b / 1000000000 ∧ Slept b l

/-- Every sleep lasted until some time in the next second. -/
def Punctual : Nat → List Nat → Prop
  | _, [] => True
  | a, b :: l => b / 1000000000 = a / 1000000000 + 1 ∧ Punctual b l

theorem minute_second (t : Nat) : t / 60000000000 = t / 1000000000 / 60 := by
  rw [Nat.div_div_eq_div_mul]

theorem second_lt {m a b : Nat} (ha : a / 60000000000 = m) (hb : b / 60000000000 = m) (h : a / 1000000000 < b / 1000000000) :
    a / 1000000000 % 60 < b / 1000000000 % 60 := by
  rw [minute_second] at ha hb
  omega

theorem slept_le {a : Nat} {l : List Nat} (h : Slept a l) : ∀ t ∈ l, a / 1000000000 < t / 1000000000 := by
  induction l generalizing a with
  | nil => intro t ht; cases ht
  | cons b l ih =>
    intro t ht
    rcases List.mem_cons.1 ht with rfl | ht
    · exact h.1
    · have h1 := ih h.2 t ht
      have h2 := h.1
      omega

theorem rising {m a : Nat} {l : List Nat} (hs : Slept a l) (ha : a / 60000000000 = m) (hl : ∀ t ∈ l, t / 60000000000 = m) :
    ((a :: l).map fun t => t / 1000000000 % 60).Pairwise (· < ·) := by
  induction l generalizing a with
  | nil => simp
  | cons b l ih =>
    rw [List.map_cons, List.pairwise_cons]
    refine ⟨?_, ih hs.2 (hl b (by simp)) fun t ht => hl t (List.mem_cons_of_mem _ ht)⟩
    intro x hx
    obtain ⟨t, ht, rfl⟩ := List.mem_map.1 hx
    exact second_lt ha (hl t ht) (slept_le hs t ht)

theorem slept_takeWhile {p : Nat → Bool} {a : Nat} {l : List Nat} (h : Slept a l) : Slept a (l.takeWhile p) := by
  induction l generalizing a with
  | nil => exact h
  | cons b l ih =>
    rw [List.takeWhile_cons]
    split
    · exact ⟨h.1, ih h.2⟩
    · trivial

theorem rising_length {l : List Nat} (h : l.Pairwise (· < ·)) : ∀ {n b : Nat}, (∀ x ∈ l, n ≤ x ∧ x < b) → n ≤ b → l.length ≤ b - n := by
  induction l with
  | nil => intro n b _ _; exact Nat.zero_le _
  | cons a l ih =>
    intro n b hx hn
    rw [List.pairwise_cons] at h
    have ha := hx a (by simp)
    have := ih h.2 (n := a + 1) (b := b) (fun x hx' => ⟨h.1 x hx', (hx x (List.mem_cons_of_mem _ hx')).2⟩) (by omega)
    rw [List.length_cons]
    omega

theorem rising_kept {t0 k : Nat} {l : List Nat} (hs : Slept (first t0 k) l)
    (hl : ∀ t ∈ l, t / 60000000000 < t0 / 60000000000 + k + 60) :
    (((first t0 k :: l.takeWhile (sameHand (t0 / 60000000000 + k))).map (line (t0 / 60000000000 + k))).map (·.2)).Pairwise (· < ·) ∧
      (first t0 k :: l.takeWhile (sameHand (t0 / 60000000000 + k))).length ≤ 60 := by
  have hf := (first_hand t0 k).2
  have hk : ∀ t ∈ l.takeWhile (sameHand (t0 / 60000000000 + k)), t / 60000000000 = t0 / 60000000000 + k := by
    intro t ht
    have h1 : sameHand (t0 / 60000000000 + k) t = true := List.all_eq_true.1 List.all_takeWhile t ht
    have h2 := hl t (List.takeWhile_sublist _ |>.subset ht)
    have h3 := slept_le hs t (List.takeWhile_sublist _ |>.subset ht)
    have h4 : t0 / 60000000000 + k ≤ t / 60000000000 := by
      rw [← hf, show first t0 k / perMinute = first t0 k / 60000000000 from rfl, minute_second, minute_second t]
      omega
    unfold sameHand at h1
    have h5 : t / 60000000000 % 60 = (t0 / 60000000000 + k) % 60 := by simpa using h1
    omega
  have hr := rising (slept_takeWhile (p := sameHand (t0 / 60000000000 + k)) hs) hf hk
  rw [List.map_map]
  refine ⟨hr, ?_⟩
  have := rising_length hr (n := 0) (b := 60) (by
    intro x hx
    obtain ⟨t, _, rfl⟩ := List.mem_map.1 hx
    exact ⟨Nat.zero_le _, Nat.mod_lt _ (by decide)⟩) (by decide)
  simpa using this

/-- **No second is printed twice for a group, and so at most sixty**, if sleeping always lasted until the next second and less than an
hour. -/
theorem c123_rising {tr : Trace} {s : State} (h : machine.Reach tr s) {t0 : Nat} (h0 : started tr = some t0) {k : Nat}
    (hk : k ≤ ticks tr) (hs : Slept (first t0 k) (reads k tr))
    (hl : ∀ t ∈ reads k tr, t / 60000000000 < t0 / 60000000000 + k + 60) :
    ∃ g, s.segs[k]? = some g ∧ ((printed g).map (·.2)).Pairwise (· < ·) ∧ (printed g).length ≤ 60 := by
  obtain ⟨g, hg, _, h2, _⟩ := (c123_printed h h0).2 k hk
  refine ⟨g, hg, ?_⟩
  rw [h2, List.length_map]
  exact rising_kept hs hl

theorem punctual_seconds {m a : Nat} {l : List Nat} (h : Punctual a l) (ha : a / 60000000000 = m) :
    (a :: l.takeWhile (sameHand m)).map (fun t => t / 1000000000 % 60) =
      List.range' (a / 1000000000 % 60) (min (l.length + 1) (60 - a / 1000000000 % 60)) := by
  induction l generalizing a with
  | nil =>
    have : a / 1000000000 % 60 < 60 := Nat.mod_lt _ (by decide)
    rw [show min (([] : List Nat).length + 1) (60 - a / 1000000000 % 60) = 1 by simp only [List.length_nil]; omega]
    rfl
  | cons b l ih =>
    have hb := h.1
    rw [minute_second] at ha
    have hlt : a / 1000000000 % 60 < 60 := Nat.mod_lt _ (by decide)
    by_cases hs : a / 1000000000 % 60 = 59
    · have hf : sameHand m b = false := by
        unfold sameHand
        rw [minute_second]
        simp only [beq_eq_false_iff_ne, ne_eq]
        omega
      rw [List.takeWhile_cons, hf, hs]
      simp only [List.length_cons, Bool.false_eq_true, if_false, List.map_cons, List.map_nil, hs]
      rw [show min (l.length + 1 + 1) (60 - 59) = 1 by omega]
      rfl
    · have hm : b / 60000000000 = m := by rw [minute_second]; omega
      have ht : sameHand m b = true := by
        unfold sameHand
        rw [hm]
        simp
      have e : b / 1000000000 % 60 = a / 1000000000 % 60 + 1 := by omega
      have := ih h.2 hm
      rw [e] at this
      rw [List.takeWhile_cons, ht, if_pos rfl, List.map_cons, this, List.length_cons,
        show min (l.length + 1 + 1) (60 - a / 1000000000 % 60) = min (l.length + 1) (60 - (a / 1000000000 % 60 + 1)) + 1 by omega]
      rfl

/-- **If sleeping always lasted until some time in the next second, a group has one line per second**, from its first one to 59, and then
ends. -/
theorem c123_every {tr : Trace} {s : State} (h : machine.Reach tr s) {t0 : Nat} (h0 : started tr = some t0) {k : Nat}
    (hk : k ≤ ticks tr) (hp : Punctual (first t0 k) (reads k tr)) :
    ∃ g, s.segs[k]? = some g ∧
      printed g = (List.range' (first t0 k / 1000000000 % 60)
        (min ((reads k tr).length + 1) (60 - first t0 k / 1000000000 % 60))).map (fun x => (t0 / 60000000000 + k, x)) ∧
      (g.done = true ↔ 60 - first t0 k / 1000000000 % 60 ≤ (reads k tr).length) := by
  obtain ⟨g, hg, _, h2, h3⟩ := (c123_printed h h0).2 k hk
  have e := punctual_seconds hp (first_hand t0 k).2
  change List.map _ (first t0 k :: (reads k tr).takeWhile (sameHand (t0 / 60000000000 + k))) = _ at e
  refine ⟨g, hg, ?_, ?_⟩
  · rw [h2, ← e, List.map_map]
    rfl
  · rw [h3]
    have hl := congrArg List.length e
    rw [List.length_map, List.length_cons, List.length_range'] at hl
    have hlt : first t0 k / 1000000000 % 60 < 60 := Nat.mod_lt _ (by decide)
    constructor
    · rintro ⟨t, ht, hf⟩
      rcases Nat.lt_or_ge (reads k tr).length (60 - first t0 k / 1000000000 % 60) with hc | hc
      · have hlen : ((reads k tr).takeWhile (sameHand (t0 / 60000000000 + k))).length = (reads k tr).length := by omega
        have he := (List.takeWhile_sublist (sameHand (t0 / 60000000000 + k))).eq_of_length hlen
        rw [← he] at ht
        have := List.all_eq_true.1 List.all_takeWhile t ht
        rw [hf] at this
        cases this
      · exact hc
    · intro hc
      cases hx : (reads k tr).all (sameHand (t0 / 60000000000 + k)) with
      | true =>
        rw [takeWhile_id (List.all_eq_true.1 hx)] at hl
        omega
      | false =>
        obtain ⟨t, ht, hf⟩ := List.all_eq_false.1 hx
        exact ⟨t, ht, by simpa using hf⟩

/-- **Every round prints the full minute after the one before, whatever time it is.** -/
theorem c123_drift {tr : Trace} {s : State} (h : machine.Reach tr s) {t0 : Nat} (h0 : started tr = some t0) (t : Nat) :
    ∃ g, (step s (.tick t)).2.segs[ticks tr + 1]? = some g ∧ printed g = [(t0 / 60000000000 + (ticks tr + 1), 0)] := by
  obtain ⟨l, hv⟩ := (c123_valid h (.tick t)).2 (by rw [h0]; exact (nomatch ·))
  have hr := Machine.Reach.step (M := machine) (.tick t) h
  change machine.Reach (tr ++ [(.tick t, (step s (.tick t)).1)]) (step s (.tick t)).2 at hr
  rw [hv] at hr
  have e1 : ticks (tr ++ [(.tick t, .did l)]) = ticks tr + 1 := by rw [ticks_snoc]; rfl
  have e2 : reads (ticks tr + 1) (tr ++ [(.tick t, .did l)]) = [] := by
    rw [reads_snoc]
    exact (inv_reach h).fresh _ (by rw [(inv_reach h).length t0 h0]; omega)
  obtain ⟨g, hg, _, hp, _⟩ := (c123_printed hr (t0 := t0) (by rw [started_snoc]; exact h0)).2 (ticks tr + 1) (by omega)
  refine ⟨g, hg, ?_⟩
  rw [hp, e2]
  show [line _ (first t0 (ticks tr + 1))] = _
  have : first t0 (ticks tr + 1) / 1000000000 % 60 = 0 := by
    unfold first
    rw [if_neg (by omega)]
    omega
  unfold line
  rw [this]

/-! ## Cases -/

/-- Started at 12:34:57.5, with punctual sleeps. -/
def at5 : Nat := (12 * 60 + 34) * 60000000000 + 57500000000

def exClock : List Op :=
  [.start at5, .wake 0 (at5 + 510000000), .wake 0 (at5 + 1510000000), .wake 0 (at5 + 2501000000), .tick (at5 + 2501000000),
    .wake 1 (at5 + 3502000000)]

example : started (machine.run exClock).1 = some at5 ∧ ticks (machine.run exClock).1 = 1 := by decide

example : (machine.run exClock).2.segs.map printed = [[(754, 57), (754, 58), (754, 59)], [(755, 0), (755, 1)]] ∧
    (machine.run exClock).2.segs.map (·.done) = [true, false] ∧ (machine.run exClock).2.segs.map (·.seq) = [34, 35] := by decide

example : Punctual (first at5 0) (reads 0 (machine.run exClock).1) ∧ Slept (first at5 0) (reads 0 (machine.run exClock).1) := by
  refine ⟨⟨by decide, by decide, by decide, trivial⟩, ⟨by decide, by decide, by decide, trivial⟩⟩

/-- **After a sleep of an hour, the wrong hour is printed.** -/
theorem c123_hour : ∃ (tr : Trace) (s : State) (t : Nat), machine.Reach tr s ∧ reads 0 tr = [t] ∧
    s.segs.map printed = [[(754, 57), (754, 58)]] ∧ (t / 60000000000, t / 1000000000 % 60) = (814, 58) :=
  ⟨_, _, at5 + 510000000 + 60 * 60000000000, machine.reach_run [.start at5, .wake 0 (at5 + 510000000 + 60 * 60000000000)],
    by decide, by decide, by decide⟩

/-- **A round that comes ten minutes late prints the old time, and so do those that follow; their groups have no other line.** -/
theorem c123_late : ∃ (tr : Trace) (s : State), machine.Reach tr s ∧
    tr.map (·.1) = [.start at5, .tick (at5 + 10 * 60000000000), .wake 1 (at5 + 10 * 60000000000 + 1000000000),
      .tick (at5 + 11 * 60000000000), .wake 2 (at5 + 11 * 60000000000 + 1000000000)] ∧
    s.segs.map printed = [[(754, 57)], [(755, 0)], [(756, 0)]] ∧ s.segs.map (·.done) = [false, true, true] :=
  ⟨_, _, machine.reach_run [.start at5, .tick (at5 + 10 * 60000000000), .wake 1 (at5 + 10 * 60000000000 + 1000000000),
      .tick (at5 + 11 * 60000000000), .wake 2 (at5 + 11 * 60000000000 + 1000000000)], by decide, by decide, by decide⟩

/-- **A sleep that ends early prints a second twice.** -/
theorem c123_repeat : ∃ (tr : Trace) (s : State), machine.Reach tr s ∧ s.segs.map printed = [[(754, 57), (754, 57)]] :=
  ⟨_, _, machine.reach_run [.start at5, .wake 0 (at5 + 499000000)], by decide⟩

end Verif.Props.Clock
