import Verif.Hang.CatalogSpec

/-!
# Lemmas about the catalog
-/

set_option autoImplicit false

namespace Verif.Hang.Catalog

open Verif Verif.Hang.Catalog.Spec

variable {Info : Type}

theorem added_snoc (tr : Trace Info) (e : Op Info × Out Info) :
    added (tr ++ [e]) = added tr ++ added [e] := by simp [added]

theorem removed_snoc (tr : Trace Info) (e : Op Info × Out Info) :
    removed (tr ++ [e]) = removed tr ++ removed [e] := by simp [removed]

theorem closed_snoc (tr : Trace Info) (e : Op Info × Out Info) (n : Nat) :
    Closed (tr ++ [e]) n ↔ Closed tr n ∨ e = (.close n, .ok) := by
  unfold Closed; rw [List.mem_append, List.mem_singleton]; exact or_congr Iff.rfl eq_comm

theorem published_snoc (tr : Trace Info) (e : Op Info × Out Info) (b : Bool) (n : Nat) :
    Published (tr ++ [e]) b n ↔ Published tr b n ∨ ∃ v a, e = (.publish n, .published b v a) := by
  unfold Published
  simp only [List.mem_append, List.mem_singleton]
  constructor
  · rintro ⟨v, a, h | h⟩
    · exact .inl ⟨v, a, h⟩
    · exact .inr ⟨v, a, h.symm⟩
  · rintro (⟨v, a, h⟩ | ⟨v, a, h⟩)
    · exact ⟨v, a, .inl h⟩
    · exact ⟨v, a, .inr h.symm⟩

theorem lastPublished_snoc (tr : Trace Info) (e : Op Info × Out Info) :
    lastPublished (tr ++ [e]) = match e.2 with
      | .published _ v a => some (v, a)
      | _ => lastPublished tr := by
  unfold lastPublished
  rw [List.filterMap_append]
  obtain ⟨op, o⟩ := e
  cases o <;> simp

/-- What the history says about call `n`. -/
structure CallOk (tr : Trace Info) (n : Nat) (st : Stage) (closed : Bool) : Prop where
  first : Published tr true n ↔ st ≠ .added
  rem : n ∈ removed tr ↔ st = .removed ∨ st = .done
  last : Published tr false n ↔ st = .done
  clo : Closed tr n ↔ closed = true
  after : st = .removed ∨ st = .done → closed = true

/-- The call is in the middle of a change. -/
def Stage.mid : Stage → Bool
  | .added | .removed => true
  | _ => false

/-- The invariant. -/
structure Inv (tr : Trace Info) (s : State Info) : Prop where
  add : added tr = s.calls.mapIdx fun i x => (i, x.kind, x.info)
  call : ∀ n x, s.calls[n]? = some x → CallOk tr n x.stage x.closed
  none : ∀ n, s.calls.length ≤ n → CallOk tr n .added false
  fresh : (∃ (n : Nat) (x : Call Info), s.calls[n]? = some x ∧ x.stage.mid = true) ∨
    lastPublished tr = some (s.video.map (·.info), s.audio.map (·.info)) ∨ s.calls = []

/-- What the catalog should hold. -/
def entries (tr : Trace Info) (k : Kind) : List (Entry Info) :=
  ((added tr).filter fun x => x.2.1 = k ∧ x.1 ∉ removed tr).map fun x => ⟨x.1, x.2.2⟩

structure Lists (tr : Trace Info) (s : State Info) : Prop where
  video : s.video = entries tr .video
  audio : s.audio = entries tr .audio

theorem CallOk.other {tr : Trace Info} {n : Nat} {st : Stage} {cl : Bool} (h : CallOk tr n st cl)
    {e : Op Info × Out Info} (h1 : ∀ b v a, e ≠ (.publish n, .published b v a))
    (h2 : e ≠ (.remove n, .ok)) (h3 : e ≠ (.close n, .ok)) : CallOk (tr ++ [e]) n st cl := by
  have hp : ∀ b, Published (tr ++ [e]) b n ↔ Published tr b n := by
    intro b
    rw [published_snoc]
    refine or_iff_left ?_
    rintro ⟨v, a, he⟩
    exact h1 b v a he
  have hr : n ∈ removed (tr ++ [e]) ↔ n ∈ removed tr := by
    rw [removed_snoc, List.mem_append]
    refine or_iff_left ?_
    intro hm
    obtain ⟨op, o⟩ := e
    cases op <;> cases o <;> simp [removed] at hm
    subst hm
    exact h2 rfl
  refine ⟨(hp true).trans h.first, hr.trans h.rem, (hp false).trans h.last, ?_, h.after⟩
  rw [closed_snoc, or_iff_left h3]
  exact h.clo

theorem inv_init : Inv (Info := Info) [] init := by
  refine ⟨rfl, ?_, ?_, .inr (.inr rfl)⟩
  · intro n x hx; cases hx
  · intro n _
    refine ⟨?_, ?_, ?_, ?_, ?_⟩
    · simp [Published]
    · simp [removed]
    · simp [Published]
    · simp [Closed]
    · simp

theorem mapIdx_set_same {l : List (Call Info)} {n : Nat} {x y : Call Info} (h : l[n]? = some x)
    (hk : y.kind = x.kind) (hi : y.info = x.info) :
    (l.set n y).mapIdx (fun i x => (i, x.kind, x.info)) = l.mapIdx fun i x => (i, x.kind, x.info) := by
  apply List.ext_getElem?
  intro i
  simp only [List.getElem?_mapIdx, List.getElem?_set]
  split
  · rename_i hij; subst hij
    rw [h]
    split
    · simp [hk, hi]
    · rename_i hn
      exact absurd (List.getElem?_eq_some_iff.1 h).1 hn
  · rfl

/-- One call changes. -/
theorem Inv.update {tr : Trace Info} {s s' : State Info} (h : Inv tr s) {e : Op Info × Out Info} {n : Nat}
    {x y : Call Info} (hx : s.calls[n]? = some x) (hk : y.kind = x.kind) (hi : y.info = x.info)
    (hc : s'.calls = s.calls.set n y) (ha : added [e] = [])
    (h1 : ∀ m b v a, m ≠ n → e ≠ (.publish m, .published b v a))
    (h2 : ∀ m, m ≠ n → e ≠ (.remove m, .ok)) (h3 : ∀ m, m ≠ n → e ≠ (.close m, .ok))
    (hy : CallOk (tr ++ [e]) n y.stage y.closed)
    (hf : y.stage.mid = true ∨ (∃ (m : Nat) (z : Call Info), m ≠ n ∧ s.calls[m]? = some z ∧ z.stage.mid = true) ∨
      lastPublished (tr ++ [e]) = some (s'.video.map (·.info), s'.audio.map (·.info))) :
    Inv (tr ++ [e]) s' := by
  have hlt := (List.getElem?_eq_some_iff.1 hx).1
  refine ⟨?_, ?_, ?_, ?_⟩
  · rw [added_snoc, ha, List.append_nil, hc, mapIdx_set_same hx hk hi]; exact h.add
  · intro m z hz
    rw [hc, List.getElem?_set] at hz
    split at hz
    · rename_i hm; subst hm
      injection hz with hz; subst hz
      exact hy
    · rename_i hm
      exact (h.call m z hz).other (fun b v a => h1 m b v a (Ne.symm hm)) (h2 m (Ne.symm hm)) (h3 m (Ne.symm hm))
  · intro m hm
    rw [hc, List.length_set] at hm
    have hmn : m ≠ n := by omega
    exact (h.none m hm).other (fun b v a => h1 m b v a hmn) (h2 m hmn) (h3 m hmn)
  · rcases hf with hf | ⟨m, z, hm, hz, hf⟩ | hf
    · left
      exact ⟨n, y, by rw [hc, List.getElem?_set_self hlt], hf⟩
    · left
      refine ⟨m, z, ?_, hf⟩
      rw [hc, List.getElem?_set_ne (Ne.symm hm)]; exact hz
    · exact .inr (.inl hf)

theorem Inv.same {tr : Trace Info} {s : State Info} (h : Inv tr s) (op : Op Info) :
    Inv (tr ++ [(op, .invalid)]) s := by
  refine ⟨?_, ?_, ?_, ?_⟩
  · rw [added_snoc]
    have : added [(op, Out.invalid)] = [] := by cases op <;> rfl
    rw [this, List.append_nil]; exact h.add
  · intro n x hx
    exact (h.call n x hx).other (by simp) (by simp) (by simp)
  · intro n hn
    exact (h.none n hn).other (by simp) (by simp) (by simp)
  · rw [lastPublished_snoc]; exact h.fresh

theorem Inv.new {tr : Trace Info} {s s' : State Info} (h : Inv tr s) {k : Kind} {info : Info}
    (hc : s'.calls = s.calls ++ [⟨k, info, .added, false⟩]) :
    Inv (tr ++ [(.add k info, .call s.calls.length)]) s' := by
  refine ⟨?_, ?_, ?_, ?_⟩
  · rw [added_snoc, hc, List.mapIdx_append, ← h.add]
    simp [added]
  · intro n x hx
    rw [hc] at hx
    by_cases hn : n < s.calls.length
    · rw [List.getElem?_append_left hn] at hx
      exact (h.call n x hx).other (by simp) (by simp) (by simp)
    · rw [List.getElem?_append_right (by omega)] at hx
      have : n - s.calls.length = 0 := by
        have := (List.getElem?_eq_some_iff.1 hx).1
        simp at this; omega
      rw [this] at hx
      simp at hx
      subst hx
      exact (h.none n (by omega)).other (by simp) (by simp) (by simp)
  · intro n hn
    rw [hc] at hn
    simp at hn
    exact (h.none n (by omega)).other (by simp) (by simp) (by simp)
  · left
    exact ⟨s.calls.length, ⟨k, info, .added, false⟩, by rw [hc]; simp, rfl⟩

theorem Inv.step {eq : Info → Info → Bool} {tr : Trace Info} {s : State Info} (h : Inv tr s) (op : Op Info) :
    Inv (tr ++ [(op, (step eq s op).1)]) (step eq s op).2 := by
  cases op with
  | add k info =>
    cases k with
    | video => exact h.new rfl
    | audio => exact h.new rfl
  | publish n =>
    simp only [Catalog.step]
    cases hx : s.calls[n]? with
    | none => exact h.same _
    | some x =>
      have hok := h.call n x hx
      simp only []
      cases hst : x.stage with
      | waiting => exact h.same _
      | done => exact h.same _
      | added =>
        rw [hst] at hok
        refine h.update hx (y := { x with stage := .waiting }) rfl rfl rfl rfl ?_ ?_ ?_ ?_ ?_
        · intro m b v a hm he; cases he; exact hm rfl
        · intro m hm he; cases he
        · intro m hm he; cases he
        · refine ⟨?_, ?_, ?_, ?_, ?_⟩
          · rw [published_snoc]; simp
          · rw [removed_snoc, show removed [_] = [] from rfl, List.append_nil, hok.rem]; simp
          · rw [published_snoc, hok.last]; simp
          · rw [closed_snoc, hok.clo]; simp
          · simp
        · right; right; rw [lastPublished_snoc]
      | removed =>
        rw [hst] at hok
        refine h.update hx (y := { x with stage := .done }) rfl rfl rfl rfl ?_ ?_ ?_ ?_ ?_
        · intro m b v a hm he; cases he; exact hm rfl
        · intro m hm he; cases he
        · intro m hm he; cases he
        · refine ⟨?_, ?_, ?_, ?_, ?_⟩
          · rw [published_snoc, hok.first]; simp
          · rw [removed_snoc, show removed [_] = [] from rfl, List.append_nil, hok.rem]; simp
          · rw [published_snoc]; simp
          · rw [closed_snoc, hok.clo]; simp
          · intro _; exact hok.after (.inl rfl)
        · right; right; rw [lastPublished_snoc]
  | close n =>
    simp only [Catalog.step]
    cases hx : s.calls[n]? with
    | none => exact h.same _
    | some x =>
      have hok := h.call n x hx
      simp only []
      split
      · exact h.same _
      · refine h.update hx (y := { x with closed := true }) rfl rfl rfl rfl ?_ ?_ ?_ ?_ ?_
        · intro m b v a hm he; cases he
        · intro m hm he; cases he
        · intro m hm he; cases he; exact hm rfl
        · refine ⟨?_, ?_, ?_, ?_, ?_⟩
          · rw [published_snoc, hok.first]; simp
          · rw [removed_snoc, show removed [_] = [] from rfl, List.append_nil, hok.rem]
          · rw [published_snoc, hok.last]; simp
          · rw [closed_snoc]; simp
          · simp
        · rcases h.fresh with ⟨m, z, hz, hmid⟩ | hl | hnil
          · by_cases hm : m = n
            · subst hm; rw [hx] at hz; injection hz with hz; subst hz; exact .inl hmid
            · exact .inr (.inl ⟨m, z, hm, hz, hmid⟩)
          · right; right; rw [lastPublished_snoc]; exact hl
          · rw [hnil] at hx; cases hx
  | remove n =>
    simp only [Catalog.step]
    cases hx : s.calls[n]? with
    | none => exact h.same _
    | some x =>
      have hok := h.call n x hx
      simp only []
      split
      · rename_i hw
        rw [hw.1] at hok
        have key : ∀ s' : State Info, s'.calls = setStage s.calls n x .removed →
            Inv (tr ++ [(Op.remove n, Out.ok)]) s' := by
          intro s' hs'
          refine h.update hx (y := { x with stage := .removed }) rfl rfl hs' rfl ?_ ?_ ?_ ?_ (.inl rfl)
          · intro m b v a hm he; cases he
          · intro m hm he; cases he; exact hm rfl
          · intro m hm he; cases he
          · refine ⟨?_, ?_, ?_, ?_, fun _ => hw.2⟩
            · rw [published_snoc, hok.first]; simp
            · rw [removed_snoc]; simp [removed]
            · rw [published_snoc, hok.last]; simp
            · rw [closed_snoc, hok.clo]; simp
        cases x.kind with
        | video => exact key _ rfl
        | audio => exact key _ rfl
      · exact h.same _

theorem inv_reach {eq : Info → Info → Bool} {tr : Trace Info} {s : State Info}
    (h : (machine eq).Reach tr s) : Inv tr s := by
  refine Machine.Reach.induct (M := machine eq) (P := fun tr s => Inv tr s) inv_init ?_ h
  intro tr s op _ ih
  exact ih.step op

theorem distinct_prefix {eq : Info → Info → Bool} {tr : Trace Info} {e : Op Info × Out Info}
    (h : Distinct eq (tr ++ [e])) : Distinct eq tr := by
  intro x hx y hy
  refine h x ?_ y ?_
  · rw [added_snoc]; exact List.mem_append_left _ hx
  · rw [added_snoc]; exact List.mem_append_left _ hy

theorem entries_same {tr : Trace Info} {e : Op Info × Out Info} (ha : added [e] = []) (hr : removed [e] = [])
    (k : Kind) : entries (tr ++ [e]) k = entries tr k := by
  unfold entries
  rw [added_snoc, removed_snoc, ha, hr, List.append_nil, List.append_nil]

theorem mem_added {tr : Trace Info} {s : State Info} (h : Inv tr s) {n : Nat} {x : Call Info}
    (hx : s.calls[n]? = some x) : (n, x.kind, x.info) ∈ added tr := by
  rw [h.add]
  refine List.mem_of_getElem? (i := n) ?_
  simp [hx]

theorem added_unique {tr : Trace Info} {s : State Info} (h : Inv tr s) {x : Nat × Kind × Info}
    (hx : x ∈ added tr) : ∃ y, s.calls[x.1]? = some y ∧ x = (x.1, y.kind, y.info) := by
  rw [h.add] at hx
  obtain ⟨i, hi⟩ := List.mem_iff_getElem?.1 hx
  simp only [List.getElem?_mapIdx] at hi
  cases hc : s.calls[i]? with
  | none => rw [hc] at hi; cases hi
  | some y =>
    rw [hc] at hi
    simp at hi
    subst hi
    exact ⟨y, hc, rfl⟩

/-- The entries left after the removal of call `n`. -/
theorem entries_remove {tr : Trace Info} {n : Nat} (k : Kind) :
    entries (tr ++ [(.remove n, .ok)]) k = (entries tr k).filter fun x => decide (x.call ≠ n) := by
  unfold entries
  rw [added_snoc, removed_snoc, show added [(Op.remove n, Out.ok)] = ([] : List (Nat × Kind × Info)) from rfl,
    List.append_nil, show removed [(Op.remove n, (Out.ok : Out Info))] = [n] from rfl, List.filter_map,
    List.filter_filter]
  congr 1
  apply List.filter_congr
  intro x _
  by_cases h1 : x.2.1 = k <;> by_cases h2 : x.1 ∈ removed tr <;> by_cases h3 : x.1 = n <;>
    simp [h1, h2, h3]

theorem entries_add {tr : Trace Info} {s : State Info} (h : Inv tr s) (k j : Kind) (info : Info) :
    entries (tr ++ [(.add j info, .call s.calls.length)]) k =
      entries tr k ++ if j = k then [⟨s.calls.length, info⟩] else [] := by
  have hn : s.calls.length ∉ removed tr := by
    intro hm
    have := (h.none _ (Nat.le_refl _)).rem.1 hm
    simp at this
  unfold entries
  rw [added_snoc, removed_snoc, show removed [(Op.add j info, Out.call s.calls.length)] = [] from rfl,
    List.append_nil, show added [(Op.add j info, Out.call s.calls.length)] = [(s.calls.length, j, info)] from rfl,
    List.filter_append, List.map_append]
  congr 1
  by_cases hjk : j = k <;> simp [hjk, hn]

theorem retain_entries {eq : Info → Info → Bool} {tr : Trace Info} {s : State Info} (h : Inv tr s)
    (hd : Distinct eq tr) {n : Nat} {x : Call Info} (hx : s.calls[n]? = some x) :
    retain eq x.info (entries tr x.kind) = (entries tr x.kind).filter fun y => decide (y.call ≠ n) := by
  unfold retain
  apply List.filter_congr
  intro y hy
  unfold entries at hy
  obtain ⟨z, hz, rfl⟩ := List.mem_map.1 hy
  obtain ⟨hz1, hz2⟩ := List.mem_filter.1 hz
  simp only [decide_eq_true_eq] at hz2
  have := hd z hz1 _ (mem_added h hx) hz2.1
  simp only [] at this
  by_cases he : z.1 = n
  · simp [he, this.2 he]
  · have : eq z.2.2 x.info = false := by
      cases hq : eq z.2.2 x.info with
      | false => rfl
      | true => exact absurd (this.1 hq) he
    simp [he, this]

theorem filter_other {tr : Trace Info} {s : State Info} (h : Inv tr s)
    {n : Nat} {x : Call Info} (hx : s.calls[n]? = some x) {k : Kind} (hk : x.kind ≠ k) :
    (entries tr k).filter (fun y => decide (y.call ≠ n)) = entries tr k := by
  apply List.filter_eq_self.2
  intro y hy
  unfold entries at hy
  obtain ⟨z, hz, rfl⟩ := List.mem_map.1 hy
  obtain ⟨hz1, hz2⟩ := List.mem_filter.1 hz
  simp only [decide_eq_true_eq] at hz2 ⊢
  intro he
  obtain ⟨w, hw1, hw2⟩ := added_unique h hz1
  rw [he, hx] at hw1
  injection hw1 with hw1
  subst hw1
  rw [hw2] at hz2
  exact hk hz2.1

theorem lists_reach {eq : Info → Info → Bool} {tr : Trace Info} {s : State Info}
    (h : (machine eq).Reach tr s) : Distinct eq tr → Lists tr s := by
  refine Machine.Reach.induct (M := machine eq) (P := fun tr s => Distinct eq tr → Lists tr s) ?_ ?_ h
  · intro _; exact ⟨rfl, rfl⟩
  · intro tr s op hr ih hd
    have hd0 := distinct_prefix hd
    have ih := ih hd0
    have hI := inv_reach hr
    show Lists (tr ++ [(op, (step eq s op).1)]) (step eq s op).2
    have same : ∀ {o : Out Info} {s' : State Info}, added [(op, o)] = [] → removed [(op, o)] = [] →
        s'.video = s.video → s'.audio = s.audio → Lists (tr ++ [(op, o)]) s' := by
      intro o s' h1 h2 h3 h4
      refine ⟨?_, ?_⟩
      · rw [entries_same h1 h2, h3]; exact ih.video
      · rw [entries_same h1 h2, h4]; exact ih.audio
    cases op with
    | add k info =>
      cases k with
      | video =>
        simp only [Catalog.step]
        refine ⟨?_, ?_⟩
        · rw [entries_add hI, if_pos rfl, ← ih.video]
        · rw [entries_add hI, if_neg (by simp), List.append_nil]; exact ih.audio
      | audio =>
        simp only [Catalog.step]
        refine ⟨?_, ?_⟩
        · rw [entries_add hI, if_neg (by simp), List.append_nil]; exact ih.video
        · rw [entries_add hI, if_pos rfl, ← ih.audio]
    | publish n =>
      simp only [Catalog.step]
      repeat' split
      all_goals exact same rfl rfl rfl rfl
    | close n =>
      simp only [Catalog.step]
      repeat' split
      all_goals exact same rfl rfl rfl rfl
    | remove n =>
      simp only [Catalog.step]
      cases hx : s.calls[n]? with
      | none => exact same rfl rfl rfl rfl
      | some x =>
        simp only []
        split
        · have hret := retain_entries hI hd0 hx
          cases hk : x.kind with
          | video =>
            rw [hk] at hret
            refine ⟨?_, ?_⟩
            · rw [entries_remove, ← hret, ← ih.video]
            · rw [entries_remove, filter_other hI hx (by rw [hk]; simp)]; exact ih.audio
          | audio =>
            rw [hk] at hret
            refine ⟨?_, ?_⟩
            · rw [entries_remove, filter_other hI hx (by rw [hk]; simp)]; exact ih.video
            · rw [entries_remove, ← hret, ← ih.audio]
        · exact same rfl rfl rfl rfl

end Verif.Hang.Catalog
