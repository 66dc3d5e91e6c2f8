import Verif.Js.Watching

/-!
# Invariants of watching a broadcast
-/

set_option autoImplicit false

namespace Verif.Js.Watching

open Verif

/-! ## Histories -/

theorem calls_snoc (tr : Trace) (op : Op) (o : Out) : calls (tr ++ [(op, o)]) = calls tr ++ o.calls := by
  simp [calls]

theorem sig_snoc (tr : Trace) (op : Op) (o : Out) : sig (tr ++ [(op, o)]) =
    match op with | .set x => x | _ => sig tr := by
  unfold sig
  rw [List.foldl_append]
  cases op <;> rfl

theorem closed_snoc (tr : Trace) (op : Op) (o : Out) : Closed (tr ++ [(op, o)]) ↔ Closed tr ∨ op = .close := by
  unfold Closed
  rw [List.map_append, List.mem_append]
  simp [eq_comm]

theorem heardBy_snoc (tr : Trace) (op : Op) (o : Out) (i : Nat) : heardBy (tr ++ [(op, o)]) i =
    match op, o with
    | .hear j, .heard (.active b) _ => if j = i then some b else heardBy tr i
    | _, _ => heardBy tr i := by
  unfold heardBy
  rw [List.foldl_append, List.foldl_cons, List.foldl_nil]
  split <;> split <;> simp_all

theorem shownBy_snoc (tr : Trace) (op : Op) (o : Out) (j : Nat) : shownBy (tr ++ [(op, o)]) j =
    match op, o with
    | .show i, .shown v => if i = j then some v else shownBy tr j
    | _, _ => shownBy tr j := by
  unfold shownBy
  rw [List.foldl_append, List.foldl_cons, List.foldl_nil]
  split <;> split <;> simp_all

theorem over_snoc (tr : Trace) (op : Op) (o : Out) (j : Nat) : Over (tr ++ [(op, o)]) j ↔
    Over tr j ∨ (op = .show j ∧ o = .over) := by
  unfold Over
  rw [List.mem_append, List.mem_singleton, Prod.mk.injEq]
  simp [eq_comm]

/-! ## Things that are opened and closed -/

/-- Things are numbered; those that were made and not shut are just `cur`. -/
structure One {X : Type} (made : List (Nat × X)) (sh : List Nat) (n : Nat) (c : Option (Nat × X)) : Prop where
  lt : ∀ e ∈ made, e.1 < n
  shut : ∀ i ∈ sh, i < n
  all : ∀ i, i < n → ∃ x, (i, x) ∈ made
  cur : ∀ i x, ((i, x) ∈ made ∧ i ∉ sh) ↔ c = some (i, x)

theorem One.drop {X : Type} {made : List (Nat × X)} {sh : List Nat} {n : Nat} {i : Nat} {x : X}
    (h : One made sh n (some (i, x))) : One made (sh ++ [i]) n none := by
  have hi := (h.cur i x).2 rfl
  refine ⟨h.lt, ?_, h.all, ?_⟩
  · intro j hj
    rcases List.mem_append.1 hj with hj | hj
    · exact h.shut j hj
    · rw [List.mem_singleton.1 hj]
      exact h.lt _ hi.1
  · intro j y
    constructor
    · rintro ⟨h1, h2⟩
      have h3 := (h.cur j y).1 ⟨h1, fun h4 => h2 (List.mem_append_left _ h4)⟩
      injection h3 with h3
      injection h3 with h3
      exact absurd (by simp [h3]) h2
    · intro h
      cases h

theorem One.make {X : Type} {made : List (Nat × X)} {sh : List Nat} {n : Nat} (h : One made sh n none) (x : X) :
    One (made ++ [(n, x)]) sh (n + 1) (some (n, x)) := by
  refine ⟨?_, fun i hi => Nat.lt_succ_of_lt (h.shut i hi), ?_, ?_⟩
  rotate_left
  · intro i hi
    rcases Nat.lt_succ_iff_lt_or_eq.1 hi with hi | hi
    · obtain ⟨y, hy⟩ := h.all i hi
      exact ⟨y, List.mem_append_left _ hy⟩
    · exact ⟨x, by simp [hi]⟩
  rotate_left
  · intro e he
    rcases List.mem_append.1 he with he | he
    · exact Nat.lt_succ_of_lt (h.lt e he)
    · rw [List.mem_singleton.1 he]
      exact Nat.lt_succ_self n
  · intro j y
    constructor
    · rintro ⟨h1, h2⟩
      rcases List.mem_append.1 h1 with h3 | h3
      · have := (h.cur j y).1 ⟨h3, h2⟩
        cases this
      · rw [List.mem_singleton.1 h3]
    · intro h3
      injection h3 with h3
      injection h3 with h5 h6
      rw [← h5, ← h6]
      exact ⟨by simp, fun h4 => Nat.lt_irrefl _ (h.shut n h4)⟩

def madeA (l : List Call) : List (Nat × Nat × Nat) := l.filterMap fun | .announced i c p => some (i, c, p) | _ => none
def shutA (l : List Call) : List Nat := l.filterMap fun | .closeAnnounced i => some i | _ => none
def madeB (l : List Call) : List (Nat × Nat × Nat) := l.filterMap fun | .consume i c p => some (i, c, p) | _ => none
def shutB (l : List Call) : List Nat := l.filterMap fun | .closeBroadcast i => some i | _ => none
def madeC (l : List Call) : List (Nat × Nat) := l.filterMap fun | .subscribe j k => some (j, k) | _ => none
def shutC (l : List Call) : List Nat := l.filterMap fun | .closeTrack j => some j | _ => none

theorem madeA_append (l m : List Call) : madeA (l ++ m) = madeA l ++ madeA m := List.filterMap_append
theorem shutA_append (l m : List Call) : shutA (l ++ m) = shutA l ++ shutA m := List.filterMap_append
theorem madeB_append (l m : List Call) : madeB (l ++ m) = madeB l ++ madeB m := List.filterMap_append
theorem shutB_append (l m : List Call) : shutB (l ++ m) = shutB l ++ shutB m := List.filterMap_append
theorem madeC_append (l m : List Call) : madeC (l ++ m) = madeC l ++ madeC m := List.filterMap_append
theorem shutC_append (l m : List Call) : shutC (l ++ m) = shutC l ++ shutC m := List.filterMap_append

/-- The announcements are those of `d`. -/
def IsA (l : List Call) (s : State) (d : Option (Nat × Nat)) : Prop :=
  ∃ cur, One (madeA l) (shutA l) s.loops.length cur ∧ s.announced = cur.map (·.1) ∧ d = cur.map (·.2)

/-- The broadcast is that of `d`. -/
def IsB (l : List Call) (s : State) (d : Option (Nat × Nat)) : Prop :=
  ∃ cur, One (madeB l) (shutB l) s.broadcasts cur ∧ s.broadcast = cur.map (·.1) ∧ d = cur.map (·.2)

/-- The subscription is that to `d`. -/
def IsC (l : List Call) (s : State) (d : Option Nat) : Prop :=
  ∃ cur, One (madeC l) (shutC l) s.runs.length cur ∧ s.track = cur.map (·.1) ∧ d = cur.map (·.2)

/-! ## Effects -/

/-- The announcements that signals ask for. -/
def wantA (reload : Bool) (x : Sig) : Option (Nat × Nat) :=
  if reload = true ∧ x.enabled = true then x.conn.map fun c => (c, x.path) else none

/-- The broadcast that signals ask for. -/
def wantB (x : Sig) (a : Bool) : Option (Nat × Nat) :=
  if x.enabled = true ∧ a = true then x.conn.map fun c => (c, x.path) else none

/-- The subscription that signals ask for. -/
def wantC (e : Bool) (b : Option Nat) : Option Nat := if e = true then b else none

theorem wantA_same {reload : Bool} {x y : Sig} (h : readsActive reload x y = false) : wantA reload y = wantA reload x := by
  obtain ⟨e, c, p⟩ := x
  obtain ⟨e', c', p'⟩ := y
  cases reload <;> cases e <;> cases e' <;> simp [readsActive] at h <;> simp [wantA]
  obtain ⟨rfl, h⟩ := h
  cases c' <;> simp at h ⊢
  exact h

theorem wantB_same {x y : Sig} {a b : Bool} (h : readsBroadcast x y a b = false) : wantB y b = wantB x a := by
  obtain ⟨e, c, p⟩ := x
  obtain ⟨e', c', p'⟩ := y
  simp only [readsBroadcast, Bool.or_eq_false_iff, bne_eq_false_iff_eq] at h
  obtain ⟨rfl, h⟩ := h
  cases c' with
  | none => simp [wantB]
  | some c =>
    cases e <;> cases e' <;> simp at h <;> simp [wantB]
    obtain ⟨rfl, rfl⟩ := h
    rfl

theorem wantC_same {e f : Bool} {a b : Option Nat} (h : readsCatalog e f a b = false) : wantC f b = wantC e a := by
  cases e <;> cases f <;> simp [readsCatalog] at h <;> simp [wantC]
  exact h

theorem cleanActive_is {l : List Call} {s : State} {d : Option (Nat × Nat)} (h : IsA l s d) :
    IsA (l ++ (cleanActive s).1) (cleanActive s).2 none := by
  obtain ⟨cur, h1, h2, h3⟩ := h
  cases cur with
  | none =>
    have h2 : s.announced = none := h2
    unfold cleanActive
    rw [h2]
    exact ⟨none, by rw [List.append_nil]; exact h1, rfl, rfl⟩
  | some e =>
    obtain ⟨i, x⟩ := e
    have h2 : s.announced = some i := h2
    unfold cleanActive
    rw [h2]
    refine ⟨none, ?_, rfl, rfl⟩
    rw [madeA_append, shutA_append]
    exact (List.append_nil (madeA l)).symm ▸ h1.drop

theorem runActive_is {reload : Bool} {l : List Call} {s : State} (h : IsA l s none) :
    IsA (l ++ (runActive reload s).1) (runActive reload s).2 (wantA reload s.sig) := by
  obtain ⟨cur, h1, h2, h3⟩ := h
  have hc : cur = none := by cases cur with | none => rfl | some e => cases h3
  subst hc
  unfold runActive wantA
  split
  · next he => exact ⟨none, by rw [List.append_nil]; exact h1, h2, by simp [he]⟩
  · next he =>
    split
    · next hr => exact ⟨none, by rw [List.append_nil]; exact h1, h2, by simp [hr]⟩
    · next hr =>
      split
      · next hn => exact ⟨none, by rw [List.append_nil]; exact h1, h2, by simp [hn]⟩
      · next c hn =>
        refine ⟨some (s.loops.length, c, s.sig.path), ?_, rfl, by simp [hn, he, hr]⟩
        rw [madeA_append, shutA_append, List.length_append]
        exact (List.append_nil (shutA l)).symm ▸ h1.make (c, s.sig.path)

theorem cleanBroadcast_is {l : List Call} {s : State} {d : Option (Nat × Nat)} (h : IsB l s d) :
    IsB (l ++ (cleanBroadcast s).1) (cleanBroadcast s).2 none := by
  obtain ⟨cur, h1, h2, h3⟩ := h
  cases cur with
  | none =>
    have h2 : s.broadcast = none := h2
    unfold cleanBroadcast
    rw [h2]
    exact ⟨none, by rw [List.append_nil]; exact h1, h2, rfl⟩
  | some e =>
    obtain ⟨i, x⟩ := e
    have h2 : s.broadcast = some i := h2
    unfold cleanBroadcast
    rw [h2]
    refine ⟨none, ?_, rfl, rfl⟩
    rw [madeB_append, shutB_append]
    exact (List.append_nil (madeB l)).symm ▸ h1.drop

theorem runBroadcast_is {l : List Call} {s : State} (h : IsB l s none) :
    IsB (l ++ (runBroadcast s).1) (runBroadcast s).2 (wantB s.sig s.active) := by
  obtain ⟨cur, h1, h2, h3⟩ := h
  have hc : cur = none := by cases cur with | none => rfl | some e => cases h3
  subst hc
  unfold runBroadcast wantB
  split
  · next hn => exact ⟨none, by rw [List.append_nil]; exact h1, h2, by simp [hn]⟩
  · next c hn =>
    split
    · next he =>
      refine ⟨some (s.broadcasts, c, s.sig.path), ?_, rfl, by simp [hn]⟩
      rw [madeB_append, shutB_append]
      exact (List.append_nil (shutB l)).symm ▸ h1.make (c, s.sig.path)
    · next he => exact ⟨none, by rw [List.append_nil]; exact h1, h2, rfl⟩

theorem cleanCatalog_is {l : List Call} {s : State} {d : Option Nat} (h : IsC l s d) :
    IsC (l ++ (cleanCatalog s).1) (cleanCatalog s).2 none := by
  obtain ⟨cur, h1, h2, h3⟩ := h
  cases cur with
  | none =>
    have h2 : s.track = none := h2
    unfold cleanCatalog
    rw [h2]
    exact ⟨none, by rw [List.append_nil]; exact h1, h2, rfl⟩
  | some e =>
    obtain ⟨i, x⟩ := e
    have h2 : s.track = some i := h2
    unfold cleanCatalog
    rw [h2]
    refine ⟨none, ?_, rfl, rfl⟩
    rw [madeC_append, shutC_append]
    exact (List.append_nil (madeC l)).symm ▸ h1.drop

theorem runCatalog_is {l : List Call} {s : State} (h : IsC l s none) :
    IsC (l ++ (runCatalog s).1) (runCatalog s).2 (wantC s.sig.enabled s.broadcast) := by
  obtain ⟨cur, h1, h2, h3⟩ := h
  have hc : cur = none := by cases cur with | none => rfl | some e => cases h3
  subst hc
  unfold runCatalog wantC
  split
  · next he => exact ⟨none, by rw [List.append_nil]; exact h1, h2, by simp [he]⟩
  · next he =>
    split
    · next hn => exact ⟨none, by rw [List.append_nil]; exact h1, h2, by simp [hn]⟩
    · next k hn =>
      refine ⟨some (s.runs.length, k), ?_, rfl, by simp [hn, he]⟩
      rw [madeC_append, shutC_append, List.length_append]
      exact (List.append_nil (shutC l)).symm ▸ h1.make k

/-- What an effect leaves alone. -/
structure KeepA (cs : List Call) (s s' : State) : Prop where
  sig : s'.sig = s.sig
  closed : s'.closed = s.closed
  catalog : s'.catalog = s.catalog
  status : s'.status = s.status
  broadcast : s'.broadcast = s.broadcast
  broadcasts : s'.broadcasts = s.broadcasts
  track : s'.track = s.track
  runs : s'.runs = s.runs
  madeB : madeB cs = []
  shutB : shutB cs = []
  madeC : madeC cs = []
  shutC : shutC cs = []

structure KeepB (cs : List Call) (s s' : State) : Prop where
  sig : s'.sig = s.sig
  closed : s'.closed = s.closed
  active : s'.active = s.active
  switched : s'.switched = s.switched
  catalog : s'.catalog = s.catalog
  status : s'.status = s.status
  announced : s'.announced = s.announced
  loops : s'.loops = s.loops
  track : s'.track = s.track
  runs : s'.runs = s.runs
  madeA : madeA cs = []
  shutA : shutA cs = []
  madeC : madeC cs = []
  shutC : shutC cs = []

structure KeepC (cs : List Call) (s s' : State) : Prop where
  sig : s'.sig = s.sig
  closed : s'.closed = s.closed
  active : s'.active = s.active
  switched : s'.switched = s.switched
  catalog : s'.catalog = s.catalog
  announced : s'.announced = s.announced
  loops : s'.loops = s.loops
  broadcast : s'.broadcast = s.broadcast
  broadcasts : s'.broadcasts = s.broadcasts
  madeA : madeA cs = []
  shutA : shutA cs = []
  madeB : madeB cs = []
  shutB : shutB cs = []

theorem KeepA.refl (s : State) : KeepA [] s s := ⟨rfl, rfl, rfl, rfl, rfl, rfl, rfl, rfl, rfl, rfl, rfl, rfl⟩
theorem KeepB.refl (s : State) : KeepB [] s s := ⟨rfl, rfl, rfl, rfl, rfl, rfl, rfl, rfl, rfl, rfl, rfl, rfl, rfl, rfl⟩
theorem KeepC.refl (s : State) : KeepC [] s s := ⟨rfl, rfl, rfl, rfl, rfl, rfl, rfl, rfl, rfl, rfl, rfl, rfl, rfl⟩

theorem cleanActive_keep (s : State) : KeepA (cleanActive s).1 s (cleanActive s).2 := by
  unfold cleanActive
  dsimp only
  split <;> exact ⟨rfl, rfl, rfl, rfl, rfl, rfl, rfl, rfl, rfl, rfl, rfl, rfl⟩

theorem runActive_keep (reload : Bool) (s : State) : KeepA (runActive reload s).1 s (runActive reload s).2 := by
  unfold runActive
  split
  · exact .refl s
  · split
    · exact ⟨rfl, rfl, rfl, rfl, rfl, rfl, rfl, rfl, rfl, rfl, rfl, rfl⟩
    · split
      · exact .refl s
      · exact ⟨rfl, rfl, rfl, rfl, rfl, rfl, rfl, rfl, rfl, rfl, rfl, rfl⟩

theorem cleanBroadcast_keep (s : State) : KeepB (cleanBroadcast s).1 s (cleanBroadcast s).2 := by
  unfold cleanBroadcast
  split
  · exact ⟨rfl, rfl, rfl, rfl, rfl, rfl, rfl, rfl, rfl, rfl, rfl, rfl, rfl, rfl⟩
  · exact .refl s

theorem runBroadcast_keep (s : State) : KeepB (runBroadcast s).1 s (runBroadcast s).2 := by
  unfold runBroadcast
  split
  · exact .refl s
  · split
    · exact ⟨rfl, rfl, rfl, rfl, rfl, rfl, rfl, rfl, rfl, rfl, rfl, rfl, rfl, rfl⟩
    · exact .refl s

theorem cleanCatalog_keep (s : State) : KeepC (cleanCatalog s).1 s (cleanCatalog s).2 := by
  unfold cleanCatalog
  split
  · exact ⟨rfl, rfl, rfl, rfl, rfl, rfl, rfl, rfl, rfl, rfl, rfl, rfl, rfl⟩
  · exact .refl s

theorem runCatalog_keep (s : State) : KeepC (runCatalog s).1 s (runCatalog s).2 := by
  unfold runCatalog
  split
  · exact .refl s
  · split
    · exact .refl s
    · exact ⟨rfl, rfl, rfl, rfl, rfl, rfl, rfl, rfl, rfl, rfl, rfl, rfl, rfl⟩

theorem KeepA.trans {c d : List Call} {s t u : State} (h : KeepA c s t) (k : KeepA d t u) : KeepA (c ++ d) s u :=
  ⟨k.sig.trans h.sig, k.closed.trans h.closed, k.catalog.trans h.catalog, k.status.trans h.status,
    k.broadcast.trans h.broadcast, k.broadcasts.trans h.broadcasts, k.track.trans h.track, k.runs.trans h.runs,
    by rw [madeB_append, h.madeB, k.madeB]; rfl, by rw [shutB_append, h.shutB, k.shutB]; rfl,
    by rw [madeC_append, h.madeC, k.madeC]; rfl, by rw [shutC_append, h.shutC, k.shutC]; rfl⟩

theorem KeepB.trans {c d : List Call} {s t u : State} (h : KeepB c s t) (k : KeepB d t u) : KeepB (c ++ d) s u :=
  ⟨k.sig.trans h.sig, k.closed.trans h.closed, k.active.trans h.active, k.switched.trans h.switched,
    k.catalog.trans h.catalog, k.status.trans h.status, k.announced.trans h.announced, k.loops.trans h.loops,
    k.track.trans h.track, k.runs.trans h.runs,
    by rw [madeA_append, h.madeA, k.madeA]; rfl, by rw [shutA_append, h.shutA, k.shutA]; rfl,
    by rw [madeC_append, h.madeC, k.madeC]; rfl, by rw [shutC_append, h.shutC, k.shutC]; rfl⟩

theorem KeepC.trans {c d : List Call} {s t u : State} (h : KeepC c s t) (k : KeepC d t u) : KeepC (c ++ d) s u :=
  ⟨k.sig.trans h.sig, k.closed.trans h.closed, k.active.trans h.active, k.switched.trans h.switched,
    k.catalog.trans h.catalog, k.announced.trans h.announced, k.loops.trans h.loops,
    k.broadcast.trans h.broadcast, k.broadcasts.trans h.broadcasts,
    by rw [madeA_append, h.madeA, k.madeA]; rfl, by rw [shutA_append, h.shutA, k.shutA]; rfl,
    by rw [madeB_append, h.madeB, k.madeB]; rfl, by rw [shutB_append, h.shutB, k.shutB]; rfl⟩

theorem KeepB.isA {c l : List Call} {s t : State} {d : Option (Nat × Nat)} (k : KeepB c s t) (h : IsA l s d) :
    IsA (l ++ c) t d := by
  unfold IsA at h ⊢
  rw [madeA_append, shutA_append, k.madeA, k.shutA, List.append_nil, List.append_nil, k.loops, k.announced]
  exact h

theorem KeepC.isA {c l : List Call} {s t : State} {d : Option (Nat × Nat)} (k : KeepC c s t) (h : IsA l s d) :
    IsA (l ++ c) t d := by
  unfold IsA at h ⊢
  rw [madeA_append, shutA_append, k.madeA, k.shutA, List.append_nil, List.append_nil, k.loops, k.announced]
  exact h

theorem KeepA.isB {c l : List Call} {s t : State} {d : Option (Nat × Nat)} (k : KeepA c s t) (h : IsB l s d) :
    IsB (l ++ c) t d := by
  unfold IsB at h ⊢
  rw [madeB_append, shutB_append, k.madeB, k.shutB, List.append_nil, List.append_nil, k.broadcasts, k.broadcast]
  exact h

theorem KeepC.isB {c l : List Call} {s t : State} {d : Option (Nat × Nat)} (k : KeepC c s t) (h : IsB l s d) :
    IsB (l ++ c) t d := by
  unfold IsB at h ⊢
  rw [madeB_append, shutB_append, k.madeB, k.shutB, List.append_nil, List.append_nil, k.broadcasts, k.broadcast]
  exact h

theorem KeepA.isC {c l : List Call} {s t : State} {d : Option Nat} (k : KeepA c s t) (h : IsC l s d) :
    IsC (l ++ c) t d := by
  unfold IsC at h ⊢
  rw [madeC_append, shutC_append, k.madeC, k.shutC, List.append_nil, List.append_nil, k.runs, k.track]
  exact h

theorem KeepB.isC {c l : List Call} {s t : State} {d : Option Nat} (k : KeepB c s t) (h : IsC l s d) :
    IsC (l ++ c) t d := by
  unfold IsC at h ⊢
  rw [madeC_append, shutC_append, k.madeC, k.shutC, List.append_nil, List.append_nil, k.runs, k.track]
  exact h

/-- The first effect. -/
def effA (reload : Bool) (old : Sig) (s : State) : List Call × State :=
  rerun (readsActive reload old s.sig) cleanActive (runActive reload) s

/-- The second effect. -/
def effB (old : Sig) (a : Bool) (s : State) : List Call × State :=
  rerun (readsBroadcast old s.sig a s.active) cleanBroadcast runBroadcast s

/-- The third effect. -/
def effC (e : Bool) (b : Option Nat) (s : State) : List Call × State :=
  rerun (readsCatalog e s.sig.enabled b s.broadcast) cleanCatalog runCatalog s

theorem effA_keep (reload : Bool) (old : Sig) (s : State) : KeepA (effA reload old s).1 s (effA reload old s).2 := by
  unfold effA rerun
  split
  · exact (cleanActive_keep s).trans (runActive_keep reload _)
  · exact .refl s

theorem effB_keep (old : Sig) (a : Bool) (s : State) : KeepB (effB old a s).1 s (effB old a s).2 := by
  unfold effB rerun
  split
  · exact (cleanBroadcast_keep s).trans (runBroadcast_keep _)
  · exact .refl s

theorem effC_keep (e : Bool) (b : Option Nat) (s : State) : KeepC (effC e b s).1 s (effC e b s).2 := by
  unfold effC rerun
  split
  · exact (cleanCatalog_keep s).trans (runCatalog_keep _)
  · exact .refl s

theorem effA_is {reload : Bool} {old : Sig} {l : List Call} {s : State} (h : IsA l s (wantA reload old)) :
    IsA (l ++ (effA reload old s).1) (effA reload old s).2 (wantA reload s.sig) := by
  unfold effA rerun
  split
  · have := runActive_is (reload := reload) (cleanActive_is h)
    rw [List.append_assoc, (cleanActive_keep s).sig] at this
    exact this
  · next hb =>
    rw [List.append_nil, wantA_same (Bool.eq_false_iff.2 hb)]
    exact h

theorem effB_is {old : Sig} {a : Bool} {l : List Call} {s : State} (h : IsB l s (wantB old a)) :
    IsB (l ++ (effB old a s).1) (effB old a s).2 (wantB s.sig s.active) := by
  unfold effB rerun
  split
  · have := runBroadcast_is (cleanBroadcast_is h)
    rw [List.append_assoc, (cleanBroadcast_keep s).sig, (cleanBroadcast_keep s).active] at this
    exact this
  · next hb =>
    rw [List.append_nil, wantB_same (Bool.eq_false_iff.2 hb)]
    exact h

theorem effC_is {e : Bool} {b : Option Nat} {l : List Call} {s : State} (h : IsC l s (wantC e b)) :
    IsC (l ++ (effC e b s).1) (effC e b s).2 (wantC s.sig.enabled s.broadcast) := by
  unfold effC rerun
  split
  · have := runCatalog_is (cleanCatalog_is h)
    rw [List.append_assoc, (cleanCatalog_keep s).sig, (cleanCatalog_keep s).broadcast] at this
    exact this
  · next hb =>
    rw [List.append_nil, wantC_same (Bool.eq_false_iff.2 hb)]
    exact h

theorem settle_eq (reload : Bool) (old s : State) : settle reload old s =
    let a := effA reload old.sig s
    let b := effB old.sig old.active a.2
    let c := effC old.sig.enabled old.broadcast b.2
    (a.1 ++ b.1 ++ c.1, c.2) := rfl

/-! ## The things that are open -/

/-- The open things are those that the signals ask for. -/
structure Things (reload : Bool) (l : List Call) (s : State) : Prop where
  a : IsA l s (if s.closed = true then none else wantA reload s.sig)
  b : IsB l s (if s.closed = true then none else wantB s.sig s.active)
  c : IsC l s s.broadcast
  /-- without a signal that says so there is no broadcast -/
  e : s.broadcast ≠ none → s.sig.enabled = true
  /-- without reloading -/
  sw : s.switched = (!reload && s.sig.enabled && !s.closed)
  act : reload = false → s.active = s.switched

theorem wantC_self {reload : Bool} {l : List Call} {s : State} (t : Things reload l s) :
    wantC s.sig.enabled s.broadcast = s.broadcast := by
  unfold wantC
  split
  · rfl
  · next h =>
    cases hb : s.broadcast with
    | none => rfl
    | some k => exact absurd (t.e (by rw [hb]; simp)) h

theorem effA_sw {reload : Bool} {old : Sig} {s : State} (h : s.switched = (!reload && old.enabled)) :
    (effA reload old s).2.switched = (!reload && s.sig.enabled) ∧
    (reload = true → (effA reload old s).2.active = s.active) ∧
    (reload = false → s.active = s.switched → (effA reload old s).2.active = (effA reload old s).2.switched) := by
  obtain ⟨⟨e, c, p⟩, act, cat, st, sw, ann, br, tr, lo, ru, bs, cl⟩ := s
  obtain ⟨e', c', p'⟩ := old
  dsimp only at h
  subst h
  unfold effA rerun readsActive
  cases reload <;> cases e <;> cases e' <;> cases ann <;> cases c <;> simp [cleanActive, runActive] <;>
    (split <;> simp)

theorem settle_things {reload : Bool} {l : List Call} {old s : State} (t : Things reload l old)
    (hc : old.closed = false) (hs : { s with sig := old.sig, active := old.active, loops := old.loops } = old)
    (hl : s.loops.length = old.loops.length)
    (hact : reload = false → s.active = old.active) :
    Things reload (l ++ (settle reload old s).1) (settle reload old s).2 := by
  have e1 : s.closed = old.closed := (congrArg State.closed hs :)
  have e2 : s.switched = old.switched := (congrArg State.switched hs :)
  have e3 : s.announced = old.announced := (congrArg State.announced hs :)
  have e4 : s.broadcast = old.broadcast := (congrArg State.broadcast hs :)
  have e5 : s.track = old.track := (congrArg State.track hs :)
  have e6 : s.runs = old.runs := (congrArg State.runs hs :)
  have e7 : s.broadcasts = old.broadcasts := (congrArg State.broadcasts hs :)
  have ha : IsA l s (wantA reload old.sig) := by
    have := t.a
    rw [if_neg (by rw [hc]; simp)] at this
    unfold IsA at this ⊢
    rw [hl, e3]
    exact this
  have hb : IsB l s (wantB old.sig old.active) := by
    have := t.b
    rw [if_neg (by rw [hc]; simp)] at this
    unfold IsB at this ⊢
    rw [e4, e7]
    exact this
  have hcc : IsC l s (wantC old.sig.enabled old.broadcast) := by
    have := t.c
    rw [wantC_self t]
    unfold IsC at this ⊢
    rw [e5, e6]
    exact this
  rw [settle_eq]
  dsimp only
  have ka := effA_keep reload old.sig s
  have kb := effB_keep old.sig old.active (effA reload old.sig s).2
  have kc := effC_keep old.sig.enabled old.broadcast (effB old.sig old.active (effA reload old.sig s).2).2
  have hsw := effA_sw (reload := reload) (old := old.sig) (s := s) (by rw [e2, t.sw, hc]; simp)
  have a1 := effA_is ha
  have a2 := kb.isA a1
  have a3 := kc.isA a2
  have b1 := ka.isB hb
  have b2 := effB_is b1
  have b3 := kc.isB b2
  have c1 := ka.isC hcc
  have c2 := kb.isC c1
  have c3 := effC_is c2
  have hcl : (effC old.sig.enabled old.broadcast (effB old.sig old.active (effA reload old.sig s).2).2).2.closed = false := by
    rw [kc.closed, kb.closed, ka.closed, e1, hc]
  have he : ∀ k, (effB old.sig old.active (effA reload old.sig s).2).2.broadcast = some k →
      (effB old.sig old.active (effA reload old.sig s).2).2.sig.enabled = true := by
    intro k hk
    obtain ⟨cur, -, h2, h3⟩ := b2
    rw [hk] at h2
    cases cur with
    | none => cases h2
    | some e =>
      rw [kb.sig]
      unfold wantB at h3
      split at h3
      · next hh => exact hh.1
      · cases h3
  rw [← List.append_assoc, ← List.append_assoc]
  refine ⟨?_, ?_, ?_, ?_, ?_, ?_⟩
  · rw [if_neg (by rw [hcl]; simp), kc.sig, kb.sig, ka.sig]
    exact a3
  · rw [if_neg (by rw [hcl]; simp), kc.sig, kc.active, kb.sig, kb.active]
    exact b3
  · rw [kc.broadcast]
    unfold wantC at c3
    split at c3
    · exact c3
    · next hh =>
      cases hk : (effB old.sig old.active (effA reload old.sig s).2).2.broadcast with
      | none => exact c3
      | some k => exact absurd (he k hk) hh
  · rw [kc.broadcast, kc.sig]
    intro hne
    cases hk : (effB old.sig old.active (effA reload old.sig s).2).2.broadcast with
    | none => exact absurd hk hne
    | some k => exact he k hk
  · rw [kc.switched, kb.switched, hsw.1, hcl, kc.sig, kb.sig, ka.sig]
    simp
  · intro hr
    rw [kc.switched, kb.switched, kc.active, kb.active]
    exact hsw.2.2 hr (by rw [hact hr, t.act hr, e2])

theorem Things.frame {reload : Bool} {l : List Call} {s s' : State} (t : Things reload l s)
    (h : { s' with catalog := s.catalog, status := s.status, loops := s.loops, runs := s.runs } = s)
    (h1 : s'.loops.length = s.loops.length) (h2 : s'.runs.length = s.runs.length) : Things reload l s' := by
  have e0 : s'.sig = s.sig := (congrArg State.sig h :)
  have e1 : s'.closed = s.closed := (congrArg State.closed h :)
  have e2 : s'.switched = s.switched := (congrArg State.switched h :)
  have e3 : s'.announced = s.announced := (congrArg State.announced h :)
  have e4 : s'.broadcast = s.broadcast := (congrArg State.broadcast h :)
  have e5 : s'.track = s.track := (congrArg State.track h :)
  have e6 : s'.active = s.active := (congrArg State.active h :)
  have e7 : s'.broadcasts = s.broadcasts := (congrArg State.broadcasts h :)
  refine ⟨?_, ?_, ?_, ?_, ?_, ?_⟩
  · unfold IsA
    rw [h1, e3, e1, e0]
    exact t.a
  · unfold IsB
    rw [e7, e4, e1, e0, e6]
    exact t.b
  · unfold IsC
    rw [h2, e5, e4]
    exact t.c
  · rw [e4, e0]
    exact t.e
  · rw [e2, e0, e1]
    exact t.sw
  · rw [e6, e2]
    exact t.act

theorem close_things {reload : Bool} {l : List Call} {s : State} (t : Things reload l s) (hc : s.closed = false) :
    let a := cleanCatalog s
    let b := cleanBroadcast a.2
    let c := cleanActive b.2
    Things reload (l ++ (a.1 ++ b.1 ++ c.1)) { c.2 with closed := true } := by
  have kc := cleanCatalog_keep s
  have kb := cleanBroadcast_keep (cleanCatalog s).2
  have ka := cleanActive_keep (cleanBroadcast (cleanCatalog s).2).2
  dsimp only
  have a1 := cleanActive_is (kb.isA (kc.isA t.a))
  have b1 := ka.isB (cleanBroadcast_is (kc.isB t.b))
  have c1 := ka.isC (kb.isC (cleanCatalog_is t.c))
  have hb : (cleanActive (cleanBroadcast (cleanCatalog s).2).2).2.broadcast = none := by
    obtain ⟨cur, -, h2, h3⟩ := b1
    cases cur with
    | none => exact h2
    | some e => cases h3
  rw [← List.append_assoc, ← List.append_assoc]
  refine ⟨a1, b1, ?_, fun h => absurd hb h, ?_, ?_⟩
  · rw [hb]
    exact c1
  · simp [cleanActive]
    split <;> rfl
  · intro hr
    have hsw : (cleanBroadcast (cleanCatalog s).2).2.switched = s.switched := kb.switched.trans kc.switched
    have hac : (cleanBroadcast (cleanCatalog s).2).2.active = s.active := kb.active.trans kc.active
    have := t.act hr
    unfold cleanActive
    dsimp only
    rw [hsw, hac, this]
    cases s.switched <;> split <;> rfl

/-! ## What effects do to loops -/

/-- What effects do to the loops and runs: perhaps a new one is started. -/
structure StartsC (s s' : State) : Prop where
  catalog : s'.catalog = s.catalog
  runs : (s'.runs = s.runs ∧ s'.status = s.status ∧ (s'.track = s.track ∨ s'.track = none)) ∨
    (s'.runs = s.runs ++ [.waiting] ∧ s'.status = .loading ∧ s'.track = some s.runs.length)

def StartsA (s s' : State) : Prop :=
  (s'.loops.length = s.loops.length ∧ (s'.announced = s.announced ∨ s'.announced = none)) ∨
    (s'.loops.length = s.loops.length + 1 ∧ s'.announced = some s.loops.length)

structure Starts (s s' : State) : Prop where
  c : StartsC s s'
  a : StartsA s s'

theorem Starts.refl (s : State) : Starts s s := ⟨⟨rfl, .inl ⟨rfl, rfl, .inl rfl⟩⟩, .inl ⟨rfl, .inl rfl⟩⟩

theorem effA_loops (reload : Bool) (old : Sig) (s : State) :
    ((effA reload old s).2.loops = s.loops ∧
      ((effA reload old s).2.announced = s.announced ∨ (effA reload old s).2.announced = none)) ∨
    ((effA reload old s).2.loops = s.loops ++ [.waiting] ∧ (effA reload old s).2.announced = some s.loops.length) := by
  have hc : (cleanActive s).2.loops = s.loops ∧ (cleanActive s).2.announced = none := by
    unfold cleanActive
    dsimp only
    split <;> exact ⟨rfl, rfl⟩
  unfold effA rerun
  split
  · dsimp only
    unfold runActive
    split
    · exact .inl ⟨hc.1, .inr hc.2⟩
    · split
      · exact .inl ⟨hc.1, .inr hc.2⟩
      · split
        · exact .inl ⟨hc.1, .inr hc.2⟩
        · exact .inr ⟨by rw [hc.1], by rw [hc.1]⟩
  · exact .inl ⟨rfl, .inl rfl⟩

theorem effC_runs (e : Bool) (b : Option Nat) (s : State) :
    ((effC e b s).2.runs = s.runs ∧ (effC e b s).2.status = s.status ∧
      ((effC e b s).2.track = s.track ∨ (effC e b s).2.track = none)) ∨
    ((effC e b s).2.runs = s.runs ++ [.waiting] ∧ (effC e b s).2.status = .loading ∧
      (effC e b s).2.track = some s.runs.length) := by
  have hc : (cleanCatalog s).2.runs = s.runs ∧ (cleanCatalog s).2.status = s.status ∧ (cleanCatalog s).2.track = none := by
    unfold cleanCatalog
    split
    · exact ⟨rfl, rfl, rfl⟩
    · next h => exact ⟨rfl, rfl, h⟩
  unfold effC rerun
  split
  · dsimp only
    unfold runCatalog
    split
    · exact .inl ⟨hc.1, hc.2.1, .inr hc.2.2⟩
    · split
      · exact .inl ⟨hc.1, hc.2.1, .inr hc.2.2⟩
      · exact .inr ⟨by rw [hc.1], rfl, by rw [hc.1]⟩
  · exact .inl ⟨rfl, rfl, .inl rfl⟩

theorem settle_starts (reload : Bool) (old s : State) : Starts s (settle reload old s).2 := by
  rw [settle_eq]
  dsimp only
  have ka := effA_keep reload old.sig s
  have kb := effB_keep old.sig old.active (effA reload old.sig s).2
  have kc := effC_keep old.sig.enabled old.broadcast (effB old.sig old.active (effA reload old.sig s).2).2
  have h1 := effA_loops reload old.sig s
  have h2 := effC_runs old.sig.enabled old.broadcast (effB old.sig old.active (effA reload old.sig s).2).2
  rw [kb.runs, ka.runs, kb.status, ka.status, kb.track, ka.track] at h2
  refine ⟨⟨by rw [kc.catalog, kb.catalog, ka.catalog], h2⟩, ?_⟩
  unfold StartsA
  rw [kc.loops, kb.loops, kc.announced, kb.announced]
  rcases h1 with h1 | h1
  · exact .inl ⟨by rw [h1.1], h1.2⟩
  · exact .inr ⟨by rw [h1.1]; simp, h1.2⟩

theorem effects_starts (reload : Bool) (old s : State) : Starts s (effects reload old s).2 := by
  unfold effects
  split
  · exact .refl s
  · exact settle_starts reload old s

theorem settle_active {old s : State} (h : s.switched = false) : (settle true old s).2.active = s.active := by
  rw [settle_eq]
  dsimp only
  rw [(effC_keep _ _ _).active, (effB_keep _ _ _).active]
  unfold effA rerun
  split
  · have hc : (cleanActive s).2.active = s.active := by
      unfold cleanActive
      dsimp only
      rw [h]
      split <;> rfl
    dsimp only
    unfold runActive
    split
    · exact hc
    · split
      · next h => cases h
      · split <;> exact hc
  · rfl

theorem effects_active {old s : State} (h : s.switched = false) : (effects true old s).2.active = s.active := by
  unfold effects
  split
  · rfl
  · exact settle_active h

theorem settle_keep (reload : Bool) (old s : State) : (settle reload old s).2.sig = s.sig ∧
    (settle reload old s).2.closed = s.closed := by
  rw [settle_eq]
  dsimp only
  constructor
  · rw [(effC_keep _ _ _).sig, (effB_keep _ _ _).sig, (effA_keep _ _ _).sig]
  · rw [(effC_keep _ _ _).closed, (effB_keep _ _ _).closed, (effA_keep _ _ _).closed]

theorem effects_keep (reload : Bool) (old s : State) : (effects reload old s).2.sig = s.sig ∧
    (effects reload old s).2.closed = s.closed := by
  unfold effects
  split
  · exact ⟨rfl, rfl⟩
  · exact settle_keep reload old s

theorem close_starts (s : State) : Starts s { (cleanActive (cleanBroadcast (cleanCatalog s).2).2).2 with closed := true } := by
  have kc := cleanCatalog_keep s
  have kb := cleanBroadcast_keep (cleanCatalog s).2
  have ka := cleanActive_keep (cleanBroadcast (cleanCatalog s).2).2
  have h1 : (cleanCatalog s).2.runs = s.runs ∧ (cleanCatalog s).2.status = s.status ∧ (cleanCatalog s).2.track = none := by
    unfold cleanCatalog
    split
    · exact ⟨rfl, rfl, rfl⟩
    · next h => exact ⟨rfl, rfl, h⟩
  have h2 : ∀ t : State, (cleanActive t).2.loops = t.loops ∧ (cleanActive t).2.announced = none := by
    intro t
    unfold cleanActive
    dsimp only
    split <;> exact ⟨rfl, rfl⟩
  refine ⟨⟨?_, .inl ⟨?_, ?_, .inr ?_⟩⟩, .inl ⟨congrArg List.length ?_, .inr ?_⟩⟩
  · exact ka.catalog.trans (kb.catalog.trans kc.catalog)
  · exact ka.runs.trans (kb.runs.trans h1.1)
  · exact ka.status.trans (kb.status.trans h1.2.1)
  · exact ka.track.trans (kb.track.trans h1.2.2)
  · exact (h2 _).1.trans (kb.loops.trans kc.loops)
  · exact (h2 _).2

end Verif.Js.Watching
