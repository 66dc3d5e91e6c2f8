import Verif.Js.Track

/-!
# Invariant of tracks in the browser
-/

set_option autoImplicit false

namespace Verif.Js.Track

open Verif

open Verif.Js.Group (Status Settled)

/-! ## Histories -/

/-- The group an entry adds. -/
def taken : Op × Out → Option Nat
  | (.append, .group g) => some g
  | (.insert g _ _, .ok) => some g
  | _ => none

theorem accepted_snoc (tr : Trace) (e : Op × Out) :
    accepted (tr ++ [e]) = accepted tr ++ (taken e).toList := by
  have : accepted tr = tr.filterMap taken := by
    unfold accepted
    congr 1
  have h2 : accepted (tr ++ [e]) = (tr ++ [e]).filterMap taken := by
    unfold accepted
    congr 1
  rw [this, h2, List.filterMap_append]
  cases h : taken e <;> simp [h]

theorem seen_snoc (tr : Trace) (e : Op × Out) (c : Nat) :
    seen (tr ++ [e]) c = seen tr c ++ (arrival c e).toList := by
  unfold seen
  rw [List.filterMap_append]
  cases h : arrival c e <;> simp [h]

theorem delivered_snoc (tr : Trace) (e : Op × Out) (c : Nat) :
    delivered (tr ++ [e]) c = delivered tr c ++ (delivery c e).toList := by
  unfold delivered
  rw [List.filterMap_append]
  cases h : delivery c e <;> simp [h]

theorem ending_snoc (tr : Trace) (op : Op) (o : Out) : ending (tr ++ [(op, o)]) =
    (ending tr).or (if op = .close ∨ op = .abort then some op else none) := by
  unfold ending
  rw [List.map_append, List.find?_append]
  congr 1
  by_cases h : op = .close ∨ op = .abort <;> simp [h]

/-- The frames an entry adds to a group. -/
def addition (id : Nat) : Op × Out → List Bytes
  | (.insert g fs _, .ok) => if g = id then fs else []
  | (.write g b, .ok) => if g = id then [b] else []
  | _ => []

theorem content_snoc (tr : Trace) (e : Op × Out) (id : Nat) :
    content (tr ++ [e]) id = content tr id ++ addition id e := by
  have h : ∀ tr : Trace, content tr id = tr.flatMap (addition id) := fun tr => by
    unfold content
    congr 1
  rw [h, h, List.flatMap_append]
  simp

theorem closed_snoc (tr : Trace) (op : Op) (o : Out) (c : Nat) : Closed (tr ++ [(op, o)]) c ↔
    Closed tr c ∨ (op = .closeSub c ∧ o = .ok) := by
  unfold Closed
  rw [List.mem_append, List.mem_singleton, Prod.mk.injEq]
  exact or_congr_right ⟨fun h => ⟨h.1.symm, h.2.symm⟩, fun h => ⟨h.1.symm, h.2.symm⟩⟩

theorem GroupEnded.mono {tr : Trace} {id : Nat} (h : GroupEnded tr id) (e : Op × Out) :
    GroupEnded (tr ++ [e]) id := by
  rcases h with h | h | ⟨fs, st, h1, h2⟩
  · exact .inl (List.mem_append_left _ h)
  · exact .inr (.inl (List.mem_append_left _ h))
  · exact .inr (.inr ⟨fs, st, h1, List.mem_append_left _ h2⟩)

/-- How a status is told from the history. -/
def endOp : Status → Option Op
  | .live => none
  | .closed => some .close
  | .aborted => some .abort

/-! ## Invariant -/

def ids (s : State) : List Nat := s.groups.map (·.id)

structure GInv (tr : Trace) (s : State) : Prop where
  ids : ids s = accepted tr
  sorted : (accepted tr).Pairwise (· < ·)
  below : ∀ x ∈ accepted tr, x < s.next
  latest : s.latest = if s.status = .live then (accepted tr).getLast? else none
  status : ending tr = endOp s.status
  content : ∀ g ∈ s.groups, g.frames = content tr g.id
  nothing : ∀ id, id ∉ accepted tr → Track.content tr id = []
  ended : ∀ g ∈ s.groups, g.status ≠ .live → GroupEnded tr g.id

/-- What a fetch stands for, for a consumer that was given the groups `sn`. -/
def FetchOk (s : State) (sn : List Nat) (u : Sub) : Prop :=
  match u.fetch with
  | .waiting => u.epoch = s.epoch + 1 ∧ s.status = .live
  | .ready (.value (some g)) => g ∈ ids s ∧ ∀ x ∈ sn, x < g
  | .ready (.value none) => s.status ≠ .live
  | .ready .undefined => u.closed = true ∨ s.status = .closed
  | .ready .rejected => s.status = .aborted
  | .done (.value g) => (g ∈ ids s ∧ ∀ x ∈ sn, x < g) ∧
      (u.epoch ≤ s.epoch → ∀ l, s.latest = some l → g < l)
  | .done .undefined => u.closed = true ∨ s.status = .closed
  | .done .rejected => s.status = .aborted

/-- Group first, then index. -/
def Before (d e : Nat × Nat × Bytes) : Prop := d.1 < e.1 ∨ (d.1 = e.1 ∧ d.2.1 < e.2.1)

/-- The frames delivered to a consumer that is at `frame` of `current`. -/
structure DInv (s : State) (sn : List Nat) (dl : List (Nat × Nat × Bytes)) (u : Sub) : Prop where
  seen : ∀ d ∈ dl, d.1 ∈ sn
  order : dl.Pairwise Before
  data : ∀ d ∈ dl, ∃ g ∈ s.groups, g.id = d.1 ∧ g.frames[d.2.1]? = some d.2.2
  whole : ∀ d ∈ dl, ∀ j < d.2.1, ∃ b, (d.1, j, b) ∈ dl
  before : ∀ g, u.current = some g → ∀ d ∈ dl, d.1 = g → d.2.1 < u.frame
  full : ∀ g, u.current = some g → ∀ k < u.frame, ∃ b, (g, k, b) ∈ dl

structure SInv (s : State) (sn : List Nat) (dl : List (Nat × Nat × Bytes)) (cl : Prop) (u : Sub) :
    Prop where
  epoch : u.epoch ≤ s.epoch + 1
  closed : u.closed = true ↔ cl
  shut : u.closed = true → u.fetch = .done .undefined ∧ u.current = none
  acc : ∀ x ∈ sn, x ∈ ids s
  sorted : sn.Pairwise (· < ·)
  fetch : FetchOk s sn u
  current : ∀ g, u.current = some g → sn.getLast? = some g
  frames : DInv s sn dl u

structure Inv (tr : Trace) (s : State) : Prop where
  track : GInv tr s
  sub : ∀ c u, s.subs[c]? = some u →
    SInv s (seen tr c) (delivered tr c) (Closed tr c) u
  fresh : ∀ c, s.subs.length ≤ c → seen tr c = [] ∧ delivered tr c = [] ∧ ¬ Closed tr c

/-! ## Sorted lists -/

theorem le_last {l : List Nat} (h : l.Pairwise (· < ·)) {g : Nat} (hg : l.getLast? = some g) :
    ∀ x ∈ l, x ≤ g := by
  obtain ⟨l', rfl⟩ := List.getLast?_eq_some_iff.mp hg
  intro x hx
  rw [List.pairwise_append] at h
  rcases List.mem_append.mp hx with hx | hx
  · exact Nat.le_of_lt (h.2.2 x hx g (by simp))
  · simp at hx
    omega

theorem pairwise_snoc {α : Type} {R : α → α → Prop} {l : List α} {a : α} (h : l.Pairwise R)
    (ha : ∀ x ∈ l, R x a) : (l ++ [a]).Pairwise R := by
  rw [List.pairwise_append]
  exact ⟨h, by simp, fun x hx y hy => by simp at hy; rw [hy]; exact ha x hx⟩

/-! ## One consumer -/

theorem wait_ok (s : State) (sn : List Nat) (u : Sub) (he : u.epoch = s.epoch + 1) :
    FetchOk s sn { u with fetch := wait s.status u.closed } := by
  unfold FetchOk wait
  cases hc : u.closed
  · cases hs : s.status
    · exact ⟨he, rfl⟩
    · exact .inr rfl
    · rfl
  · exact .inl rfl

/-- A new fetch, for a consumer that has used up the old one. -/
theorem startFetch_ok {s : State} {sn : List Nat} {u : Sub} (he : u.epoch ≤ s.epoch + 1)
    (hl : ∀ l, s.latest = some l → l ∈ ids s)
    (hn : u.epoch ≤ s.epoch → ∀ l, s.latest = some l → ∀ x ∈ sn, x < l) :
    FetchOk s sn (startFetch s u) ∧ (startFetch s u).epoch ≤ s.epoch + 1 := by
  unfold startFetch
  by_cases hc : u.closed = true
  · rw [if_pos hc]
    exact ⟨.inl hc, he⟩
  · rw [if_neg hc]
    by_cases hle : u.epoch ≤ s.epoch
    · rw [if_pos hle]
      cases hlat : s.latest with
      | some l =>
        refine ⟨⟨⟨hl l hlat, hn hle l hlat⟩, fun h => ?_⟩, Nat.le_refl _⟩
        have : s.epoch + 1 ≤ s.epoch := h
        omega
      | none => exact ⟨wait_ok s sn { u with epoch := s.epoch + 1 } rfl, Nat.le_refl _⟩
    · rw [if_neg hle]
      exact ⟨wait_ok s sn u (by omega), he⟩

theorem startFetch_same (s : State) (u : Sub) : (startFetch s u).closed = u.closed ∧
    (startFetch s u).current = u.current ∧ (startFetch s u).frame = u.frame ∧
    (u.closed = true → (startFetch s u).fetch = .done .undefined) := by
  unfold startFetch
  by_cases hc : u.closed = true
  · rw [if_pos hc]
    simp
  · rw [if_neg hc]
    by_cases hle : u.epoch ≤ s.epoch
    · rw [if_pos hle]
      cases s.latest <;> simp [hc]
    · rw [if_neg hle]
      simp [hc]

/-- The consumer goes on with the group it has fetched. -/
theorem take_ok {s : State} {sn : List Nat} {dl : List (Nat × Nat × Bytes)} {cl : Prop} {u : Sub}
    (i : SInv s sn dl cl u) (hl : ∀ l, s.latest = some l → l ∈ ids s) {g : Nat}
    (hf : u.fetch = .done (.value g)) :
    SInv s (sn ++ [g]) dl cl { startFetch s u with current := some g, frame := 0 } := by
  have hfo := i.fetch
  unfold FetchOk at hfo
  rw [hf] at hfo
  obtain ⟨⟨h1, h2⟩, h3⟩ := hfo
  obtain ⟨e1, e2, e3, e4⟩ := startFetch_same s u
  have hnc : ¬ u.closed = true := fun h => by
    have := (i.shut h).1
    rw [hf] at this
    cases this
  have hs := startFetch_ok (sn := sn ++ [g]) i.epoch hl fun he l hll x hx => by
    have := h3 he l hll
    rcases List.mem_append.mp hx with hx | hx
    · exact Nat.lt_trans (h2 x hx) this
    · simp at hx
      omega
  refine ⟨hs.2, ?_, ?_, ?_, pairwise_snoc i.sorted h2, hs.1, ?_, ?_⟩
  · show (startFetch s u).closed = true ↔ cl
    rw [e1]
    exact i.closed
  · intro h
    exact absurd (e1 ▸ h) hnc
  · intro x hx
    rcases List.mem_append.mp hx with hx | hx
    · exact i.acc x hx
    · simp at hx
      exact hx ▸ h1
  · rintro g' hg
    cases hg
    simp
  · refine ⟨fun d hd => List.mem_append_left _ (i.frames.seen d hd), i.frames.order, i.frames.data,
      i.frames.whole, ?_, ?_⟩
    · rintro g' hg d hd rfl
      cases hg
      exact absurd (h2 _ (i.frames.seen d hd)) (Nat.lt_irrefl _)
    · intro g' _ k hk
      exact absurd hk (Nat.not_lt_zero _)

theorem find_mem {s : State} {id : Nat} {g : Grp} (h : find s id = some g) :
    g ∈ s.groups ∧ g.id = id := by
  unfold find at h
  exact ⟨List.mem_of_find?_eq_some h, by simpa using List.find?_some h⟩

theorem find_of_mem {s : State} {id : Nat} (h : id ∈ ids s) : ∃ g, find s id = some g := by
  unfold find
  cases hf : s.groups.find? fun g => g.id = id with
  | some g => exact ⟨g, rfl⟩
  | none =>
    obtain ⟨g, hg, rfl⟩ := List.mem_map.mp h
    simpa using List.find?_eq_none.mp hf g hg

/-- A frame is delivered. -/
theorem deliver_ok {s : State} {sn : List Nat} {dl : List (Nat × Nat × Bytes)} {cl : Prop} {u : Sub}
    (i : SInv s sn dl cl u) {g : Nat} {b : Bytes} (hc : u.current = some g)
    (hf : frameNow s u = .data b) :
    SInv s sn (dl ++ [(g, u.frame, b)]) cl { u with frame := u.frame + 1 } := by
  have hlast := i.current g hc
  have hmem : g ∈ sn := List.mem_of_getLast? hlast
  have hdata : ∃ x ∈ s.groups, x.id = g ∧ x.frames[u.frame]? = some b := by
    unfold frameNow at hf
    rw [hc] at hf
    dsimp only at hf
    cases hx : find s g with
    | none => simp [hx] at hf
    | some x =>
      rw [hx] at hf
      obtain ⟨h1, h2⟩ := find_mem hx
      refine ⟨x, h1, h2, ?_⟩
      dsimp only at hf
      cases hb : x.frames[u.frame]? with
      | some b' =>
        rw [hb] at hf
        cases hf
        rfl
      | none =>
        rw [hb] at hf
        dsimp only at hf
        split at hf <;> cases hf
  refine ⟨i.epoch, i.closed, i.shut, i.acc, i.sorted, i.fetch, i.current, ?_⟩
  have d := i.frames
  refine ⟨?_, ?_, ?_, ?_, ?_, ?_⟩
  · intro e he
    rcases List.mem_append.mp he with he | he
    · exact d.seen e he
    · simp at he
      rw [he]
      exact hmem
  · refine pairwise_snoc d.order fun e he => ?_
    have hle := le_last i.sorted hlast _ (d.seen e he)
    rcases Nat.lt_or_eq_of_le hle with h | h
    · exact .inl h
    · exact .inr ⟨h, d.before g hc e he h⟩
  · intro e he
    rcases List.mem_append.mp he with he | he
    · exact d.data e he
    · simp at he
      rw [he]
      exact hdata
  · intro e he j hj
    rcases List.mem_append.mp he with he | he
    · obtain ⟨b', hb'⟩ := d.whole e he j hj
      exact ⟨b', List.mem_append_left _ hb'⟩
    · simp at he
      subst he
      obtain ⟨b', hb'⟩ := d.full g hc j hj
      exact ⟨b', List.mem_append_left _ hb'⟩
  · intro g' hg e he hee
    rcases List.mem_append.mp he with he | he
    · exact Nat.lt_succ_of_lt (d.before g' hg e he hee)
    · simp at he
      subst he
      exact Nat.lt_succ_self _
  · intro g' hg k hk
    have hgg : g' = g := by
      have : u.current = some g' := hg
      rw [hc] at this
      exact (Option.some.inj this).symm
    subst hgg
    rcases Nat.lt_or_eq_of_le (Nat.le_of_lt_succ hk) with h | h
    · obtain ⟨b', hb'⟩ := d.full g' hc k h
      exact ⟨b', List.mem_append_left _ hb'⟩
    · exact ⟨b, by simp [h]⟩

/-- What a step on a consumer may do. -/
def SubOk (s : State) (sn : List Nat) (dl : List (Nat × Nat × Bytes)) (cl : Prop) (c : Nat) (op : Op)
    (r : Out × Sub) : Prop :=
  SInv s (sn ++ (arrival c (op, r.1)).toList) (dl ++ (delivery c (op, r.1)).toList) cl r.2

theorem run_ok {s : State} {sn : List Nat} {dl : List (Nat × Nat × Bytes)} {cl : Prop} {u : Sub}
    (i : SInv s sn dl cl u) (c : Nat) : SubOk s sn dl cl c (.run c) (run s u) := by
  unfold SubOk
  have ha : ∀ o, (arrival c (.run c, o)).toList = [] := fun o => by cases o <;> rfl
  have hd : ∀ o, (delivery c (.run c, o)).toList = [] := fun o => by cases o <;> rfl
  rw [ha, hd, List.append_nil, List.append_nil]
  have hnc : ∀ x, u.fetch = .ready x → ¬ u.closed = true := fun x hx h => by
    have := (i.shut h).1
    rw [hx] at this
    cases this
  have hfo := i.fetch
  unfold FetchOk at hfo
  unfold run
  rcases hf : u.fetch with _ | ⟨⟨_ | g⟩ | _ | _⟩ | r <;> rw [hf] at hfo
  · exact i
  · refine ⟨Nat.le_refl _, i.closed, fun h => absurd h (hnc _ hf), i.acc, i.sorted, ?_, i.current, ?_⟩
    · exact wait_ok s sn { u with epoch := s.epoch + 1 } rfl
    · exact ⟨i.frames.seen, i.frames.order, i.frames.data, i.frames.whole, i.frames.before,
        i.frames.full⟩
  · refine ⟨Nat.le_refl _, i.closed, fun h => absurd h (hnc _ hf), i.acc, i.sorted, ?_, i.current, ?_⟩
    · refine ⟨hfo, fun h => ?_⟩
      have : s.epoch + 1 ≤ s.epoch := h
      omega
    · exact ⟨i.frames.seen, i.frames.order, i.frames.data, i.frames.whole, i.frames.before,
        i.frames.full⟩
  · refine ⟨Nat.le_refl _, i.closed, fun h => absurd h (hnc _ hf), i.acc, i.sorted, hfo, i.current, ?_⟩
    exact ⟨i.frames.seen, i.frames.order, i.frames.data, i.frames.whole, i.frames.before,
        i.frames.full⟩
  · refine ⟨i.epoch, i.closed, fun h => absurd h (hnc _ hf), i.acc, i.sorted, hfo, i.current, ?_⟩
    exact ⟨i.frames.seen, i.frames.order, i.frames.data, i.frames.whole, i.frames.before,
        i.frames.full⟩
  · exact i

theorem nextGroup_ok {s : State} {sn : List Nat} {dl : List (Nat × Nat × Bytes)} {cl : Prop} {u : Sub}
    (i : SInv s sn dl cl u) (hl : ∀ l, s.latest = some l → l ∈ ids s ∧ s.status = .live) (c : Nat) :
    SubOk s sn dl cl c (.nextGroup c) (nextGroup s u) := by
  unfold SubOk
  have hd : ∀ o, (delivery c (.nextGroup c, o)).toList = [] := fun o => by cases o <;> rfl
  rw [hd, List.append_nil]
  have hfo := i.fetch
  unfold FetchOk at hfo
  unfold nextGroup
  rcases hf : u.fetch with _ | x | ⟨g | _ | _⟩ <;> rw [hf] at hfo
  · simpa [arrival] using i
  · simpa [arrival] using i
  · have := take_ok i (fun l h => (hl l h).1) hf
    simpa [arrival] using this
  · obtain ⟨e1, e2, e3, e4⟩ := startFetch_same s u
    have hs : FetchOk s sn (startFetch s u) ∧ (startFetch s u).epoch ≤ s.epoch + 1 := by
      by_cases hc : u.closed = true
      · unfold startFetch
        rw [if_pos hc]
        exact ⟨.inl hc, i.epoch⟩
      · have hst : s.status = .closed := hfo.resolve_left hc
        refine startFetch_ok i.epoch (fun l h => (hl l h).1) fun _ l h => ?_
        have := (hl l h).2
        rw [hst] at this
        cases this
    simp only [arrival, Option.toList_none, List.append_nil]
    refine ⟨hs.2, ?_, ?_, i.acc, i.sorted, hs.1, fun g h => (by cases h), ?_⟩
    · show (startFetch s u).closed = true ↔ cl
      rw [e1]
      exact i.closed
    · intro h
      have h' : u.closed = true := e1 ▸ h
      exact ⟨e4 h', rfl⟩
    · exact ⟨i.frames.seen, i.frames.order, i.frames.data, i.frames.whole, fun g h => (by cases h),
        fun g h => (by cases h)⟩
  · simpa [arrival] using i

theorem nextFrame_ok {s : State} {sn : List Nat} {dl : List (Nat × Nat × Bytes)} {cl : Prop} {u : Sub}
    (i : SInv s sn dl cl u) (hl : ∀ l, s.latest = some l → l ∈ ids s ∧ s.status = .live) (c : Nat)
    (p : Pick) : SubOk s sn dl cl c (.nextFrame c p) (nextFrame s u p) := by
  have hp : SubOk s sn dl cl c (.nextFrame c p) (.pending, u) := by
    unfold SubOk
    simpa [arrival, delivery] using i
  have hr : SubOk s sn dl cl c (.nextFrame c p) (.rejected, u) := by
    unfold SubOk
    simpa [arrival, delivery] using i
  have hu : SubOk s sn dl cl c (.nextFrame c p) (.undefined, u) := by
    unfold SubOk
    simpa [arrival, delivery] using i
  have hg : ∀ g, u.fetch = .done (.value g) → SubOk s sn dl cl c (.nextFrame c p)
      (if stale u g then
        (.pending, startFetch s u)
      else (.moved g, { startFetch s u with current := some g, frame := 0 })) := by
    intro g hf
    have hfo := i.fetch
    unfold FetchOk at hfo
    rw [hf] at hfo
    rw [if_neg]
    · unfold SubOk
      simpa [arrival, delivery] using take_ok i (fun l h => (hl l h).1) hf
    · unfold stale
      cases hc : u.current with
      | none => simp
      | some g' =>
        have := hfo.1.2 g' (List.mem_of_getLast? (i.current g' hc))
        simp
        omega
  unfold nextFrame
  cases p with
  | frame =>
    cases hn : frameNow s u with
    | data b =>
      dsimp only
      cases hc : u.current with
      | none => simp [frameNow, hc] at hn
      | some g =>
        unfold SubOk
        simpa [arrival, delivery, hc] using deliver_ok i hc hn
    | over => rcases hf : u.fetch with _ | x | ⟨g | _ | _⟩ <;> first | exact hp | exact hu
    | notYet => rcases hf : u.fetch with _ | x | ⟨g | _ | _⟩ <;> exact hp
  | group =>
    cases hn : frameNow s u with
    | data b =>
      rcases hf : u.fetch with _ | x | ⟨g | _ | _⟩ <;> first | exact hp | exact hr | exact hg g hf
    | over =>
      rcases hf : u.fetch with _ | x | ⟨g | _ | _⟩ <;>
        first | exact hp | exact hr | exact hu | exact hg g hf
    | notYet =>
      rcases hf : u.fetch with _ | x | ⟨g | _ | _⟩ <;> first | exact hp | exact hr | exact hg g hf

theorem close_ok {s : State} {sn : List Nat} {dl : List (Nat × Nat × Bytes)} {cl : Prop} {u : Sub}
    (i : SInv s sn dl cl u) : SInv s sn dl True
      { u with
        closed := true
        fetch := .done .undefined
        current := none } :=
  ⟨i.epoch, by simp, fun _ => ⟨rfl, rfl⟩, i.acc, i.sorted, .inl rfl, fun g h => (by cases h),
    ⟨i.frames.seen, i.frames.order, i.frames.data, i.frames.whole, fun g h => (by cases h),
      fun g h => (by cases h)⟩⟩

/-! ## The track -/

/-- What the producer changes does not disturb a consumer's frames. -/
theorem DInv.mono {s s' : State} {sn : List Nat} {dl : List (Nat × Nat × Bytes)} {u u' : Sub}
    (d : DInv s sn dl u) (hc : u'.current = u.current) (hf : u'.frame = u.frame)
    (hg : ∀ g ∈ s.groups, ∃ g' ∈ s'.groups, g'.id = g.id ∧ g.frames <+: g'.frames) :
    DInv s' sn dl u' := by
  refine ⟨d.seen, d.order, fun e he => ?_, d.whole, ?_, ?_⟩
  · obtain ⟨g, h1, h2, h3⟩ := d.data e he
    obtain ⟨g', h4, h5, t, ht⟩ := hg g h1
    refine ⟨g', h4, h5.trans h2, ?_⟩
    rw [← ht, List.getElem?_append_left (List.getElem?_eq_some_iff.mp h3).1]
    exact h3
  · rw [hc, hf]
    exact d.before
  · rw [hc, hf]
    exact d.full

/-- A new newest group. -/
theorem settle_add {s : State} {sn : List Nat} {dl : List (Nat × Nat × Bytes)} {cl : Prop} {u : Sub}
    (i : SInv s sn dl cl u) (g : Grp) (hg : ∀ x ∈ ids s, x < g.id) :
    SInv { update s (some g.id) with
        next := g.id + 1
        groups := s.groups ++ [g] } sn dl cl
      { u with fetch := u.fetch.settle (.value (some g.id)) } := by
  have hids : ids { update s (some g.id) with
        next := g.id + 1
        groups := s.groups ++ [g] } = ids s ++ [g.id] := by simp [ids]
  have hfo := i.fetch
  unfold FetchOk at hfo
  refine ⟨Nat.le_succ_of_le i.epoch, i.closed, ?_, ?_, i.sorted, ?_, i.current,
    i.frames.mono rfl rfl fun x hx => ⟨x, List.mem_append_left _ hx, rfl, List.prefix_refl _⟩⟩
  · intro h
    have := i.shut h
    simp [this.1, this.2, Fetch.settle]
  · intro x hx
    rw [hids]
    exact List.mem_append_left _ (i.acc x hx)
  · unfold FetchOk
    dsimp only
    rcases hf : u.fetch with _ | ⟨⟨_ | g'⟩ | _ | _⟩ | ⟨g' | _ | _⟩ <;> rw [hf] at hfo <;>
      simp only [Fetch.settle]
    · rw [hids]
      exact ⟨by simp, fun x hx => hg x (i.acc x hx)⟩
    · exact hfo
    · rw [hids]
      exact ⟨List.mem_append_left _ hfo.1, hfo.2⟩
    · exact hfo
    · exact hfo
    · rw [hids]
      refine ⟨⟨List.mem_append_left _ hfo.1.1, hfo.1.2⟩, fun _ l hl => ?_⟩
      cases hl
      exact hg g' hfo.1.1
    · exact hfo
    · exact hfo

/-- The end of the track. -/
theorem settle_end {s : State} {sn : List Nat} {dl : List (Nat × Nat × Bytes)} {cl : Prop} {u : Sub}
    (i : SInv s sn dl cl u) (hs : s.status = .live) (t : Status) (ht : t ≠ .live) :
    SInv { update s none with status := t } sn dl cl
      { u with fetch := u.fetch.settle (.value none) } := by
  have hfo := i.fetch
  unfold FetchOk at hfo
  refine ⟨Nat.le_succ_of_le i.epoch, i.closed, ?_, i.acc, i.sorted, ?_, i.current,
    i.frames.mono rfl rfl fun x hx => ⟨x, hx, rfl, List.prefix_refl _⟩⟩
  · intro h
    have := i.shut h
    simp [this.1, this.2, Fetch.settle]
  · unfold FetchOk
    dsimp only
    rcases hf : u.fetch with _ | ⟨⟨_ | g'⟩ | _ | _⟩ | ⟨g' | _ | _⟩ <;> rw [hf] at hfo <;>
      simp only [Fetch.settle]
    · exact ht
    · exact ht
    · exact hfo
    · rw [hs] at hfo
      exact .inl (hfo.resolve_right (by simp))
    · rw [hs] at hfo
      cases hfo
    · exact ⟨hfo.1, fun _ l hl => (by cases hl)⟩
    · rw [hs] at hfo
      exact .inl (hfo.resolve_right (by simp))
    · rw [hs] at hfo
      cases hfo

/-- Only the groups change, and they only grow. -/
theorem groups_ok {s s' : State} {sn : List Nat} {dl : List (Nat × Nat × Bytes)} {cl : Prop} {u : Sub}
    (i : SInv s sn dl cl u) (he : s'.epoch = s.epoch) (hs : s'.status = s.status)
    (hl : s'.latest = s.latest) (hi : ids s' = ids s)
    (hg : ∀ g ∈ s.groups, ∃ g' ∈ s'.groups, g'.id = g.id ∧ g.frames <+: g'.frames) :
    SInv s' sn dl cl u := by
  have hfo := i.fetch
  refine ⟨by rw [he]; exact i.epoch, i.closed, i.shut, by rw [hi]; exact i.acc, i.sorted, ?_,
    i.current, i.frames.mono rfl rfl hg⟩
  unfold FetchOk at hfo ⊢
  rw [he, hs, hl, hi]
  exact hfo

/-- A step on a consumer changes nothing of the track. -/
theorem subs_ok {s : State} {sn : List Nat} {dl : List (Nat × Nat × Bytes)} {cl : Prop} {u : Sub}
    (i : SInv s sn dl cl u) (subs : List Sub) : SInv { s with subs := subs } sn dl cl u :=
  groups_ok i rfl rfl rfl rfl fun g hg => ⟨g, hg, rfl, List.prefix_refl _⟩

theorem latest_mem {tr : Trace} {s : State} (i : GInv tr s) (l : Nat) (h : s.latest = some l) :
    l ∈ ids s ∧ s.status = .live := by
  have := i.latest
  rw [h] at this
  by_cases hs : s.status = .live
  · rw [if_pos hs] at this
    rw [i.ids]
    exact ⟨List.mem_of_getLast? this.symm, hs⟩
  · rw [if_neg hs] at this
    cases this

/-- An entry that says nothing about the track. -/
def Silent (e : Op × Out) : Prop :=
  taken e = none ∧ (∀ id, addition id e = []) ∧ e.1 ≠ .close ∧ e.1 ≠ .abort

theorem ginv_silent {tr : Trace} {s s' : State} (i : GInv tr s) {e : Op × Out} (he : Silent e)
    (hg : s'.groups = s.groups) (hn : s.next ≤ s'.next) (hl : s'.latest = s.latest)
    (hs : s'.status = s.status) : GInv (tr ++ [e]) s' := by
  obtain ⟨op, o⟩ := e
  obtain ⟨h1, h2, h3, h4⟩ := he
  have ha : accepted (tr ++ [(op, o)]) = accepted tr := by rw [accepted_snoc, h1]; simp
  have hc : ∀ id, content (tr ++ [(op, o)]) id = content tr id := fun id => by
    rw [content_snoc, h2]; simp
  refine ⟨?_, ?_, ?_, ?_, ?_, ?_, ?_, ?_⟩
  · rw [ha, ← i.ids, ids, ids, hg]
  · rw [ha]
    exact i.sorted
  · rw [ha]
    exact fun x hx => Nat.lt_of_lt_of_le (i.below x hx) hn
  · rw [ha, hl, hs]
    exact i.latest
  · have h3' : op ≠ .close := h3
    have h4' : op ≠ .abort := h4
    rw [ending_snoc, hs, i.status]
    simp [h3', h4']
  · rw [hg]
    intro g h
    rw [hc]
    exact i.content g h
  · rw [ha]
    intro id h
    rw [hc]
    exact i.nothing id h
  · rw [hg]
    exact fun g h hgs => (i.ended g h hgs).mono _

/-- An entry that is no step of a consumer. -/
def NoSub (e : Op × Out) : Prop :=
  ∀ c, arrival c e = none ∧ delivery c e = none ∧ e.1 ≠ .closeSub c

theorem Inv.producer {tr : Trace} {s s' : State} (i : Inv tr s) {e : Op × Out} (he : NoSub e)
    (hg : GInv (tr ++ [e]) s') (hl : s.subs.length ≤ s'.subs.length)
    (hs : ∀ c u, s'.subs[c]? = some u → SInv s' (seen tr c) (delivered tr c) (Closed tr c) u) :
    Inv (tr ++ [e]) s' := by
  have key : ∀ c, seen (tr ++ [e]) c = seen tr c ∧ delivered (tr ++ [e]) c = delivered tr c ∧
      (Closed (tr ++ [e]) c ↔ Closed tr c) := by
    intro c
    obtain ⟨h1, h2, h3⟩ := he c
    refine ⟨by rw [seen_snoc, h1]; simp, by rw [delivered_snoc, h2]; simp, ?_⟩
    obtain ⟨op, o⟩ := e
    have h3' : op ≠ .closeSub c := h3
    rw [closed_snoc]
    simp [h3']
  refine ⟨hg, fun c u hc => ?_, fun c hc => ?_⟩
  · obtain ⟨k1, k2, k3⟩ := key c
    rw [k1, k2]
    have := hs c u hc
    exact ⟨this.epoch, this.closed.trans k3.symm, this.shut, this.acc, this.sorted, this.fetch,
      this.current, this.frames⟩
  · obtain ⟨k1, k2, k3⟩ := key c
    rw [k1, k2, k3]
    exact i.fresh c (by omega)

theorem onSub_inv {tr : Trace} {s : State} (i : Inv tr s) (op : Op) (c : Nat)
    (f : Sub → Out × Sub)
    (hop : op = .run c ∨ op = .nextGroup c ∨ (∃ p, op = .nextFrame c p) ∨ op = .closeSub c)
    (hf : ∀ u, s.subs[c]? = some u → SInv s (seen (tr ++ [(op, (f u).1)]) c)
      (delivered (tr ++ [(op, (f u).1)]) c) (Closed (tr ++ [(op, (f u).1)]) c) (f u).2) :
    Inv (tr ++ [(op, (onSub s c f).1)]) (onSub s c f).2 := by
  have hother : ∀ (o : Out) (d : Nat), d ≠ c → seen (tr ++ [(op, o)]) d = seen tr d ∧
      delivered (tr ++ [(op, o)]) d = delivered tr d ∧
      (Closed (tr ++ [(op, o)]) d ↔ Closed tr d) := by
    intro o d hd
    rw [seen_snoc, delivered_snoc, closed_snoc]
    have hd' : c ≠ d := fun e => hd e.symm
    rcases hop with rfl | rfl | ⟨p, rfl⟩ | rfl <;> cases o <;> simp [arrival, delivery, hd']
  have hsil : ∀ o, Silent (op, o) := by
    intro o
    rcases hop with rfl | rfl | ⟨p, rfl⟩ | rfl <;> refine ⟨?_, fun id => ?_, ?_, ?_⟩ <;>
      first | rfl | (intro h; cases h)
  unfold onSub
  cases hc : s.subs[c]? with
  | none =>
    have hns : ∀ d, arrival d (op, .invalid) = none ∧ delivery d (op, .invalid) = none ∧
        (Closed (tr ++ [(op, .invalid)]) d ↔ Closed tr d) := by
      intro d
      rw [closed_snoc]
      rcases hop with rfl | rfl | ⟨p, rfl⟩ | rfl <;> simp [arrival, delivery]
    refine ⟨ginv_silent i.track (hsil _) rfl (Nat.le_refl _) rfl rfl, fun d u hd => ?_, fun d hd => ?_⟩
    · obtain ⟨h1, h2, h3⟩ := hns d
      have := i.sub d u hd
      rw [seen_snoc, delivered_snoc, h1, h2]
      simp only [Option.toList_none, List.append_nil]
      exact ⟨this.epoch, this.closed.trans h3.symm, this.shut, this.acc, this.sorted, this.fetch,
        this.current, this.frames⟩
    · obtain ⟨h1, h2, h3⟩ := hns d
      rw [seen_snoc, delivered_snoc, h1, h2, h3]
      simpa using i.fresh d hd
  | some u =>
    have hlt : c < s.subs.length := (List.getElem?_eq_some_iff.mp hc).1
    refine ⟨ginv_silent i.track (hsil _) rfl (Nat.le_refl _) rfl rfl, fun d u' hd => ?_, fun d hd => ?_⟩
    · dsimp only at hd ⊢
      by_cases hdc : d = c
      · subst hdc
        rw [List.getElem?_set_self hlt] at hd
        cases hd
        exact subs_ok (hf u hc) _
      · rw [List.getElem?_set_ne (fun e => hdc e.symm)] at hd
        obtain ⟨h1, h2, h3⟩ := hother (f u).1 d hdc
        have := i.sub d u' hd
        rw [h1, h2]
        refine subs_ok ?_ _
        exact ⟨this.epoch, this.closed.trans h3.symm, this.shut, this.acc, this.sorted, this.fetch,
          this.current, this.frames⟩
    · dsimp only at hd ⊢
      rw [List.length_set] at hd
      obtain ⟨h1, h2, h3⟩ := hother (f u).1 d (by omega)
      rw [h1, h2, h3]
      exact i.fresh d hd

theorem map_get {us : List Sub} {f : Sub → Sub} {c : Nat} {u : Sub} (h : (us.map f)[c]? = some u) :
    ∃ u', us[c]? = some u' ∧ u = f u' := by
  rw [List.getElem?_map] at h
  cases hu : us[c]? with
  | none => simp [hu] at h
  | some u' =>
    rw [hu] at h
    exact ⟨u', rfl, by simpa using h.symm⟩

/-- A group is added. -/
theorem add_inv {tr : Trace} {s : State} (i : Inv tr s) (op : Op) (g : Grp) (o : Out)
    (hg : s.next ≤ g.id) (hns : ∀ o', NoSub (op, o'))
    (ho : taken (op, o) = some g.id) (hth : Silent (op, .threw))
    (had : ∀ id, addition id (op, o) = if g.id = id then g.frames else [])
    (hend : g.status ≠ .live → GroupEnded (tr ++ [(op, o)]) g.id)
    (hop : op ≠ .close ∧ op ≠ .abort) :
    Inv (tr ++ [(op, (add s g o).1)]) (add s g o).2 := by
  have hlt : ∀ x ∈ ids s, x < g.id := fun x hx => by
    rw [i.track.ids] at hx
    have := i.track.below x hx
    omega
  unfold add
  by_cases hs : s.status = .live
  · rw [if_pos hs]
    refine i.producer (hns _) ?_ (by simp [update]) fun c u hc => ?_
    · have ha : accepted (tr ++ [(op, o)]) = accepted tr ++ [g.id] := by
        rw [accepted_snoc, ho]
        rfl
      have hnot : g.id ∉ accepted tr := fun h => by
        rw [← i.track.ids] at h
        exact Nat.lt_irrefl _ (hlt _ h)
      refine ⟨?_, ?_, ?_, ?_, ?_, ?_, ?_, ?_⟩
      · rw [ha, ← i.track.ids]
        simp [ids]
      · rw [ha]
        exact pairwise_snoc i.track.sorted fun x hx => hlt x (by rw [i.track.ids]; exact hx)
      · rw [ha]
        intro x hx
        show x < g.id + 1
        rcases List.mem_append.mp hx with hx | hx
        · have := hlt x (by rw [i.track.ids]; exact hx)
          omega
        · simp at hx
          omega
      · rw [ha]
        simp [update, hs]
      · rw [ending_snoc, i.track.status]
        simp [hop.1, hop.2, update]
      · intro x hx
        rw [content_snoc, had]
        rcases List.mem_append.mp hx with hx | hx
        · have : x.id < g.id := hlt _ (List.mem_map_of_mem hx)
          rw [if_neg (by omega), List.append_nil]
          exact i.track.content x hx
        · simp at hx
          subst hx
          rw [if_pos rfl, i.track.nothing _ hnot, List.nil_append]
      · rw [ha]
        intro id hid
        rw [List.mem_append, not_or] at hid
        have hne : g.id ≠ id := fun e => hid.2 (by simp [e])
        rw [content_snoc, had, if_neg hne, i.track.nothing id hid.1]
        rfl
      · intro x hx hxs
        rcases List.mem_append.mp hx with hx | hx
        · exact (i.track.ended x hx hxs).mono _
        · simp at hx
          subst hx
          exact hend hxs
    · obtain ⟨u', hu', rfl⟩ := map_get hc
      exact settle_add (i.sub c u' hu') g hlt
  · rw [if_neg hs]
    refine i.producer (hns _) ?_ (Nat.le_refl _) fun c u hc => ?_
    · exact ginv_silent i.track hth rfl (by dsimp only; omega) rfl rfl
    · exact groups_ok (i.sub c u hc) rfl rfl rfl rfl fun g hg => ⟨g, hg, rfl, List.prefix_refl _⟩

/-- A group is changed. -/
theorem onGroup_inv {tr : Trace} {s : State} (i : Inv tr s) (op : Op) (id : Nat) (f : Grp → Grp)
    (hns : ∀ o', NoSub (op, o')) (ht : ∀ o, taken (op, o) = none)
    (hbad : ∀ o, o ≠ .ok → Silent (op, o)) (hid : ∀ g, (f g).id = g.id)
    (hadd : ∀ x, ∃ add, addition x (op, .ok) = (if id = x then add else []) ∧
      ∀ g, g.id = id → (f g).frames = g.frames ++ add)
    (hend : ∀ g, g.id = id → (f g).status ≠ .live → g.status = .live →
      GroupEnded (tr ++ [(op, .ok)]) id)
    (hop : op ≠ .close ∧ op ≠ .abort) :
    Inv (tr ++ [(op, (onGroup s id f).1)]) (onGroup s id f).2 := by
  have hsame : ∀ o, o ≠ .ok → Inv (tr ++ [(op, o)]) s := fun o ho =>
    i.producer (hns _) (ginv_silent i.track (hbad o ho) rfl (Nat.le_refl _) rfl rfl) (Nat.le_refl _) i.sub
  unfold onGroup
  cases hf : find s id with
  | none => exact hsame _ (by simp)
  | some g =>
    dsimp only
    by_cases hs : g.status = .live
    · rw [if_pos hs]
      obtain ⟨hgm, hgid⟩ := find_mem hf
      have hids : ids { s with groups := s.groups.map fun x => if x.id = id then f x else x } =
          ids s := by
        unfold ids
        rw [List.map_map]
        refine List.map_congr_left fun x _ => ?_
        by_cases hx : x.id = id <;> simp [hx, hid]
      have ha : accepted (tr ++ [(op, .ok)]) = accepted tr := by
        rw [accepted_snoc, ht]
        simp
      refine i.producer (hns _) ?_ (Nat.le_refl _) fun c u hc => ?_
      · refine ⟨?_, ?_, ?_, ?_, ?_, ?_, ?_, ?_⟩
        · rw [hids, ha]
          exact i.track.ids
        · rw [ha]
          exact i.track.sorted
        · rw [ha]
          exact i.track.below
        · rw [ha]
          exact i.track.latest
        · rw [ending_snoc, i.track.status]
          simp [hop.1, hop.2]
        · intro x hx
          obtain ⟨y, hy, rfl⟩ := List.mem_map.mp hx
          have hc := i.track.content y hy
          by_cases hyi : y.id = id
          · obtain ⟨ad, h1, h2⟩ := hadd y.id
            rw [if_pos hyi, hid, content_snoc, h1, if_pos hyi.symm, h2 y hyi, hc]
          · obtain ⟨ad, h1, h2⟩ := hadd y.id
            rw [if_neg hyi, content_snoc, h1, if_neg (fun e => hyi e.symm), List.append_nil]
            exact hc
        · rw [ha]
          intro x hx
          obtain ⟨ad, h1, h2⟩ := hadd x
          have hne : id ≠ x := fun e => hx (by
            rw [← e, ← i.track.ids, ← hgid]
            exact List.mem_map_of_mem hgm)
          rw [content_snoc, h1, if_neg hne, i.track.nothing x hx]
          rfl
        · intro x hx hxs
          obtain ⟨y, hy, rfl⟩ := List.mem_map.mp hx
          by_cases hyi : y.id = id
          · rw [if_pos hyi] at hxs ⊢
            rw [hid, hyi]
            by_cases hys : y.status = .live
            · exact hend y hyi hxs hys
            · rw [← hyi]
              exact (i.track.ended y hy hys).mono _
          · rw [if_neg hyi] at hxs ⊢
            exact (i.track.ended y hy hxs).mono _
      · refine groups_ok (i.sub c u hc) rfl rfl rfl hids fun x hx => ?_
        refine ⟨_, List.mem_map_of_mem hx, ?_, ?_⟩
        · by_cases hxi : x.id = id <;> simp [hxi, hid]
        · by_cases hxi : x.id = id
          · obtain ⟨ad, h1, h2⟩ := hadd id
            rw [if_pos hxi, h2 x hxi]
            exact List.prefix_append _ _
          · rw [if_neg hxi]
            exact List.prefix_refl _
    · rw [if_neg hs]
      exact hsame _ (by simp)

/-- The track ends. -/
theorem end_inv {tr : Trace} {s : State} (i : Inv tr s) (op : Op) (t : Status) (ht : t ≠ .live)
    (he : endOp t = some op) (hop : op = .close ∨ op = .abort) :
    Inv (tr ++ [(op, .ok)])
      (if s.status = .live then { update s none with status := t } else s) := by
  have hns : NoSub (op, .ok) := fun c => by rcases hop with rfl | rfl <;> simp [arrival, delivery]
  have ha : accepted (tr ++ [(op, .ok)]) = accepted tr := by
    rw [accepted_snoc]
    rcases hop with rfl | rfl <;> simp [taken]
  have hc : ∀ id, content (tr ++ [(op, .ok)]) id = content tr id := fun id => by
    rw [content_snoc]
    rcases hop with rfl | rfl <;> simp [addition]
  by_cases hs : s.status = .live
  · rw [if_pos hs]
    refine i.producer hns ?_ (by simp [update]) fun c u hcu => ?_
    · refine ⟨?_, ?_, ?_, ?_, ?_, ?_, ?_, ?_⟩
      · rw [ha]
        exact i.track.ids
      · rw [ha]
        exact i.track.sorted
      · rw [ha]
        exact i.track.below
      · simp [update, ht]
      · rw [ending_snoc, i.track.status, hs, if_pos hop]
        simp [endOp] at he ⊢
        exact he.symm
      · intro g hg
        rw [hc]
        exact i.track.content g hg
      · rw [ha]
        intro id hid
        rw [hc]
        exact i.track.nothing id hid
      · exact fun g hg hgs => (i.track.ended g hg hgs).mono _
    · obtain ⟨u', hu', rfl⟩ := map_get hcu
      exact settle_end (i.sub c u' hu') hs t ht
  · rw [if_neg hs]
    refine i.producer hns ?_ (Nat.le_refl _) i.sub
    refine ⟨?_, ?_, ?_, ?_, ?_, ?_, ?_, ?_⟩
    · rw [ha]
      exact i.track.ids
    · rw [ha]
      exact i.track.sorted
    · rw [ha]
      exact i.track.below
    · rw [ha]
      exact i.track.latest
    · rw [ending_snoc, i.track.status]
      cases hst : s.status <;> simp_all [endOp]
    · intro g hg
      rw [hc]
      exact i.track.content g hg
    · rw [ha]
      intro id hid
      rw [hc]
      exact i.track.nothing id hid
    · exact fun g hg hgs => (i.track.ended g hg hgs).mono _

theorem inv_init : Inv [] init :=
  ⟨⟨rfl, .nil, fun x hx => (by cases hx), rfl, rfl, fun g hg => (by cases hg), fun _ _ => rfl,
    fun g hg => (by cases hg)⟩, fun c u hc => (by simp [init] at hc),
    fun c _ => ⟨rfl, rfl, fun h => (by cases h)⟩⟩

theorem step_inv {tr : Trace} {s : State} (i : Inv tr s) (op : Op) :
    Inv (tr ++ [(op, (step s op).1)]) (step s op).2 := by
  have hl := latest_mem i.track
  cases op with
  | append =>
    refine add_inv i .append ⟨s.next, [], .live⟩ _ (Nat.le_refl _) ?_ rfl ?_ ?_ ?_ (by simp)
    · intro o c
      cases o <;> simp [arrival, delivery]
    · exact ⟨rfl, fun _ => rfl, by simp, by simp⟩
    · intro id
      simp [addition]
    · intro h
      exact absurd rfl h
  | insert id fs st =>
    rw [step]
    by_cases hid : id < s.next
    · rw [if_pos hid]
      refine i.producer ?_ (ginv_silent i.track ?_ rfl (Nat.le_refl _) rfl rfl) (Nat.le_refl _) i.sub
      · intro c
        simp [arrival, delivery]
      · exact ⟨rfl, fun _ => rfl, by simp, by simp⟩
    · rw [if_neg hid]
      refine add_inv i _ ⟨id, fs, st⟩ _ (by simpa using hid) ?_ rfl ?_ ?_ ?_ (by simp)
      · intro o c
        cases o <;> simp [arrival, delivery]
      · exact ⟨rfl, fun _ => rfl, by simp, by simp⟩
      · intro x
        simp [addition]
      · intro h
        exact .inr (.inr ⟨fs, st, h, by simp⟩)
  | write id b =>
    refine onGroup_inv i _ id _ ?_ ?_ ?_ (fun _ => rfl) ?_ ?_ (by simp)
    · intro o c
      cases o <;> simp [arrival, delivery]
    · intro o
      cases o <;> rfl
    · intro o ho
      refine ⟨by cases o <;> rfl, fun _ => ?_, by simp, by simp⟩
      cases o <;> first | rfl | exact absurd rfl ho
    · intro x
      exact ⟨[b], rfl, fun _ _ => rfl⟩
    · intro g _ h1 h2
      exact absurd h2 h1
  | closeGroup id =>
    refine onGroup_inv i _ id _ ?_ ?_ ?_ (fun _ => rfl) ?_ ?_ (by simp)
    · intro o c
      cases o <;> simp [arrival, delivery]
    · intro o
      cases o <;> rfl
    · intro o _
      exact ⟨by cases o <;> rfl, fun _ => by cases o <;> rfl, by simp, by simp⟩
    · intro x
      exact ⟨[], by simp [addition], fun _ _ => by simp⟩
    · intro g _ _ _
      exact .inl (by simp)
  | abortGroup id =>
    refine onGroup_inv i _ id _ ?_ ?_ ?_ (fun _ => rfl) ?_ ?_ (by simp)
    · intro o c
      cases o <;> simp [arrival, delivery]
    · intro o
      cases o <;> rfl
    · intro o _
      exact ⟨by cases o <;> rfl, fun _ => by cases o <;> rfl, by simp, by simp⟩
    · intro x
      exact ⟨[], by simp [addition], fun _ _ => by simp⟩
    · intro g _ _ _
      exact .inr (.inl (by simp))
  | close =>
    have := end_inv i .close .closed (by simp) rfl (.inl rfl)
    rw [step]
    by_cases hs : s.status = .live
    · rw [if_pos hs] at this ⊢
      exact this
    · rw [if_neg hs] at this ⊢
      exact this
  | abort =>
    have := end_inv i .abort .aborted (by simp) rfl (.inr rfl)
    rw [step]
    by_cases hs : s.status = .live
    · rw [if_pos hs] at this ⊢
      exact this
    · rw [if_neg hs] at this ⊢
      exact this
  | consume =>
    rw [step]
    refine i.producer ?_ (ginv_silent i.track ?_ rfl (Nat.le_refl _) rfl rfl) (by simp) ?_
    · intro c
      simp [arrival, delivery]
    · exact ⟨rfl, fun _ => rfl, by simp, by simp⟩
    · intro c u hc
      dsimp only at hc
      rcases Nat.lt_trichotomy c s.subs.length with hlt | rfl | hgt
      · rw [List.getElem?_append_left hlt] at hc
        exact subs_ok (i.sub c u hc) _
      · obtain ⟨f1, f2, f3⟩ := i.fresh s.subs.length (Nat.le_refl _)
        simp only [List.getElem?_concat_length, Option.some.injEq] at hc
        subst hc
        refine subs_ok ?_ _
        rw [f1, f2]
        obtain ⟨e1, e2, e3, e4⟩ := startFetch_same s ⟨0, false, .waiting, none, 0⟩
        have hs := startFetch_ok (s := s) (sn := []) (u := ⟨0, false, .waiting, none, 0⟩)
          (Nat.zero_le _) (fun l h => (hl l h).1) (fun _ _ _ x hx => (by cases hx))
        refine ⟨hs.2, ?_, ?_, fun x hx => (by cases hx), .nil, hs.1, ?_, ?_⟩
        · rw [e1]
          simpa using f3
        · rw [e1]
          intro h
          cases h
        · rw [e2]
          intro g h
          cases h
        · refine ⟨fun d hd => (by cases hd), .nil, fun d hd => (by cases hd),
            fun d hd => (by cases hd), fun g _ d hd => (by cases hd), ?_⟩
          rw [e2]
          intro g h
          cases h
      · rw [List.getElem?_eq_none (by simp; omega)] at hc
        cases hc
  | run c =>
    refine onSub_inv i _ c _ (.inl rfl) fun u hu => ?_
    have := run_ok (i.sub c u hu) c
    unfold SubOk at this
    rw [seen_snoc, delivered_snoc]
    exact ⟨this.epoch, by rw [this.closed, closed_snoc]; simp, this.shut, this.acc, this.sorted,
      this.fetch, this.current, this.frames⟩
  | nextGroup c =>
    refine onSub_inv i _ c _ (.inr (.inl rfl)) fun u hu => ?_
    have := nextGroup_ok (i.sub c u hu) hl c
    unfold SubOk at this
    rw [seen_snoc, delivered_snoc]
    exact ⟨this.epoch, by rw [this.closed, closed_snoc]; simp, this.shut, this.acc, this.sorted,
      this.fetch, this.current, this.frames⟩
  | nextFrame c p =>
    refine onSub_inv i _ c _ (.inr (.inr (.inl ⟨p, rfl⟩))) fun u hu => ?_
    have := nextFrame_ok (i.sub c u hu) hl c p
    unfold SubOk at this
    rw [seen_snoc, delivered_snoc]
    exact ⟨this.epoch, by rw [this.closed, closed_snoc]; simp, this.shut, this.acc, this.sorted,
      this.fetch, this.current, this.frames⟩
  | closeSub c =>
    refine onSub_inv i _ c _ (.inr (.inr (.inr rfl))) fun u hu => ?_
    have := close_ok (i.sub c u hu)
    rw [seen_snoc, delivered_snoc]
    simp only [arrival, delivery, Option.toList_none, List.append_nil]
    exact ⟨this.epoch, by rw [this.closed, closed_snoc]; simp, this.shut, this.acc, this.sorted,
      this.fetch, this.current, this.frames⟩

theorem inv_reach {tr : Trace} {s : State} (h : machine.Reach tr s) : Inv tr s :=
  Machine.Reach.induct (M := machine) (P := fun tr s => Inv tr s) inv_init
    (fun _ _ op _ i => step_inv i op) h

end Verif.Js.Track
