import Verif.Js.Receive
import Verif.Js.ServeLemmas
import Verif.Props.JsWire

/-!
# Invariants of receiving a subscription in the browser
-/

set_option autoImplicit false

namespace Verif.Js.Receive

open Verif Verif.Props.Grammar Verif.Props.JsWire

open Verif.Js.Group (Status)
open Verif.Js.Serve (GroupClosed GroupAborted fate_reach)

/-! ## Histories -/

theorem trackTrace_snoc (tr : Trace) (e : Op × Out) :
    trackTrace (tr ++ [e]) = trackTrace tr ++ onTrack e := by
  unfold trackTrace
  simp

theorem arrived_snoc (tr : Trace) (e : Op × Out) (i : Nat) :
    arrived (tr ++ [e]) i = arrived tr i ++ part i e := by
  unfold arrived
  simp

theorem finished_snoc (tr : Trace) (e : Op × Out) (i : Nat) :
    Finished (tr ++ [e]) i ↔ Finished tr i ∨ e = (.finish i, .ok) := by
  unfold Finished
  simp [eq_comm]

theorem failed_snoc (tr : Trace) (e : Op × Out) (i : Nat) :
    Failed (tr ++ [e]) i ↔ Failed tr i ∨ ∃ x k, e = (.fail i x k, .ok) := by
  unfold Failed
  constructor
  · rintro ⟨x, k, h⟩
    rcases List.mem_append.1 h with h | h
    · exact .inl ⟨x, k, h⟩
    · exact .inr ⟨x, k, (List.mem_singleton.1 h).symm⟩
  · rintro (⟨x, k, h⟩ | ⟨x, k, h⟩)
    · exact ⟨x, k, List.mem_append_left _ h⟩
    · exact ⟨x, k, List.mem_append_right _ (by rw [h]; simp)⟩

theorem ended_snoc (tr : Trace) (e : Op × Out) (ok : Bool) :
    Ended (tr ++ [e]) ok ↔ Ended tr ok ∨ e = (.ended ok, .ok) := by
  unfold Ended
  simp [eq_comm]

theorem brings_snoc (tr : Trace) (e : Op × Out) (i g : Nat) :
    Brings (tr ++ [e]) i g ↔ Brings tr i g ∨ ∃ rest, e = (.stream g rest, .inserted i) := by
  unfold Brings
  constructor
  · rintro ⟨x, h⟩
    rcases List.mem_append.1 h with h | h
    · exact .inl ⟨x, h⟩
    · exact .inr ⟨x, (List.mem_singleton.1 h).symm⟩
  · rintro (⟨x, h⟩ | ⟨x, h⟩)
    · exact ⟨x, List.mem_append_left _ h⟩
    · exact ⟨x, List.mem_append_right _ (by rw [h]; simp)⟩

/-- The frames of a group. -/
abbrev frames (tr : Trace) (g : Nat) : List Bytes := Track.content (trackTrace tr) g

/-- The groups the track took. -/
abbrev taken (tr : Trace) : List Nat := Track.accepted (trackTrace tr)

/-! ## The track -/

/-- What a step on one group of the track does. -/
structure GroupStep (t t' : Track.State) (g : Nat) (y : Track.Grp) : Prop where
  status : t'.status = t.status
  next : t'.next = t.next
  latest : t'.latest = t.latest
  this : Track.find t' g = some y
  other : ∀ k, k ≠ g → Track.find t' k = Track.find t k

theorem group_step {t : Track.State} {g : Nat} {x : Track.Grp} (hx : Track.find t g = some x)
    (hl : x.status = .live) (f : Track.Grp → Track.Grp) (hf : ∀ x, (f x).id = x.id) :
    (Track.onGroup t g f).1 = .ok ∧ GroupStep t (Track.onGroup t g f).2 g (f x) := by
  have hm := Serve.find_map t.groups g f hf
  have hid := (Track.find_mem hx).2
  unfold Track.onGroup
  rw [hx]
  dsimp only
  rw [if_pos hl]
  refine ⟨rfl, rfl, rfl, rfl, ?_, ?_⟩
  · have := hm g
    unfold Track.find at hx ⊢
    rw [hx] at this
    dsimp only
    rw [this]
    simp [hid]
  · intro k hk
    have := hm k
    unfold Track.find
    dsimp only
    rw [this]
    cases hy : t.groups.find? fun g => g.id = k with
    | none => rfl
    | some y =>
      have hyk : y.id = k := by simpa using List.find?_some hy
      simp [hyk, hk]

theorem reads_keeps {op : Track.Op} (h : reads op = true) (t : Track.State) :
    (Track.step t op).2.groups = t.groups ∧ (Track.step t op).2.status = t.status ∧
    (Track.step t op).2.next = t.next ∧ (Track.step t op).2.latest = t.latest := by
  have hs : ∀ c f, (Track.onSub t c f).2.groups = t.groups ∧ (Track.onSub t c f).2.status = t.status ∧
      (Track.onSub t c f).2.next = t.next ∧ (Track.onSub t c f).2.latest = t.latest := by
    intro c f
    unfold Track.onSub
    split <;> exact ⟨rfl, rfl, rfl, rfl⟩
  cases op with
  | consume => exact ⟨rfl, rfl, rfl, rfl⟩
  | run c => exact hs _ _
  | nextGroup c => exact hs _ _
  | nextFrame c p => exact hs _ _
  | closeSub c => exact hs _ _
  | _ => cases h

/-- What readers do adds no group and no frame. -/
theorem reads_silent {op : Track.Op} (h : reads op = true) (o : Track.Out) :
    Track.taken (op, o) = none ∧ ∀ g, Track.addition g (op, o) = [] := by
  cases op with
  | consume => exact ⟨rfl, fun _ => rfl⟩
  | run c => exact ⟨rfl, fun _ => rfl⟩
  | nextGroup c => exact ⟨rfl, fun _ => rfl⟩
  | nextFrame c p => exact ⟨rfl, fun _ => rfl⟩
  | closeSub c => exact ⟨rfl, fun _ => rfl⟩
  | _ => cases h

/-! ## Frames -/

theorem frame_inv {bs rest b : Bytes} (h : P.frame bs = .ok b rest) :
    ∃ u, bs = u ++ rest ∧ Blob u b ∧ Safe b.length := by
  obtain ⟨n, mid, h1, h2⟩ := bind_inv h
  obtain ⟨v, rest', h3, h4⟩ := bind_inv h1
  split at h4
  · cases h4
  · next hn =>
    cases h4
    obtain ⟨u, rfl, hv⟩ := u62_inv h3
    obtain ⟨rfl, hl⟩ := take_inv h2
    subst hl
    exact ⟨u ++ b, by simp, ⟨u, rfl, hv⟩, by unfold MAX_U53 at hn; unfold Safe; omega⟩

theorem items_snoc {α : Type} {F : Format α} {bs b : Bytes} {xs : List α} {x : α}
    (h : Items F bs xs) (hx : F b x) : Items F (bs ++ b) (xs ++ [x]) := by
  induction h with
  | nil =>
    have := Items.cons hx (Items.nil (F := F))
    simpa using this
  | cons h1 _ ih =>
    rw [List.append_assoc, List.cons_append]
    exact .cons h1 ih

/-! ## Invariant -/

/-- A stream whose group the track took. -/
structure GOk (tr : Trace) (t : Track.State) (i : Nat) (k : Task) (g : Nat) (x : Track.Grp) : Prop where
  found : Track.find t g = some x
  live : k.phase ≠ .over ↔ x.status = .live
  bytes : ∃ used lost, arrived tr i = used ++ k.reader.all ++ lost ∧
    Items Blob used (frames tr g) ∧ (∀ f ∈ frames tr g, Safe f.length) ∧ (¬ Failed tr i → lost = [])
  closed : x.status = .closed → (Finished tr i ∧ k.reader.all = []) ∨
    (∃ g' ∈ taken tr, g < g') ∨ ∃ ok, Ended tr ok
  aborted : x.status = .aborted → Failed tr i ∨
    (Finished tr i ∧ k.reader.all ≠ [] ∧ P.frame k.reader.all = .short) ∨
    P.frame k.reader.all = .thrown .tooLarge ∨ Ended tr false

structure TInv (tr : Trace) (t : Track.State) (i : Nat) (k : Task) : Prop where
  pieces : ∀ c ∈ k.reader.stream.chunks, c ≠ []
  fin : k.reader.stream.ending = .fin ↔ Finished tr i
  failed : (∃ e, k.reader.stream.ending = .failed e) ↔ Failed tr i
  full : k.phase = .frame → k.reader.buffer ≠ []
  group : ∀ g, k.group = some g → ∃ x, GOk tr t i k g x

structure Inv (tr : Trace) (s : State) : Prop where
  track : Track.machine.Reach (trackTrace tr) s.track
  over : s.over = true ↔ ∃ ok, Ended tr ok
  live : s.over = false ↔ s.track.status = .live
  closed : s.track.status = .closed ↔ Ended tr true
  aborted : s.track.status = .aborted ↔ Ended tr false
  next : s.track.next = ((taken tr).getLast?.map (· + 1)).getD 0
  groups : taken tr = s.tasks.filterMap (·.group)
  brings : ∀ i g, Brings tr i g ↔ ∃ k, s.tasks[i]? = some k ∧ k.group = some g
  task : ∀ i k, s.tasks[i]? = some k → TInv tr s.track i k
  fresh : ∀ i, s.tasks.length ≤ i → arrived tr i = [] ∧ ¬ Finished tr i ∧ ¬ Failed tr i

/-- An entry that is not about stream `i`. -/
structure Apart (e : Op × Out) (i : Nat) : Prop where
  part : part i e = []
  finish : e ≠ (.finish i, .ok)
  fail : ∀ x k, e ≠ (.fail i x k, .ok)

theorem TInv.keep {tr : Trace} {t t' : Track.State} {i : Nat} {k : Task} (h : TInv tr t i k)
    {e : Op × Out} (ha : Apart e i)
    (hg : ∀ g, k.group = some g → Track.find t' g = Track.find t g ∧
      frames (tr ++ [e]) g = frames tr g)
    (ht : ∀ g ∈ taken tr, g ∈ taken (tr ++ [e])) : TInv (tr ++ [e]) t' i k := by
  have hfin : Finished (tr ++ [e]) i ↔ Finished tr i := by
    rw [finished_snoc]
    exact ⟨fun h => h.resolve_right ha.finish, .inl⟩
  have hfail : Failed (tr ++ [e]) i ↔ Failed tr i := by
    rw [failed_snoc]
    exact ⟨fun h => h.resolve_right fun ⟨x, k, hk⟩ => ha.fail x k hk, .inl⟩
  have hend : ∀ ok, Ended tr ok → Ended (tr ++ [e]) ok := fun ok h => (ended_snoc _ _ _).2 (.inl h)
  refine ⟨h.pieces, by rw [hfin]; exact h.fin, by rw [hfail]; exact h.failed, h.full, fun g hk => ?_⟩
  obtain ⟨x, hx⟩ := h.group g hk
  obtain ⟨g1, g2⟩ := hg g hk
  refine ⟨x, by rw [g1]; exact hx.found, hx.live, ?_, ?_, ?_⟩
  · rw [arrived_snoc, ha.part, List.append_nil, g2, hfail]
    exact hx.bytes
  · intro hs
    rw [hfin]
    exact (hx.closed hs).imp id (Or.imp (fun ⟨g', a, b⟩ => ⟨g', ht g' a, b⟩)
      fun ⟨ok, h⟩ => ⟨ok, hend ok h⟩)
  · intro hs
    rw [hfin, hfail]
    exact (hx.aborted hs).imp id (Or.imp id (Or.imp id (hend false)))

theorem Inv.group_ne {tr : Trace} {s : State} (h : Inv tr s) {i j g : Nat} {k l : Task}
    (hk : s.tasks[i]? = some k) (hl : s.tasks[j]? = some l) (hij : i ≠ j) (hg : k.group = some g) :
    l.group ≠ some g := by
  intro hg'
  have hs := (Track.inv_reach h.track).track.sorted
  have he : Track.accepted (trackTrace tr) = s.tasks.filterMap (·.group) := h.groups
  rw [he, List.pairwise_filterMap, List.pairwise_iff_getElem] at hs
  obtain ⟨a1, a2⟩ := List.getElem?_eq_some_iff.1 hk
  obtain ⟨b1, b2⟩ := List.getElem?_eq_some_iff.1 hl
  rcases Nat.lt_or_gt_of_ne hij with hlt | hlt
  · have := hs i j a1 b1 hlt g (by rw [a2]; exact hg) g (by rw [b2]; exact hg')
    omega
  · have := hs j i b1 a1 hlt g (by rw [b2]; exact hg') g (by rw [a2]; exact hg)
    omega

/-- A step that changes one stream and, at most, its group. -/
theorem Inv.set {tr : Trace} {s : State} (h : Inv tr s) {i : Nat} {k k' : Task}
    (hk : s.tasks[i]? = some k) (hg : k'.group = k.group) {e : Op × Out} {t' : Track.State}
    (hne : ∀ ok, e ≠ (.ended ok, .ok)) (hns : ∀ g rest j, e ≠ (.stream g rest, .inserted j))
    (hreach : Track.machine.Reach (trackTrace tr ++ onTrack e) t')
    (hstatus : t'.status = s.track.status) (hnext : t'.next = s.track.next)
    (htaken : taken (tr ++ [e]) = taken tr)
    (hothers : ∀ g, k.group ≠ some g → Track.find t' g = Track.find s.track g ∧
      frames (tr ++ [e]) g = frames tr g)
    (happart : ∀ j, j ≠ i → Apart e j)
    (htask : TInv (tr ++ [e]) t' i k') :
    Inv (tr ++ [e]) { s with track := t', tasks := s.tasks.set i k' } := by
  have hend : ∀ ok, Ended (tr ++ [e]) ok ↔ Ended tr ok := by
    intro ok
    rw [ended_snoc]
    exact ⟨fun h => h.resolve_right (hne ok), .inl⟩
  have hlt := (List.getElem?_eq_some_iff.1 hk).1
  refine ⟨by rw [trackTrace_snoc]; exact hreach, ?_, ?_, ?_, ?_, ?_, ?_, ?_, ?_, ?_⟩
  · simp only [hend]
    exact h.over
  · rw [hstatus]
    exact h.live
  · rw [hstatus, hend]
    exact h.closed
  · rw [hstatus, hend]
    exact h.aborted
  · rw [hnext, htaken]
    exact h.next
  · rw [htaken, h.groups]
    dsimp only
    have e1 := (List.getElem?_eq_some_iff.1 hk).2
    have : ∀ l : List Task, ∀ i k, l[i]? = some k → k'.group = k.group →
        l.filterMap (·.group) = (l.set i k').filterMap (·.group) := by
      intro l
      induction l with
      | nil => intro i k hk; cases hk
      | cons a l ih =>
        intro i k hk hg
        cases i with
        | zero =>
          cases hk
          simp only [List.set_cons_zero, List.filterMap_cons, hg]
        | succ i =>
          simp only [List.set_cons_succ, List.filterMap_cons]
          rw [ih i k hk hg]
    exact this s.tasks i k hk hg
  · intro j g
    rw [brings_snoc, h.brings]
    constructor
    · rintro (⟨l, h1, h2⟩ | ⟨rest, h1⟩)
      · by_cases hij : i = j
        · subst hij
          rw [hk] at h1
          cases h1
          exact ⟨k', by rw [List.getElem?_set_self hlt], hg.trans h2⟩
        · exact ⟨l, by rw [List.getElem?_set_ne hij]; exact h1, h2⟩
      · exact absurd h1 (hns _ _ _)
    · rintro ⟨l, h1, h2⟩
      left
      by_cases hij : i = j
      · subst hij
        rw [List.getElem?_set_self hlt] at h1
        cases h1
        exact ⟨k, hk, hg ▸ h2⟩
      · rw [List.getElem?_set_ne hij] at h1
        exact ⟨l, h1, h2⟩
  · intro j l hl
    by_cases hij : i = j
    · subst hij
      rw [List.getElem?_set_self hlt] at hl
      cases hl
      exact htask
    · rw [List.getElem?_set_ne hij] at hl
      refine (h.task j l hl).keep (happart j (Ne.symm hij)) (fun g hlg => hothers g fun hkg => ?_)
        (fun g hg => by rw [htaken]; exact hg)
      exact h.group_ne hk hl hij hkg hlg
  · intro j hj
    rw [List.length_set] at hj
    obtain ⟨a1, a2, a3⟩ := h.fresh j hj
    have ha := happart j (by omega)
    refine ⟨by rw [arrived_snoc, a1, ha.part]; rfl, ?_, ?_⟩
    · rw [finished_snoc]
      rintro (x | x)
      · exact a2 x
      · exact ha.finish x
    · rw [failed_snoc]
      rintro (x | ⟨y, z, x⟩)
      · exact a3 x
      · exact ha.fail _ _ x

/-- A step that changes nothing. -/
theorem Inv.same {tr : Trace} {s : State} (h : Inv tr s) {e : Op × Out} (ho : onTrack e = [])
    (hne : ∀ ok, e ≠ (.ended ok, .ok)) (hns : ∀ g rest j, e ≠ (.stream g rest, .inserted j))
    (ha : ∀ j, Apart e j) : Inv (tr ++ [e]) s := by
  have htr : trackTrace (tr ++ [e]) = trackTrace tr := by rw [trackTrace_snoc, ho, List.append_nil]
  have hend : ∀ ok, Ended (tr ++ [e]) ok ↔ Ended tr ok := by
    intro ok
    rw [ended_snoc]
    exact ⟨fun h => h.resolve_right (hne ok), .inl⟩
  refine ⟨by rw [htr]; exact h.track, by simp only [hend]; exact h.over, h.live,
    by rw [hend]; exact h.closed, by rw [hend]; exact h.aborted, by unfold taken; rw [htr]; exact h.next,
    by unfold taken; rw [htr]; exact h.groups, ?_, ?_, ?_⟩
  · intro i g
    rw [brings_snoc, ← h.brings]
    exact ⟨fun h => h.resolve_right fun ⟨x, hx⟩ => hns _ _ _ hx, .inl⟩
  · intro i k hk
    refine (h.task i k hk).keep (ha i) (fun g _ => ⟨rfl, by unfold frames; rw [htr]⟩)
      (fun g hg => by unfold taken; rw [htr]; exact hg)
  · intro i hi
    obtain ⟨a1, a2, a3⟩ := h.fresh i hi
    refine ⟨by rw [arrived_snoc, a1, (ha i).part]; rfl, ?_, ?_⟩
    · rw [finished_snoc]
      exact fun x => x.elim a2 (ha i).finish
    · rw [failed_snoc]
      exact fun x => x.elim a3 fun ⟨y, z, hx⟩ => (ha i).fail y z hx

/-! ## The end of a stream -/

theorem snoc_reach {tr : Track.Trace} {t : Track.State} (h : Track.machine.Reach tr t) (op : Track.Op)
    {o : Track.Out} (ho : (Track.step t op).1 = o) :
    Track.machine.Reach (tr ++ [(op, o)]) (Track.step t op).2 := by
  subst ho
  exact Machine.Reach.step (M := Track.machine) op h

theorem frames_snoc (tr : Trace) (e : Op × Out) (g : Nat) :
    frames (tr ++ [e]) g = frames tr g ++ Track.content (onTrack e) g := by
  unfold frames
  rw [trackTrace_snoc]
  unfold Track.content
  rw [List.flatMap_append]

theorem taken_snoc (tr : Trace) (e : Op × Out) :
    taken (tr ++ [e]) = taken tr ++ Track.accepted (onTrack e) := by
  unfold taken
  rw [trackTrace_snoc]
  unfold Track.accepted
  rw [List.filterMap_append]

/-- The group of a stream is ended. -/
theorem Inv.endTask {tr : Trace} {s : State} (h : Inv tr s) {i : Nat} {k : Task} {op : Op} {o : Out}
    (hk : s.tasks[i]? = some k) (hp : k.phase ≠ .over) (st : Status) (hst : st ≠ .live)
    (f : Nat → Track.Op)
    (hf : ∀ t g, Track.step t (f g) = Track.onGroup t g fun x => { x with status := st })
    (hon : onTrack (op, o) = (k.group.map fun g => (f g, Track.Out.ok)).toList)
    (hq : ∀ g g', Track.content [(f g, .ok)] g' = [] ∧ Track.accepted [(f g, .ok)] = [])
    (hne : ∀ ok, (op, o) ≠ (.ended ok, .ok))
    (hns : ∀ g rest j, (op, o) ≠ (.stream g rest, .inserted j)) (ha : ∀ j, Apart (op, o) j)
    (hc : st = .closed → ∀ g, k.group = some g → (Finished tr i ∧ k.reader.all = []) ∨
      (∃ g' ∈ taken tr, g < g') ∨ ∃ ok, Ended tr ok)
    (hb : st = .aborted → ∀ g, k.group = some g → Failed tr i ∨
      (Finished tr i ∧ k.reader.all ≠ [] ∧ P.frame k.reader.all = .short) ∨
      P.frame k.reader.all = .thrown .tooLarge ∨ Ended tr false) :
    Inv (tr ++ [(op, o)]) { put s i { k with phase := .over } with
      track := apply s.track (k.group.map f) } := by
  have ht := h.task i k hk
  have hkeep : taken (tr ++ [(op, o)]) = taken tr := by
    rw [taken_snoc, hon]
    cases k.group with
    | none => exact List.append_nil _
    | some g =>
      show _ ++ Track.accepted [(f g, .ok)] = _
      rw [(hq g g).2, List.append_nil]
  have hfr : ∀ g, frames (tr ++ [(op, o)]) g = frames tr g := by
    intro g
    rw [frames_snoc, hon]
    cases k.group with
    | none => exact List.append_nil _
    | some g' =>
      show _ ++ Track.content [(f g', .ok)] g = _
      rw [(hq g' g).1, List.append_nil]
  have hfin : Finished (tr ++ [(op, o)]) i ↔ Finished tr i := by
    rw [finished_snoc]
    exact ⟨fun h => h.resolve_right (ha i).finish, .inl⟩
  have hfail : Failed (tr ++ [(op, o)]) i ↔ Failed tr i := by
    rw [failed_snoc]
    exact ⟨fun h => h.resolve_right fun ⟨x, k, hk⟩ => (ha i).fail x k hk, .inl⟩
  have hend : ∀ ok, Ended (tr ++ [(op, o)]) ok ↔ Ended tr ok := by
    intro ok
    rw [ended_snoc]
    exact ⟨fun h => h.resolve_right (hne ok), .inl⟩
  show Inv (tr ++ [(op, o)])
    { s with track := apply s.track (k.group.map f), tasks := s.tasks.set i { k with phase := .over } }
  obtain hkg | ⟨g, hkg⟩ : k.group = none ∨ ∃ g, k.group = some g := by
    cases k.group
    · exact .inl rfl
    · exact .inr ⟨_, rfl⟩
  · rw [hkg] at hon
    have hap : apply s.track (k.group.map f) = s.track := by rw [hkg]; rfl
    rw [hap]
    refine Inv.set h (k' := { k with phase := .over }) hk rfl hne hns ?_ rfl rfl hkeep
      (fun g _ => ⟨rfl, hfr g⟩) (fun j _ => ha j) ?_
    · rw [hon]
      simpa using h.track
    · refine ⟨ht.pieces, by rw [hfin]; exact ht.fin, by rw [hfail]; exact ht.failed,
        fun hx => (by cases hx), fun g hg => ?_⟩
      have hg : k.group = some g := hg
      rw [hkg] at hg
      cases hg
  · rw [hkg] at hon
    have hap : apply s.track (k.group.map f) = (Track.step s.track (f g)).2 := by rw [hkg]; rfl
    rw [hap]
    obtain ⟨x, hx⟩ := ht.group g hkg
    obtain ⟨s1, s2⟩ := group_step hx.found (hx.live.1 hp) (fun x => { x with status := st })
      fun _ => rfl
    rw [← hf] at s1 s2
    refine Inv.set h (k' := { k with phase := .over }) hk rfl hne hns ?_ s2.status s2.next hkeep
      (fun g' hg' => ⟨s2.other g' fun he => hg' (by rw [hkg, he]), hfr g'⟩) (fun j _ => ha j) ?_
    · rw [hon]
      exact snoc_reach h.track (f g) s1
    · refine ⟨ht.pieces, by rw [hfin]; exact ht.fin, by rw [hfail]; exact ht.failed,
        fun hx => (by cases hx), fun g' hg' => ?_⟩
      have hg' : k.group = some g' := hg'
      rw [hkg] at hg'
      cases hg'
      refine ⟨_, s2.this, ?_, ?_, ?_, ?_⟩
      · exact ⟨fun hx => absurd rfl hx, fun hx => absurd hx hst⟩
      · rw [arrived_snoc, (ha i).part, List.append_nil, hfr, hfail]
        exact hx.bytes
      · intro he
        rw [hfin, hkeep]
        simp only [hend]
        exact hc he g hkg
      · intro he
        rw [hfin, hfail, hend]
        exact hb he g hkg

theorem Inv.close {tr : Trace} {s : State} (h : Inv tr s) {i : Nat} {k : Task} {op : Op}
    (hk : s.tasks[i]? = some k) (hp : k.phase ≠ .over)
    (hop : op = .race i ∨ op = .frame i ∨ op = .unusedGroup i ∨ op = .unusedTrack i)
    (hc : ∀ g, k.group = some g → (Finished tr i ∧ k.reader.all = []) ∨
      (∃ g' ∈ taken tr, g < g') ∨ ∃ ok, Ended tr ok) :
    Inv (tr ++ [(op, (close s i k).1)]) (close s i k).2 := by
  refine h.endTask (op := op) (o := .closed k.group) hk hp .closed (by simp) .closeGroup
    (fun _ _ => rfl) ?_ (fun _ _ => ⟨rfl, rfl⟩) ?_ ?_ ?_ (fun _ => hc) (fun h => by cases h)
  · rcases hop with rfl | rfl | rfl | rfl <;> cases k.group <;> rfl
  · intro ok hx; cases hx
  · intro g r j hx; cases hx
  · intro j
    rcases hop with rfl | rfl | rfl | rfl <;>
      exact ⟨rfl, fun hx => (by cases hx), fun _ _ hx => (by cases hx)⟩

theorem Inv.abort {tr : Trace} {s : State} (h : Inv tr s) {i : Nat} {k : Task} {op : Op}
    (hk : s.tasks[i]? = some k) (hp : k.phase ≠ .over)
    (hop : op = .race i ∨ op = .frame i ∨ op = .unusedGroup i ∨ op = .unusedTrack i)
    (hc : ∀ g, k.group = some g → Failed tr i ∨
      (Finished tr i ∧ k.reader.all ≠ [] ∧ P.frame k.reader.all = .short) ∨
      P.frame k.reader.all = .thrown .tooLarge ∨ Ended tr false) :
    Inv (tr ++ [(op, (abort s i k).1)]) (abort s i k).2 := by
  refine h.endTask (op := op) (o := .aborted k.group) hk hp .aborted (by simp) .abortGroup
    (fun _ _ => rfl) ?_ (fun _ _ => ⟨rfl, rfl⟩) ?_ ?_ ?_ (fun h => by cases h) (fun _ => hc)
  · rcases hop with rfl | rfl | rfl | rfl <;> cases k.group <;> rfl
  · intro ok hx; cases hx
  · intro g r j hx; cases hx
  · intro j
    rcases hop with rfl | rfl | rfl | rfl <;>
      exact ⟨rfl, fun hx => (by cases hx), fun _ _ hx => (by cases hx)⟩

/-- A frame is written. -/
theorem Inv.write {tr : Trace} {s : State} (h : Inv tr s) {i : Nat} {k : Task} {b : Bytes} {r : Reader}
    (hk : s.tasks[i]? = some k) (hp : k.phase = .frame) (hd : decodeFrame k.reader = (.ok b, r)) :
    Inv (tr ++ [(.frame i, .wrote k.group b)])
      { put s i { k with reader := r, phase := .idle } with
        track := apply s.track (k.group.map fun g => .write g b) } := by
  have ht := h.task i k hk
  have hno : k.phase ≠ .over := by rw [hp]; simp
  have ha : ∀ j, Apart ((.frame i, .wrote k.group b) : Op × Out) j := fun j =>
    ⟨rfl, fun hx => (by cases hx), fun _ _ hx => (by cases hx)⟩
  have hne : ∀ ok, ((.frame i, .wrote k.group b) : Op × Out) ≠ (.ended ok, .ok) :=
    fun ok hx => (by cases hx)
  have hns : ∀ g rest j, ((.frame i, .wrote k.group b) : Op × Out) ≠ (.stream g rest, .inserted j) :=
    fun g rest j hx => (by cases hx)
  -- the reader
  obtain ⟨i1, i2, i3⟩ := imp_frame k.reader
  obtain ⟨rest, hpar⟩ : ∃ rest, P.frame k.reader.all = .ok b rest := by
    cases hpf : P.frame k.reader.all with
    | ok b' rest =>
      obtain ⟨r', e1, -, -⟩ := i1 b' rest hpf
      rw [hd] at e1
      cases e1
      exact ⟨rest, rfl⟩
    | thrown e =>
      have := i2 e hpf
      rw [hd] at this
      cases this
    | short =>
      have := i3 hpf
      rw [hd] at this
      unfold starved at this
      split at this <;> cases this
  obtain ⟨r', e1, e2, e3⟩ := i1 b rest hpar
  rw [hd] at e1
  cases e1
  obtain ⟨u, hu, hblob, hsafe⟩ := frame_inv hpar
  have hpieces : ∀ c ∈ r.stream.chunks, c ≠ [] := by
    intro c hc
    have hkp := keeps_frame k.reader
    rw [hd] at hkp
    exact ht.pieces c (hkp.subset hc)
  have htak : taken (tr ++ [(.frame i, .wrote k.group b)]) = taken tr := by
    rw [taken_snoc]
    cases k.group <;> exact List.append_nil _
  have hfin : Finished (tr ++ [(.frame i, .wrote k.group b)]) i ↔ Finished tr i := by
    rw [finished_snoc]
    exact ⟨fun h => h.resolve_right (ha i).finish, .inl⟩
  have hfail : Failed (tr ++ [(.frame i, .wrote k.group b)]) i ↔ Failed tr i := by
    rw [failed_snoc]
    exact ⟨fun h => h.resolve_right fun ⟨x, k, hk⟩ => (ha i).fail x k hk, .inl⟩
  show Inv (tr ++ [(.frame i, .wrote k.group b)])
    { s with
      track := apply s.track (k.group.map fun g => .write g b)
      tasks := s.tasks.set i { k with reader := r, phase := .idle } }
  obtain hkg | ⟨g, hkg⟩ : k.group = none ∨ ∃ g, k.group = some g := by
    cases k.group
    · exact .inl rfl
    · exact .inr ⟨_, rfl⟩
  · have hap : apply s.track (k.group.map fun g => Track.Op.write g b) = s.track := by rw [hkg]; rfl
    have hon : onTrack (.frame i, .wrote k.group b) = [] := by rw [hkg]; rfl
    rw [hap]
    refine Inv.set h (k' := { k with reader := r, phase := .idle }) hk rfl hne hns ?_ rfl rfl htak
      (fun g _ => ⟨rfl, by rw [frames_snoc, hon]; exact List.append_nil _⟩) (fun j _ => ha j) ?_
    · rw [hon, List.append_nil]
      exact h.track
    · refine ⟨hpieces, by rw [hfin, ← ht.fin, ← e3], by rw [hfail, ← ht.failed, ← e3],
        fun hx => (by cases hx), fun g hg => ?_⟩
      have hg : k.group = some g := hg
      rw [hkg] at hg
      cases hg
  · have hap : apply s.track (k.group.map fun g => Track.Op.write g b) =
        (Track.step s.track (.write g b)).2 := by rw [hkg]; rfl
    have hon : onTrack (.frame i, .wrote k.group b) = [(.write g b, .ok)] := by rw [hkg]; rfl
    rw [hap]
    obtain ⟨x, hx⟩ := ht.group g hkg
    obtain ⟨s1, s2⟩ := group_step hx.found (hx.live.1 hno)
      (fun x => { x with frames := x.frames ++ [b] }) fun _ => rfl
    have hfr : frames (tr ++ [(.frame i, .wrote k.group b)]) g = frames tr g ++ [b] := by
      rw [frames_snoc, hon]
      simp [Track.content]
    refine Inv.set h (k' := { k with reader := r, phase := .idle }) hk rfl hne hns ?_ s2.status s2.next
      htak (fun g' hg' => ?_) (fun j _ => ha j) ?_
    · rw [hon]
      exact snoc_reach h.track (.write g b) s1
    · have hne' : g' ≠ g := fun he => hg' (by rw [hkg, he])
      refine ⟨s2.other g' hne', ?_⟩
      rw [frames_snoc, hon]
      simp [Track.content, Ne.symm hne']
    · refine ⟨hpieces, by rw [hfin, ← ht.fin, ← e3], by rw [hfail, ← ht.failed, ← e3],
        fun hx => (by cases hx), fun g' hg' => ?_⟩
      have hg' : k.group = some g' := hg'
      rw [hkg] at hg'
      cases hg'
      refine ⟨_, s2.this, ?_, ?_, ?_, ?_⟩
      · exact ⟨fun _ => hx.live.1 hno, fun _ hx => (by cases hx)⟩
      · rw [arrived_snoc, (ha i).part, List.append_nil, hfr, hfail]
        obtain ⟨used, lost, b1, b2, b3, b4⟩ := hx.bytes
        refine ⟨used ++ u, lost, ?_, items_snoc b2 hblob, ?_, b4⟩
        · rw [b1, hu]
          show _ = used ++ u ++ r.all ++ lost
          rw [e2]
          simp
        · intro f hf
          rcases List.mem_append.1 hf with hf | hf
          · exact b3 f hf
          · rw [List.mem_singleton.1 hf]
            exact hsafe
      · intro he
        have he : x.status = .closed := he
        rw [hx.live.1 hno] at he
        cases he
      · intro he
        have he : x.status = .aborted := he
        rw [hx.live.1 hno] at he
        cases he

/-- More of a stream arrives, or its end. -/
theorem Inv.receive {tr : Trace} {s : State} (h : Inv tr s) {i : Nat} {k : Task} {op : Op}
    (hk : s.tasks[i]? = some k) (chunks : List Bytes) (e : Verif.Session.StreamEnd) (lost : Bytes)
    (ho : k.open = true) (hop : onTrack (op, .ok) = [])
    (hne : ∀ ok, (op, Out.ok) ≠ (.ended ok, .ok)) (ha : ∀ j, j ≠ i → Apart (op, .ok) j)
    (hpieces : ∀ c ∈ chunks, c ≠ [])
    (hbytes : k.reader.stream.chunks.flatten ++ part i (op, .ok) = chunks.flatten ++ lost)
    (hlost : (∀ x n, op ≠ .fail i x n) → lost = [])
    (hfin : op = .finish i ↔ e = .fin) (hfail : (∃ x n, op = .fail i x n) ↔ ∃ x, e = .failed x) :
    Inv (tr ++ [(op, .ok)]) (put s i { k with reader := ⟨k.reader.buffer, ⟨chunks, e⟩⟩ }) := by
  have ht := h.task i k hk
  unfold Task.open at ho
  simp only [decide_eq_true_eq] at ho
  obtain ⟨ho1, ho2⟩ := ho
  have nfin : ¬ Finished tr i := by rw [← ht.fin, ho2]; simp
  have nfail : ¬ Failed tr i := by rw [← ht.failed, ho2]; simp
  have hkeep : taken (tr ++ [(op, .ok)]) = taken tr := by
    rw [taken_snoc, hop]
    exact List.append_nil _
  have hfr : ∀ g, frames (tr ++ [(op, .ok)]) g = frames tr g := by
    intro g
    rw [frames_snoc, hop]
    exact List.append_nil _
  have f1 : Finished (tr ++ [(op, .ok)]) i ↔ op = .finish i := by
    rw [finished_snoc]
    simp [nfin]
  have f2 : Failed (tr ++ [(op, .ok)]) i ↔ ∃ x n, op = .fail i x n := by
    rw [failed_snoc]
    simp [nfail]
  refine Inv.set h (k' := { k with reader := ⟨k.reader.buffer, ⟨chunks, e⟩⟩ }) hk rfl hne
    (fun g r j hx => (by cases hx)) (by rw [hop, List.append_nil]; exact h.track) rfl rfl hkeep
    (fun g _ => ⟨rfl, hfr g⟩) ha ?_
  refine ⟨hpieces, ?_, ?_, ?_, ?_⟩
  · rw [f1]
    exact hfin.symm
  · rw [f2]
    exact hfail.symm
  · exact ht.full
  · intro g hg
    obtain ⟨x, hx⟩ := ht.group g hg
    refine ⟨x, hx.found, hx.live, ?_, ?_, ?_⟩
    · obtain ⟨used, lost', b1, b2, b3, b4⟩ := hx.bytes
      have : lost' = [] := b4 nfail
      subst this
      refine ⟨used, lost, ?_, by rw [hfr]; exact b2, by rw [hfr]; exact b3, ?_⟩
      · rw [arrived_snoc, b1]
        show used ++ (k.reader.buffer ++ k.reader.stream.chunks.flatten) ++ [] ++ _ =
          used ++ (k.reader.buffer ++ chunks.flatten) ++ lost
        rw [List.append_nil, List.append_assoc, List.append_assoc, hbytes]
        simp
      · intro hn
        refine hlost fun y n hy => hn (f2.2 ⟨y, n, hy⟩)
    · intro he
      rw [hx.live.1 ho1] at he
      cases he
    · intro he
      rw [hx.live.1 ho1] at he
      cases he

/-! ## Steps that are not about one stream -/

/-- The streams stay as they are. -/
theorem Inv.whole {tr : Trace} {s s' : State} (h : Inv tr s) {e : Op × Out}
    (htasks : s'.tasks = s.tasks)
    (hreach : Track.machine.Reach (trackTrace tr ++ onTrack e) s'.track)
    (hover : s'.over = true ↔ ∃ ok, Ended (tr ++ [e]) ok)
    (hlive : s'.over = false ↔ s'.track.status = .live)
    (hclosed : s'.track.status = .closed ↔ Ended (tr ++ [e]) true)
    (haborted : s'.track.status = .aborted ↔ Ended (tr ++ [e]) false)
    (hnext : s'.track.next = s.track.next) (htaken : taken (tr ++ [e]) = taken tr)
    (hgroups : s'.track.groups = s.track.groups) (hfr : ∀ g, frames (tr ++ [e]) g = frames tr g)
    (hns : ∀ g rest j, e ≠ (.stream g rest, .inserted j)) (ha : ∀ j, Apart e j) :
    Inv (tr ++ [e]) s' := by
  have hfind : ∀ g, Track.find s'.track g = Track.find s.track g := fun g => by
    unfold Track.find
    rw [hgroups]
  refine ⟨by rw [trackTrace_snoc]; exact hreach, hover, hlive, hclosed, haborted,
    by rw [hnext, htaken]; exact h.next, by rw [htaken, htasks]; exact h.groups, ?_, ?_, ?_⟩
  · intro i g
    rw [brings_snoc, htasks, ← h.brings]
    exact ⟨fun h => h.resolve_right fun ⟨x, hx⟩ => hns _ _ _ hx, .inl⟩
  · intro i k hk
    rw [htasks] at hk
    exact (h.task i k hk).keep (ha i) (fun g _ => ⟨hfind g, hfr g⟩) (fun g hg => by rw [htaken]; exact hg)
  · intro i hi
    rw [htasks] at hi
    obtain ⟨a1, a2, a3⟩ := h.fresh i hi
    refine ⟨by rw [arrived_snoc, a1, (ha i).part]; rfl, ?_, ?_⟩
    · rw [finished_snoc]
      exact fun x => x.elim a2 (ha i).finish
    · rw [failed_snoc]
      exact fun x => x.elim a3 fun ⟨y, z, hx⟩ => (ha i).fail y z hx

theorem Inv.reads {tr : Trace} {s : State} (h : Inv tr s) {op : Track.Op} (hr : reads op = true) :
    Inv (tr ++ [(.track op, .track (Track.step s.track op).1)])
      { s with track := (Track.step s.track op).2 } := by
  obtain ⟨k1, k2, k3, -⟩ := reads_keeps hr s.track
  obtain ⟨q1, q2⟩ := reads_silent hr (Track.step s.track op).1
  have hend : ∀ ok, Ended (tr ++ [(.track op, .track (Track.step s.track op).1)]) ok ↔ Ended tr ok := by
    intro ok
    rw [ended_snoc]
    exact ⟨fun h => h.resolve_right fun hx => (by cases hx), .inl⟩
  refine h.whole (s' := { s with track := (Track.step s.track op).2 }) rfl (snoc_reach h.track op rfl)
    (by simp only [hend]; exact h.over) (by rw [k2]; exact h.live) (by rw [hend, k2]; exact h.closed)
    (by rw [hend, k2]; exact h.aborted) k3 ?_ k1 ?_ (fun g r j hx => (by cases hx))
    (fun j => ⟨rfl, fun hx => (by cases hx), fun _ _ hx => (by cases hx)⟩)
  · unfold taken
    rw [trackTrace_snoc]
    show Track.accepted (_ ++ [(op, _)]) = _
    rw [Track.accepted_snoc, q1]
    simp
  · intro g
    unfold frames
    rw [trackTrace_snoc]
    show Track.content (_ ++ [(op, _)]) g = _
    rw [Track.content_snoc, q2]
    simp

theorem Inv.ended {tr : Trace} {s : State} (h : Inv tr s) (hs : s.over = false) (ok : Bool) :
    Inv (tr ++ [(.ended ok, .ok)])
      { s with
        track := (Track.step s.track (if ok then .close else .abort)).2
        over := true } := by
  have hl := h.live.1 hs
  have hno : ∀ ok, ¬ Ended tr ok := by
    intro ok hx
    have := h.over.2 ⟨ok, hx⟩
    rw [hs] at this
    cases this
  have hend : ∀ ok', Ended (tr ++ [(.ended ok, .ok)]) ok' ↔ ok' = ok := by
    intro ok'
    rw [ended_snoc]
    simp [hno, eq_comm]
  cases ok with
  | true =>
    have he : Track.step s.track .close = (.ok, { Track.update s.track none with status := .closed }) := by
      unfold Track.step
      dsimp only
      rw [if_pos hl]
    refine h.whole rfl (snoc_reach h.track .close (by rw [he])) ?_ ?_ ?_ ?_ ?_ ?_ ?_ ?_ ?_ ?_
    · simp [hend]
    · show true = false ↔ (Track.step s.track .close).2.status = .live
      rw [he]
      simp
    · show (Track.step s.track .close).2.status = .closed ↔ _
      rw [he, hend]
      simp
    · show (Track.step s.track .close).2.status = .aborted ↔ _
      rw [he, hend]
      simp
    · show (Track.step s.track .close).2.next = _
      rw [he]
      rfl
    · rw [taken_snoc]
      exact List.append_nil _
    · show (Track.step s.track .close).2.groups = _
      rw [he]
      rfl
    · intro g
      rw [frames_snoc]
      exact List.append_nil _
    · intro g r j hx
      cases hx
    · exact fun j => ⟨rfl, fun hx => (by cases hx), fun _ _ hx => (by cases hx)⟩
  | false =>
    have he : Track.step s.track .abort = (.ok, { Track.update s.track none with status := .aborted }) := by
      unfold Track.step
      dsimp only
      rw [if_pos hl]
    refine h.whole rfl (snoc_reach h.track .abort (by rw [he])) ?_ ?_ ?_ ?_ ?_ ?_ ?_ ?_ ?_ ?_
    · simp [hend]
    · show true = false ↔ (Track.step s.track .abort).2.status = .live
      rw [he]
      simp
    · show (Track.step s.track .abort).2.status = .closed ↔ _
      rw [he, hend]
      simp
    · show (Track.step s.track .abort).2.status = .aborted ↔ _
      rw [he, hend]
      simp
    · show (Track.step s.track .abort).2.next = _
      rw [he]
      rfl
    · rw [taken_snoc]
      exact List.append_nil _
    · show (Track.step s.track .abort).2.groups = _
      rw [he]
      rfl
    · intro g
      rw [frames_snoc]
      exact List.append_nil _
    · intro g r j hx
      cases hx
    · exact fun j => ⟨rfl, fun hx => (by cases hx), fun _ _ hx => (by cases hx)⟩

/-! ## A new stream -/

theorem apart_stream {g i j : Nat} {rest : Bytes} (h : i ≠ j) :
    Apart (.stream g rest, .inserted i) j ∧ Apart (.stream g rest, .dropped i) j :=
  ⟨⟨if_neg h, fun hx => (by cases hx), fun _ _ hx => (by cases hx)⟩,
    ⟨if_neg h, fun hx => (by cases hx), fun _ _ hx => (by cases hx)⟩⟩

/-- A stream is added. -/
theorem Inv.push {tr : Trace} {s : State} (h : Inv tr s) {e : Op × Out} {g0 : Nat} {rest : Bytes}
    {t' : Track.State} {og : Option Nat}
    (he : (og = some g0 ∧ e = (.stream g0 rest, .inserted s.tasks.length)) ∨
      (og = none ∧ e = (.stream g0 rest, .dropped s.tasks.length)))
    (hreach : Track.machine.Reach (trackTrace tr ++ onTrack e) t')
    (hstatus : t'.status = s.track.status)
    (hnext : t'.next = ((taken (tr ++ [e])).getLast?.map (· + 1)).getD 0)
    (hfind : ∀ g x, Track.find s.track g = some x → Track.find t' g = some x)
    (hnew : og = some g0 → Track.find t' g0 = some ⟨g0, [], .live⟩)
    (hempty : og = some g0 → frames tr g0 = []) :
    Inv (tr ++ [e]) { s with
      track := t'
      tasks := s.tasks ++ [⟨og, ⟨rest, ⟨[], .idle⟩⟩, .idle⟩] } := by
  have hne : ∀ ok, e ≠ (.ended ok, .ok) := by
    intro ok hx
    rcases he with ⟨-, rfl⟩ | ⟨-, rfl⟩ <;> cases hx
  have ha : ∀ j, s.tasks.length ≠ j → Apart e j := by
    intro j hj
    rcases he with ⟨-, rfl⟩ | ⟨-, rfl⟩
    · exact (apart_stream hj).1
    · exact (apart_stream hj).2
  have hend : ∀ ok, Ended (tr ++ [e]) ok ↔ Ended tr ok := by
    intro ok
    rw [ended_snoc]
    exact ⟨fun h => h.resolve_right (hne ok), .inl⟩
  have htaken : taken (tr ++ [e]) = taken tr ++ og.toList := by
    rw [taken_snoc]
    rcases he with ⟨rfl, rfl⟩ | ⟨rfl, rfl⟩ <;> rfl
  have hfr : ∀ g, frames (tr ++ [e]) g = frames tr g := by
    intro g
    rw [frames_snoc]
    rcases he with ⟨-, rfl⟩ | ⟨-, rfl⟩
    · simp [onTrack, Track.content]
    · exact List.append_nil _
  have hbr : ∀ i g, Brings (tr ++ [e]) i g ↔ Brings tr i g ∨ (i = s.tasks.length ∧ og = some g) := by
    intro i g
    rw [brings_snoc]
    rcases he with ⟨rfl, rfl⟩ | ⟨rfl, rfl⟩
    · constructor
      · rintro (h | ⟨r, h⟩)
        · exact .inl h
        · cases h
          exact .inr ⟨rfl, rfl⟩
      · rintro (h | ⟨rfl, h⟩)
        · exact .inl h
        · cases h
          exact .inr ⟨rest, rfl⟩
    · constructor
      · rintro (h | ⟨r, h⟩)
        · exact .inl h
        · cases h
      · rintro (h | ⟨-, h⟩)
        · exact .inl h
        · cases h
  have hpart : part s.tasks.length e = rest := by
    rcases he with ⟨-, rfl⟩ | ⟨-, rfl⟩ <;> exact if_pos rfl
  obtain ⟨n1, n2, n3⟩ := h.fresh s.tasks.length (Nat.le_refl _)
  have nfin : ¬ Finished (tr ++ [e]) s.tasks.length := by
    rw [finished_snoc]
    rintro (x | rfl)
    · exact n2 x
    · rcases he with ⟨-, h⟩ | ⟨-, h⟩ <;> cases h
  have nfail : ¬ Failed (tr ++ [e]) s.tasks.length := by
    rw [failed_snoc]
    rintro (x | ⟨y, z, rfl⟩)
    · exact n3 x
    · rcases he with ⟨-, h⟩ | ⟨-, h⟩ <;> cases h
  refine ⟨by rw [trackTrace_snoc]; exact hreach, by simp only [hend]; exact h.over,
    by rw [hstatus]; exact h.live, by rw [hstatus, hend]; exact h.closed,
    by rw [hstatus, hend]; exact h.aborted, hnext, ?_, ?_, ?_, ?_⟩
  · rw [htaken, h.groups]
    cases og <;> simp
  · intro i g
    rw [hbr, h.brings]
    constructor
    · rintro (⟨k, h1, h2⟩ | ⟨rfl, h2⟩)
      · exact ⟨k, by
          rw [List.getElem?_append_left (List.getElem?_eq_some_iff.1 h1).1]
          exact h1, h2⟩
      · exact ⟨_, List.getElem?_concat_length, h2⟩
    · rintro ⟨k, h1, h2⟩
      by_cases hi : i < s.tasks.length
      · rw [List.getElem?_append_left hi] at h1
        exact .inl ⟨k, h1, h2⟩
      · have hlt := (List.getElem?_eq_some_iff.1 h1).1
        rw [List.length_append, List.length_singleton] at hlt
        have : i = s.tasks.length := by omega
        subst this
        rw [List.getElem?_concat_length] at h1
        cases h1
        exact .inr ⟨rfl, h2⟩
  · intro i k hk
    by_cases hi : i < s.tasks.length
    · rw [List.getElem?_append_left hi] at hk
      refine (h.task i k hk).keep (ha i (by omega)) (fun g hg => ⟨?_, hfr g⟩)
        (fun g hg => by rw [htaken]; exact List.mem_append_left _ hg)
      obtain ⟨x, hx⟩ := (h.task i k hk).group g hg
      rw [hx.found, hfind g x hx.found]
    · have hlt := (List.getElem?_eq_some_iff.1 hk).1
      rw [List.length_append, List.length_singleton] at hlt
      have : i = s.tasks.length := by omega
      subst this
      rw [List.getElem?_concat_length] at hk
      cases hk
      refine ⟨fun c hc => (by cases hc), ⟨fun hx => (by cases hx), fun hx => absurd hx nfin⟩,
        ⟨fun ⟨y, hx⟩ => (by cases hx), fun hx => absurd hx nfail⟩, fun hx => (by cases hx), fun g hg => ?_⟩
      have hg : og = some g := hg
      have hgg : g = g0 := by
        rcases he with ⟨h1, -⟩ | ⟨h1, -⟩
        · rw [h1] at hg
          cases hg
          rfl
        · rw [h1] at hg
          cases hg
      subst hgg
      refine ⟨_, hnew hg, ⟨fun _ => rfl, fun _ hx => (by cases hx)⟩, ⟨[], [], ?_, ?_, ?_, fun _ => rfl⟩,
        fun hx => (by cases hx), fun hx => (by cases hx)⟩
      · rw [arrived_snoc, n1, hpart]
        simp [Reader.all]
      · rw [hfr, hempty hg]
        exact .nil
      · rw [hfr, hempty hg]
        intro f hf
        cases hf
  · intro i hi
    rw [List.length_append, List.length_singleton] at hi
    obtain ⟨a1, a2, a3⟩ := h.fresh i (by omega)
    have hai := ha i (by omega)
    refine ⟨by rw [arrived_snoc, a1, hai.part]; rfl, ?_, ?_⟩
    · rw [finished_snoc]
      exact fun x => x.elim a2 hai.finish
    · rw [failed_snoc]
      exact fun x => x.elim a3 fun ⟨y, z, hx⟩ => hai.fail y z hx

/-- What the track does with a new group. -/
theorem insert_cases {t : Track.State} (hl : t.status = .live) (g : Nat) :
    (g < t.next ∧ Track.step t (.insert g [] .live) = (.dropped, t)) ∨
    (t.next ≤ g ∧ Track.step t (.insert g [] .live) = (.ok, { Track.update t (some g) with
      next := g + 1
      groups := t.groups ++ [⟨g, [], .live⟩] })) := by
  unfold Track.step
  dsimp only
  by_cases h : g < t.next
  · rw [if_pos h]
    exact .inl ⟨h, rfl⟩
  · rw [if_neg h]
    unfold Track.add
    rw [if_pos hl]
    exact .inr ⟨by omega, rfl⟩

theorem Inv.stream {tr : Trace} {s : State} (h : Inv tr s) (g : Nat) (rest : Bytes) :
    Inv (tr ++ [(.stream g rest, (step s (.stream g rest)).1)]) (step s (.stream g rest)).2 := by
  unfold step
  dsimp only
  by_cases hs : s.over = true
  · rw [if_pos hs]
    exact h.same rfl (fun ok hx => (by cases hx)) (fun g r j hx => (by cases hx))
      fun j => ⟨rfl, fun hx => (by cases hx), fun _ _ hx => (by cases hx)⟩
  · rw [if_neg hs]
    have hl := h.live.1 (by simpa using hs)
    rcases insert_cases hl g with ⟨h1, h2⟩ | ⟨h1, h2⟩
    · rw [h2]
      have hr : Track.machine.Reach (trackTrace tr ++ [(.insert g [] .live, .dropped)]) s.track := by
        have := snoc_reach h.track (.insert g [] .live) (by rw [h2])
        rw [h2] at this
        exact this
      refine h.push (g0 := g) (rest := rest) (og := none) (.inr ⟨rfl, rfl⟩) hr rfl ?_ (fun _ _ hx => hx)
        (fun hx => (by cases hx)) (fun hx => (by cases hx))
      have : taken (tr ++ [((.stream g rest, .dropped s.tasks.length) : Op × Out)]) = taken tr := by
        rw [taken_snoc]
        exact List.append_nil _
      rw [this]
      exact h.next
    · rw [h2]
      have hr := snoc_reach h.track (.insert g [] .live) (o := .ok) (by rw [h2])
      rw [h2] at hr
      have gi := (Track.inv_reach h.track).track
      have hnew : g ∉ taken tr := fun hm => by
        have := gi.below g hm
        omega
      refine h.push (g0 := g) (rest := rest) (og := some g) (.inl ⟨rfl, rfl⟩) hr rfl ?_ ?_ ?_ ?_
      · rw [taken_snoc]
        show g + 1 = (((_ ++ [g]).getLast?).map (· + 1)).getD 0
        simp
      · intro g' x hx
        unfold Track.find at hx ⊢
        show (s.track.groups ++ [_]).find? _ = some x
        rw [List.find?_append, hx]
        rfl
      · intro _
        unfold Track.find
        show (s.track.groups ++ [_]).find? _ = _
        have : s.track.groups.find? (fun x => x.id = g) = none := by
          rw [List.find?_eq_none]
          intro x hx hxg
          apply hnew
          have : x.id ∈ Track.ids s.track := List.mem_map.2 ⟨x, hx, rfl⟩
          rw [gi.ids] at this
          simpa using (by simpa using hxg : x.id = g) ▸ this
        rw [List.find?_append, this]
        simp
      · intro _
        exact gi.nothing g hnew

/-! ## Every step -/

theorem done_full {r r' : Reader} (hr : ∀ c ∈ r.stream.chunks, c ≠ []) (h : done r = (.ok false, r')) :
    r'.buffer ≠ [] := by
  obtain ⟨buffer, chunks, ending⟩ := r
  unfold done at h
  split at h
  · rename_i hb
    cases h
    exact List.ne_nil_of_length_pos hb
  · rename_i hb
    have hb : buffer = [] := List.length_eq_zero_iff.1 (by simp only at hb; omega)
    subst hb
    cases chunks with
    | nil => cases ending <;> cases h
    | cons c cs =>
      cases h
      exact hr c (by simp)

/-- `done` sees the end only when nothing is left, and gives up only on a stream that failed. -/
theorem done_cases (r : Reader) (hr : ∀ c ∈ r.stream.chunks, c ≠ []) :
    (r.all ≠ [] ∧ ∃ r', done r = (.ok false, r') ∧ r'.all = r.all ∧ r'.stream.ending = r.stream.ending ∧
      r'.stream.chunks <:+ r.stream.chunks ∧ r'.buffer ≠ []) ∨
    (r.all = [] ∧ r.stream.ending = .fin ∧ (done r).1 = .ok true) ∨
    (r.all = [] ∧ (∃ e, r.stream.ending = .failed e) ∧ ∃ e, (done r).1 = .thrown e) ∨
    (r.all = [] ∧ r.stream.ending = .idle ∧ (done r).1 = .waiting) := by
  by_cases h : r.all = []
  · have := done_end r hr h
    cases he : r.stream.ending with
    | fin =>
      rw [he] at this
      exact .inr (.inl ⟨h, rfl, this⟩)
    | failed e =>
      rw [he] at this
      exact .inr (.inr (.inl ⟨h, ⟨e, rfl⟩, _, this⟩))
    | idle =>
      rw [he] at this
      exact .inr (.inr (.inr ⟨h, rfl, this⟩))
  · obtain ⟨r', h1, h2, h3, h4⟩ := done_more r hr h
    exact .inl ⟨h, r', h1, h2, h3, h4, done_full hr h1⟩

/-- What reading a frame gives. -/
theorem frame_cases (r : Reader) :
    (∃ b rest r', P.frame r.all = .ok b rest ∧ decodeFrame r = (.ok b, r') ∧ r'.all = rest ∧
      r'.stream.ending = r.stream.ending) ∨
    (P.frame r.all = .thrown .tooLarge ∧ ∃ e, (decodeFrame r).1 = .thrown e) ∨
    (P.frame r.all = .short ∧ (decodeFrame r).1 = starved r.stream.ending) := by
  obtain ⟨i1, i2, i3⟩ := imp_frame r
  cases h : P.frame r.all with
  | ok b rest =>
    obtain ⟨r', e1, e2, e3⟩ := i1 b rest h
    exact .inl ⟨b, rest, r', rfl, e1, e2, e3⟩
  | thrown e =>
    have he : e = .tooLarge := by
      unfold P.frame P.bind at h
      split at h
      · unfold P.take at h
        dsimp only at h
        split at h <;> cases h
      · rename_i e' hu
        cases h
        unfold P.u53 P.bind at hu
        split at hu
        · dsimp only at hu
          split at hu
          · cases hu
            rfl
          · cases hu
        · rename_i hv
          unfold P.u62 at hv
          split at hv <;> cases hv
        · cases hu
      · cases h
    subst he
    exact .inr (.inl ⟨rfl, _, i2 _ h⟩)
  | short => exact .inr (.inr ⟨rfl, i3 h⟩)

theorem Inv.race {tr : Trace} {s : State} (h : Inv tr s) {i : Nat} {k : Task}
    (hk : s.tasks[i]? = some k) :
    Inv (tr ++ [(.race i, (race s i k).1)]) (race s i k).2 := by
  have ht := h.task i k hk
  have same : ∀ o, o = .pending ∨ o = .invalid → Inv (tr ++ [(.race i, o)]) s := by
    intro o ho
    refine h.same ?_ (fun ok hx => (by cases hx)) (fun g r j hx => (by cases hx)) fun j => ⟨?_, ?_, ?_⟩
    · rcases ho with rfl | rfl <;> rfl
    · rcases ho with rfl | rfl <;> rfl
    · intro hx; cases hx
    · intro _ _ hx; cases hx
  unfold Receive.race
  cases hp : k.phase with
  | frame => exact same _ (.inr rfl)
  | over => exact same _ (.inr rfl)
  | idle =>
    have hno : k.phase ≠ .over := by rw [hp]; simp
    dsimp only
    rcases done_cases k.reader ht.pieces with ⟨-, r', h1, h2, h3, h4, h5⟩ | ⟨h1, h2, h3⟩ |
      ⟨h1, ⟨e, h2⟩, e', h3⟩ | ⟨h1, h2, h3⟩
    · rw [h1]
      dsimp only
      have ha : ∀ j, Apart ((.race i, .ok) : Op × Out) j := fun j =>
        ⟨rfl, fun hx => (by cases hx), fun _ _ hx => (by cases hx)⟩
      have hfin : Finished (tr ++ [(.race i, .ok)]) i ↔ Finished tr i := by
        rw [finished_snoc]
        exact ⟨fun h => h.resolve_right (ha i).finish, .inl⟩
      have hfail : Failed (tr ++ [(.race i, .ok)]) i ↔ Failed tr i := by
        rw [failed_snoc]
        exact ⟨fun h => h.resolve_right fun ⟨x, k, hk⟩ => (ha i).fail x k hk, .inl⟩
      have hfr : ∀ g, frames (tr ++ [(.race i, .ok)]) g = frames tr g := fun g => by
        rw [frames_snoc]
        exact List.append_nil _
      refine Inv.set h (k' := { k with reader := r', phase := .frame }) hk rfl
        (fun ok hx => (by cases hx)) (fun g r j hx => (by cases hx))
        (by rw [show onTrack ((.race i, .ok) : Op × Out) = [] from rfl, List.append_nil]; exact h.track)
        rfl rfl (by rw [taken_snoc]; exact List.append_nil _) (fun g _ => ⟨rfl, hfr g⟩)
        (fun j _ => ha j) ?_
      refine ⟨fun c hc => ht.pieces c (h4.subset hc), by rw [hfin, ← ht.fin, ← h3],
        by rw [hfail, ← ht.failed, ← h3], fun _ => h5, fun g hg => ?_⟩
      obtain ⟨x, hx⟩ := ht.group g hg
      refine ⟨x, hx.found, ⟨fun _ => hx.live.1 hno, fun _ hx => (by cases hx)⟩, ?_, ?_, ?_⟩
      · rw [arrived_snoc, (ha i).part, List.append_nil, hfr, hfail]
        show ∃ used lost, _ = used ++ r'.all ++ lost ∧ _
        rw [h2]
        exact hx.bytes
      · intro he
        rw [hx.live.1 hno] at he
        cases he
      · intro he
        rw [hx.live.1 hno] at he
        cases he
    · obtain ⟨r', hr'⟩ : ∃ r', done k.reader = (.ok true, r') := ⟨_, Prod.ext h3 rfl⟩
      rw [hr']
      exact h.close hk hno (.inl rfl) fun g _ => .inl ⟨ht.fin.1 h2, h1⟩
    · obtain ⟨r', hr'⟩ : ∃ r', done k.reader = (.thrown e', r') := ⟨_, Prod.ext h3 rfl⟩
      rw [hr']
      exact h.abort hk hno (.inl rfl) fun g _ => .inl (ht.failed.1 ⟨e, h2⟩)
    · obtain ⟨r', hr'⟩ : ∃ r', done k.reader = (.waiting, r') := ⟨_, Prod.ext h3 rfl⟩
      rw [hr']
      exact same _ (.inl rfl)

theorem all_ne {r : Reader} (h : r.buffer ≠ []) : r.all ≠ [] := by
  unfold Reader.all
  simp [h]

theorem Inv.frame {tr : Trace} {s : State} (h : Inv tr s) {i : Nat} {k : Task}
    (hk : s.tasks[i]? = some k) :
    Inv (tr ++ [(.frame i, (frame s i k).1)]) (frame s i k).2 := by
  have ht := h.task i k hk
  have same : ∀ o, o = .pending ∨ o = .invalid → Inv (tr ++ [(.frame i, o)]) s := by
    intro o ho
    refine h.same ?_ (fun ok hx => (by cases hx)) (fun g r j hx => (by cases hx)) fun j => ⟨?_, ?_, ?_⟩
    · rcases ho with rfl | rfl <;> rfl
    · rcases ho with rfl | rfl <;> rfl
    · intro hx; cases hx
    · intro _ _ hx; cases hx
  unfold Receive.frame
  cases hp : k.phase with
  | idle => exact same _ (.inr rfl)
  | over => exact same _ (.inr rfl)
  | frame =>
    have hno : k.phase ≠ .over := by rw [hp]; simp
    dsimp only
    rcases frame_cases k.reader with ⟨b, rest, r', h1, h2, h3, h4⟩ | ⟨h1, e, h2⟩ | ⟨h1, h2⟩
    · rw [h2]
      exact h.write hk hp h2
    · obtain ⟨r', hr'⟩ : ∃ r', decodeFrame k.reader = (.thrown e, r') := ⟨_, Prod.ext h2 rfl⟩
      rw [hr']
      exact h.abort hk hno (.inr (.inl rfl)) fun g _ => .inr (.inr (.inl h1))
    · cases he : k.reader.stream.ending with
      | fin =>
        rw [he] at h2
        obtain ⟨r', hr'⟩ : ∃ r', decodeFrame k.reader = (.thrown .endOfStream, r') := ⟨_, Prod.ext h2 rfl⟩
        rw [hr']
        exact h.abort hk hno (.inr (.inl rfl)) fun g _ =>
          .inr (.inl ⟨ht.fin.1 he, all_ne (ht.full hp), h1⟩)
      | failed e =>
        rw [he] at h2
        obtain ⟨r', hr'⟩ : ∃ r', decodeFrame k.reader = (.thrown (.transport e), r') :=
          ⟨_, Prod.ext h2 rfl⟩
        rw [hr']
        exact h.abort hk hno (.inr (.inl rfl)) fun g _ => .inl (ht.failed.1 ⟨e, he⟩)
      | idle =>
        rw [he] at h2
        obtain ⟨r', hr'⟩ : ∃ r', decodeFrame k.reader = (.waiting, r') := ⟨_, Prod.ext h2 rfl⟩
        rw [hr']
        exact same _ (.inl rfl)

/-- The group of a stream is the newest one, unless a newer one was taken or the track has ended. -/
theorem Inv.newest {tr : Trace} {s : State} (h : Inv tr s) {i g : Nat} {k : Task}
    (hk : s.tasks[i]? = some k) (hg : k.group = some g) (hl : s.track.latest ≠ some g) :
    (∃ g' ∈ taken tr, g < g') ∨ ∃ ok, Ended tr ok := by
  have gi := (Track.inv_reach h.track).track
  have hm : g ∈ taken tr := by
    rw [h.groups]
    exact List.mem_filterMap.2 ⟨k, List.mem_of_getElem? hk, hg⟩
  by_cases hs : s.track.status = .live
  · left
    have := gi.latest
    rw [if_pos hs] at this
    cases hlast : (Track.accepted (trackTrace tr)).getLast? with
    | none =>
      rw [List.getLast?_eq_none_iff] at hlast
      have hm : g ∈ Track.accepted (trackTrace tr) := hm
      rw [hlast] at hm
      cases hm
    | some l =>
      rw [hlast] at this
      refine ⟨l, List.mem_of_getLast? hlast, ?_⟩
      have h1 := Track.le_last gi.sorted hlast g hm
      have h2 : l ≠ g := fun he => hl (by rw [this, he])
      omega
  · right
    apply h.over.1
    cases hso : s.over with
    | true => rfl
    | false => exact absurd (h.live.1 hso) hs

theorem Inv.unusedGroup {tr : Trace} {s : State} (h : Inv tr s) {i : Nat} {k : Task}
    (hk : s.tasks[i]? = some k) :
    Inv (tr ++ [(.unusedGroup i, (unusedGroup s i k).1)]) (unusedGroup s i k).2 := by
  have same : Inv (tr ++ [(.unusedGroup i, .invalid)]) s :=
    h.same rfl (fun ok hx => (by cases hx)) (fun g r j hx => (by cases hx)) fun j =>
      ⟨rfl, fun hx => (by cases hx), fun _ _ hx => (by cases hx)⟩
  unfold Receive.unusedGroup
  cases hp : k.phase with
  | frame => exact same
  | over => exact same
  | idle =>
    have hno : k.phase ≠ .over := by rw [hp]; simp
    dsimp only
    by_cases hl : k.group ≠ none ∧ k.group = s.track.latest
    · rw [if_pos hl]
      exact same
    · rw [if_neg hl]
      refine h.close hk hno (.inr (.inr (.inl rfl))) fun g hg => .inr ?_
      refine h.newest hk hg fun he => hl ?_
      rw [hg, he]
      simp

theorem Inv.unusedTrack {tr : Trace} {s : State} (h : Inv tr s) {i : Nat} {k : Task}
    (hk : s.tasks[i]? = some k) :
    Inv (tr ++ [(.unusedTrack i, (unusedTrack s i k).1)]) (unusedTrack s i k).2 := by
  have same : Inv (tr ++ [(.unusedTrack i, .invalid)]) s :=
    h.same rfl (fun ok hx => (by cases hx)) (fun g r j hx => (by cases hx)) fun j =>
      ⟨rfl, fun hx => (by cases hx), fun _ _ hx => (by cases hx)⟩
  unfold Receive.unusedTrack
  cases hp : k.phase with
  | frame => exact same
  | over => exact same
  | idle =>
    have hno : k.phase ≠ .over := by rw [hp]; simp
    dsimp only
    cases hs : s.track.status with
    | live => exact same
    | closed =>
      exact h.close hk hno (.inr (.inr (.inr rfl))) fun g _ => .inr (.inr ⟨true, h.closed.1 hs⟩)
    | aborted =>
      exact h.abort hk hno (.inr (.inr (.inr rfl))) fun g _ => .inr (.inr (.inr (h.aborted.1 hs)))

theorem inv_init : Inv [] init := by
  refine ⟨.init, ?_, ?_, ?_, ?_, rfl, rfl, ?_, ?_, ?_⟩
  · exact ⟨fun h => (by cases h), fun ⟨_, h⟩ => (by cases h)⟩
  · exact ⟨fun _ => rfl, fun _ => rfl⟩
  · exact ⟨fun h => (by cases h), fun h => (by cases h)⟩
  · exact ⟨fun h => (by cases h), fun h => (by cases h)⟩
  · intro i g
    exact ⟨fun ⟨_, h⟩ => (by cases h), fun ⟨_, h, _⟩ => (by cases h)⟩
  · intro i k h
    cases h
  · intro i _
    exact ⟨rfl, fun h => (by cases h), fun ⟨_, _, h⟩ => (by cases h)⟩

/-- A step that is not possible. -/
theorem Inv.invalid {tr : Trace} {s : State} (h : Inv tr s) (op : Op) : Inv (tr ++ [(op, .invalid)]) s := by
  refine h.same ?_ (fun ok hx => (by cases hx)) (fun g r j hx => (by cases hx)) fun j => ⟨?_, ?_, ?_⟩
  · cases op <;> rfl
  · cases op <;> rfl
  · intro hx; cases hx
  · intro _ _ hx; cases hx

theorem step_inv {tr : Trace} {s : State} (h : Inv tr s) (op : Op) :
    Inv (tr ++ [(op, (step s op).1)]) (step s op).2 := by
  cases op with
  | track op =>
    unfold step
    dsimp only
    by_cases hr : Receive.reads op = true
    · rw [if_pos hr]
      exact h.reads hr
    · rw [if_neg hr]
      exact h.invalid _
  | stream g rest => exact h.stream g rest
  | arrive i b =>
    show Inv (tr ++ [(_, (onTask s i _).1)]) (onTask s i _).2
    unfold onTask
    cases hk : s.tasks[i]? with
    | none => exact h.invalid _
    | some k =>
      dsimp only
      by_cases hb : b = []
      · rw [if_pos hb]
        exact h.invalid _
      · rw [if_neg hb]
        unfold Receive.receive
        by_cases ho : k.open = true
        · rw [if_pos ho]
          have hpart : part i (.arrive i b, .ok) = b := if_pos rfl
          refine h.receive (op := .arrive i b) hk _ .idle [] ho rfl (fun ok hx => (by cases hx))
            (fun j hj => ⟨if_neg (Ne.symm hj), fun hx => (by cases hx), fun _ _ hx => (by cases hx)⟩)
            ?_ (by rw [hpart]; simp) (fun _ => rfl)
            ⟨fun hx => (by cases hx), fun hx => (by cases hx)⟩
            ⟨fun ⟨_, _, hx⟩ => (by cases hx), fun ⟨_, hx⟩ => (by cases hx)⟩
          intro c hc
          rcases List.mem_append.1 hc with hc | hc
          · exact (h.task i k hk).pieces c hc
          · rw [List.mem_singleton.1 hc]
            exact hb
        · rw [if_neg ho]
          exact h.invalid _
  | finish i =>
    show Inv (tr ++ [(_, (onTask s i _).1)]) (onTask s i _).2
    unfold onTask
    cases hk : s.tasks[i]? with
    | none => exact h.invalid _
    | some k =>
      dsimp only
      unfold Receive.receive
      by_cases ho : k.open = true
      · rw [if_pos ho]
        refine h.receive (op := .finish i) hk _ .fin [] ho rfl (fun ok hx => (by cases hx))
          (fun j hj => ⟨rfl, fun hx => (by cases hx; exact hj rfl), fun _ _ hx => (by cases hx)⟩)
          (h.task i k hk).pieces (by rw [show part i (.finish i, .ok) = [] from rfl]) (fun _ => rfl)
          ⟨fun _ => rfl, fun _ => rfl⟩
          ⟨fun ⟨_, _, hx⟩ => (by cases hx), fun ⟨_, hx⟩ => (by cases hx)⟩
      · rw [if_neg ho]
        exact h.invalid _
  | fail i e keep =>
    show Inv (tr ++ [(_, (onTask s i _).1)]) (onTask s i _).2
    unfold onTask
    cases hk : s.tasks[i]? with
    | none => exact h.invalid _
    | some k =>
      dsimp only
      unfold Receive.receive
      by_cases ho : k.open = true
      · rw [if_pos ho]
        refine h.receive (op := .fail i e keep) hk _ (.failed e)
          (k.reader.stream.chunks.drop keep).flatten ho rfl (fun ok hx => (by cases hx))
          (fun j hj => ⟨rfl, fun hx => (by cases hx), fun _ _ hx => (by cases hx; exact hj rfl)⟩)
          (fun c hc => (h.task i k hk).pieces c (List.mem_of_mem_take hc)) ?_
          (fun hx => absurd rfl (hx e keep))
          ⟨fun hx => (by cases hx), fun hx => (by cases hx)⟩
          ⟨fun _ => ⟨e, rfl⟩, fun _ => ⟨e, keep, rfl⟩⟩
        rw [show part i (.fail i e keep, .ok) = [] from rfl, List.append_nil, ← List.flatten_append,
          List.take_append_drop]
      · rw [if_neg ho]
        exact h.invalid _
  | race i =>
    show Inv (tr ++ [(_, (onTask s i _).1)]) (onTask s i _).2
    unfold onTask
    cases hk : s.tasks[i]? with
    | none => exact h.invalid _
    | some k => exact h.race hk
  | frame i =>
    show Inv (tr ++ [(_, (onTask s i _).1)]) (onTask s i _).2
    unfold onTask
    cases hk : s.tasks[i]? with
    | none => exact h.invalid _
    | some k => exact h.frame hk
  | unusedGroup i =>
    show Inv (tr ++ [(_, (onTask s i _).1)]) (onTask s i _).2
    unfold onTask
    cases hk : s.tasks[i]? with
    | none => exact h.invalid _
    | some k => exact h.unusedGroup hk
  | unusedTrack i =>
    show Inv (tr ++ [(_, (onTask s i _).1)]) (onTask s i _).2
    unfold onTask
    cases hk : s.tasks[i]? with
    | none => exact h.invalid _
    | some k => exact h.unusedTrack hk
  | ended ok =>
    unfold step
    dsimp only
    by_cases hs : s.over = true
    · rw [if_pos hs]
      exact h.invalid _
    · rw [if_neg hs]
      exact h.ended (by simpa using hs) ok

theorem inv_reach {tr : Trace} {s : State} (h : machine.Reach tr s) : Inv tr s :=
  Machine.Reach.induct (M := machine) (P := fun tr s => Inv tr s) inv_init
    (fun _ _ op _ hi => step_inv hi op) h

end Verif.Js.Receive
