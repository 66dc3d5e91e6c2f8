import Verif.Js.Frames
import Verif.Js.ContainerLemmas
import Verif.Js.TrackLemmas

/-! # Lemmas about media tracks in the browser -/

set_option autoImplicit false

namespace Verif.Js.Frames

open Verif Verif.Js Verif.Js.Container
open Verif.Js.Track (Pick)

/-- The bytes of a frame. -/
def bytes (f : Input) : Bytes := header f.timestamp ++ f.data

/-- The track has the groups `gs`. -/
structure TInv (ttr : Track.Trace) (t : Track.State) (gs : List (List Input)) : Prop where
  reach : Track.machine.Reach ttr t
  acc : Track.accepted ttr = List.range gs.length
  content : ∀ i : Nat, Track.content ttr i = ((gs[i]?).getD []).map bytes
  next : t.status = .live → t.next = gs.length

/-- Nothing was delivered by an entry. -/
def Mute (e : Track.Op × Track.Out) : Prop := ∀ c, Track.delivery c e = none

/-- Add a frame to the last group. -/
def addLast (gs : List (List Input)) (f : Input) : List (List Input) :=
  gs.modify (gs.length - 1) (· ++ [f])

/-- An operation that neither appends nor writes. -/
def Passive : Track.Op → Prop
  | .append | .insert _ _ _ | .write _ _ => False
  | _ => True

theorem onSub_same (t : Track.State) (c : Nat) (f : Track.Sub → Track.Out × Track.Sub) :
    (Track.onSub t c f).2.next = t.next ∧ (Track.onSub t c f).2.status = t.status ∧
    (Track.onSub t c f).2.groups = t.groups := by
  unfold Track.onSub
  split <;> exact ⟨rfl, rfl, rfl⟩

theorem onGroup_same (t : Track.State) (g : Nat) (f : Track.Grp → Track.Grp) :
    (Track.onGroup t g f).2.next = t.next ∧ (Track.onGroup t g f).2.status = t.status := by
  unfold Track.onGroup
  split
  · split <;> exact ⟨rfl, rfl⟩
  · exact ⟨rfl, rfl⟩

theorem passive_next (t : Track.State) (op : Track.Op) (hop : Passive op)
    (h : (Track.step t op).2.status = .live) :
    t.status = .live ∧ (Track.step t op).2.next = t.next := by
  cases op with
  | append => exact hop.elim
  | insert => exact hop.elim
  | write => exact hop.elim
  | closeGroup g =>
    have := onGroup_same t g fun g => { g with status := .closed }
    exact ⟨this.2 ▸ h, this.1⟩
  | abortGroup g =>
    have := onGroup_same t g fun g => { g with status := .aborted }
    exact ⟨this.2 ▸ h, this.1⟩
  | close =>
    rw [Track.step] at h ⊢
    split at h
    · cases h
    · next hn => exact absurd h hn
  | abort =>
    rw [Track.step] at h ⊢
    split at h
    · cases h
    · next hn => exact absurd h hn
  | consume => exact ⟨h, rfl⟩
  | run c =>
    have := onSub_same t c (Track.run t)
    exact ⟨this.2.1 ▸ h, this.1⟩
  | nextGroup c =>
    have := onSub_same t c (Track.nextGroup t)
    exact ⟨this.2.1 ▸ h, this.1⟩
  | nextFrame c p =>
    have := onSub_same t c fun u => Track.nextFrame t u p
    exact ⟨this.2.1 ▸ h, this.1⟩
  | closeSub c =>
    have := onSub_same t c fun u =>
      (.ok, { u with
        closed := true
        fetch := .done .undefined
        current := none })
    exact ⟨this.2.1 ▸ h, this.1⟩

theorem TInv.passive {ttr : Track.Trace} {t : Track.State} {gs : List (List Input)}
    (i : TInv ttr t gs) (op : Track.Op) (hop : Passive op) :
    TInv (ttr ++ [(op, (Track.step t op).1)]) (Track.step t op).2 gs := by
  refine ⟨Machine.Reach.step (M := Track.machine) op i.reach, ?_, ?_, ?_⟩
  · rw [Track.accepted_snoc, i.acc]
    cases op <;> first | exact hop.elim | simp [Track.taken]
  · intro k
    rw [Track.content_snoc, i.content]
    cases op <;> first | exact hop.elim | simp [Track.addition]
  · intro h
    obtain ⟨h1, h2⟩ := passive_next t op hop h
    rw [h2]
    exact i.next h1

/-- Appending a group. -/
theorem TInv.append {ttr : Track.Trace} {t : Track.State} {gs : List (List Input)}
    (i : TInv ttr t gs) (h : t.status = .live) :
    (Track.step t .append).1 = .group gs.length ∧
    TInv (ttr ++ [(.append, (Track.step t .append).1)]) (Track.step t .append).2 (gs ++ [[]]) := by
  have hn := i.next h
  have ho : (Track.step t .append).1 = .group gs.length := by
    rw [Track.step, Track.add, if_pos h, hn]
  refine ⟨ho, Machine.Reach.step (M := Track.machine) .append i.reach, ?_, ?_, ?_⟩
  · rw [Track.accepted_snoc, i.acc, ho]
    simp [Track.taken, List.range_succ]
  · intro k
    rw [Track.content_snoc, i.content, ho]
    rw [List.getElem?_append]
    split
    · simp [Track.addition]
    · rw [List.getElem?_eq_none (by omega)]
      cases hk : k - gs.length <;> simp [Track.addition]
  · intro _
    rw [Track.step, Track.add, if_pos h, hn]
    simp

/-- A closed track refuses. -/
theorem append_closed {t : Track.State} (h : t.status ≠ .live) :
    (Track.step t .append).1 = .threw ∧ (Track.step t .append).2.status = t.status ∧
      (Track.step t .append).2.groups = t.groups := by
  rw [Track.step, Track.add, if_neg h]
  exact ⟨rfl, rfl, rfl⟩

theorem TInv.append_closed {ttr : Track.Trace} {t : Track.State} {gs : List (List Input)}
    (i : TInv ttr t gs) (h : t.status ≠ .live) :
    TInv (ttr ++ [(.append, (Track.step t .append).1)]) (Track.step t .append).2 gs := by
  obtain ⟨h1, h2, -⟩ := Frames.append_closed h
  refine ⟨Machine.Reach.step (M := Track.machine) .append i.reach, ?_, ?_, ?_⟩
  · rw [Track.accepted_snoc, i.acc, h1]
    simp [Track.taken]
  · intro k
    rw [Track.content_snoc, i.content, h1]
    simp [Track.addition]
  · intro h'
    rw [h2] at h'
    exact absurd h' h

theorem onGroup_out (t : Track.State) (g : Nat) (f : Track.Grp → Track.Grp) :
    ((Track.onGroup t g f).1 = .ok ∧ ∃ x ∈ t.groups, x.id = g ∧ x.status = .live) ∨
    ((Track.onGroup t g f).1 ≠ .ok ∧ (Track.onGroup t g f).2 = t) := by
  unfold Track.onGroup
  split
  · next x hx =>
    obtain ⟨h1, h2⟩ := Track.find_mem hx
    split
    · next hl => exact .inl ⟨rfl, x, h1, h2, hl⟩
    · exact .inr ⟨by simp, rfl⟩
  · exact .inr ⟨by simp, rfl⟩

theorem addLast_get (gs : List (List Input)) (f : Input) (k : Nat) :
    (addLast gs f)[k]? = if k + 1 = gs.length then (gs[k]?).map (· ++ [f]) else gs[k]? := by
  unfold addLast
  rw [List.getElem?_modify]
  by_cases hk : k + 1 = gs.length
  · rw [if_pos hk]
    have : gs.length - 1 = k := by omega
    simp [this]
  · rw [if_neg hk]
    by_cases hl : gs.length - 1 = k
    · rw [List.getElem?_eq_none (by omega)]
      simp
    · simp [hl]

theorem addLast_length (gs : List (List Input)) (f : Input) : (addLast gs f).length = gs.length := by
  simp [addLast]

/-- Writing to the last group. -/
theorem TInv.write {ttr : Track.Trace} {t : Track.State} {gs : List (List Input)}
    (i : TInv ttr t gs) (hg : gs ≠ []) (f : Input)
    (ho : (Track.step t (.write (gs.length - 1) (bytes f))).1 = .ok) :
    TInv (ttr ++ [(.write (gs.length - 1) (bytes f), .ok)])
      (Track.step t (.write (gs.length - 1) (bytes f))).2 (addLast gs f) := by
  have hlen : 0 < gs.length := List.length_pos_iff.mpr hg
  have hr := Machine.Reach.step (M := Track.machine) (.write (gs.length - 1) (bytes f)) i.reach
  rw [show (Track.machine.step t (.write (gs.length - 1) (bytes f))).1 = .ok from ho] at hr
  refine ⟨hr, ?_, ?_, ?_⟩
  · rw [Track.accepted_snoc, i.acc, addLast_length]
    simp [Track.taken]
  · intro k
    rw [Track.content_snoc, i.content, addLast_get]
    unfold Track.addition
    dsimp only
    by_cases hk : k + 1 = gs.length
    · rw [if_pos (by omega), if_pos hk]
      rw [List.getElem?_eq_getElem (by omega)]
      simp
    · rw [if_neg (by omega), if_neg hk, List.append_nil]
  · intro h
    have := onGroup_same t (gs.length - 1) fun g => { g with frames := g.frames ++ [bytes f] }
    have h' : t.status = .live := this.2 ▸ h
    rw [addLast_length]
    exact this.1.trans (i.next h')

/-! ## Histories -/

theorem encoded_snoc (tr : Trace) (op : Op) (o : Out) : encoded (tr ++ [(op, o)]) = encoded tr ++
    match op, o with
    | .encode f, .ok => [f]
    | _, _ => [] := by
  unfold encoded
  rw [List.filterMap_append]
  congr 1
  cases op <;> cases o <;> rfl

theorem results_snoc (tr : Trace) (e : Op × Out) (c : Nat) :
    results (tr ++ [e]) c = results tr c ++ (result c e).toList := by
  unfold results
  rw [List.filterMap_append]
  cases h : result c e <;> simp [h]

theorem Groups.open_ {fs : List Input} {gs : List (List Input)} (h : Groups fs gs) :
    Groups fs (gs ++ [[]]) := by
  refine ⟨by rw [List.flatten_append]; simpa using h.all, ?_⟩
  intro g hg f hf
  rcases List.mem_append.mp hg with hg | hg
  · exact h.tail g hg f hf
  · rw [List.mem_singleton] at hg
    subst hg
    cases hf

theorem addLast_snoc (gs : List (List Input)) (g : List Input) (f : Input) :
    addLast (gs ++ [g]) f = gs ++ [g ++ [f]] := by
  apply List.ext_getElem?
  intro k
  rw [addLast_get]
  by_cases hk : k + 1 = (gs ++ [g]).length
  · rw [if_pos hk]
    simp at hk
    subst hk
    simp
  · rw [if_neg hk]
    by_cases hlt : k < gs.length
    · rw [List.getElem?_append_left hlt, List.getElem?_append_left hlt]
    · simp at hk
      rw [List.getElem?_eq_none (by simp; omega), List.getElem?_eq_none (by simp; omega)]

theorem snoc_of_ne {α : Type} {l : List α} (h : l ≠ []) : ∃ l0 a, l = l0 ++ [a] :=
  ⟨l.dropLast, l.getLast h, (List.dropLast_concat_getLast h).symm⟩

theorem Groups.add {fs : List Input} {gs : List (List Input)} (h : Groups fs gs) (hg : gs ≠ [])
    (f : Input) (hf : f.keyframe = false ∨ gs.getLast? = some []) :
    Groups (fs ++ [f]) (addLast gs f) := by
  obtain ⟨gs0, g, rfl⟩ := snoc_of_ne hg
  rw [addLast_snoc]
  constructor
  · rw [← h.all]
    simp
  · intro x hx y hy
    rcases List.mem_append.mp hx with hx | hx
    · exact h.tail x (List.mem_append_left _ hx) y hy
    · rw [List.mem_singleton] at hx
      subst hx
      cases g with
      | nil => simp at hy
      | cons a g =>
        rw [List.cons_append, List.tail_cons] at hy
        rcases List.mem_append.mp hy with hy | hy
        · exact h.tail (a :: g) (by simp) y hy
        · rw [List.mem_singleton] at hy
          subst hy
          rcases hf with hf | hf
          · exact hf
          · simp at hf

/-- The invariant. -/
structure WInv (tr : Trace) (s : State) (ttr : Track.Trace) (gs : List (List Input)) : Prop where
  track : TInv ttr s.track gs
  group : s.group = if gs = [] then none else some (gs.length - 1)
  groups : Groups (encoded tr) gs
  heads : ¬ Refused tr → ∀ g ∈ gs, ∃ f, g.head? = some f ∧ f.keyframe = true
  shut : Closed tr → s.track.status ≠ .live ∧
    ∀ x ∈ s.track.groups, s.group = some x.id → x.status ≠ .live
  results : ∀ c, results tr c = (Track.delivered ttr c).map fun d => decoded d.2.1 d.2.2
  range : ∀ f ∈ encoded tr, f.timestamp ≤ Container.MAX_U53

theorem refused_mono {tr : Trace} {e : Op × Out} (h : ¬ Refused (tr ++ [e])) : ¬ Refused tr :=
  fun ⟨f, h1, h2⟩ => h ⟨f, h1, List.mem_append_left _ h2⟩

theorem closed_snoc (tr : Trace) (op : Op) (o : Out) :
    Closed (tr ++ [(op, o)]) ↔ Closed tr ∨ (op = .close ∧ o = .ok) := by
  unfold Closed
  rw [List.mem_append, List.mem_singleton, Prod.mk.injEq]
  exact or_congr_right ⟨fun h => ⟨h.1.symm, h.2.symm⟩, fun h => ⟨h.1.symm, h.2.symm⟩⟩

/-- A step that writes nothing. -/
theorem WInv.reader {tr : Trace} {s : State} {ttr : Track.Trace} {gs : List (List Input)}
    (i : WInv tr s ttr gs) (op : Op) (o : Out) (top : Track.Op) (hp : Passive top)
    (hop : ∀ f, op ≠ .encode f) (hcl : op ≠ .close)
    (hg : (Track.step s.track top).2.groups = s.track.groups)
    (hst : (Track.step s.track top).2.status = s.track.status)
    (hres : ∀ c, (result c (op, o)).toList =
      (Track.delivery c (top, (Track.step s.track top).1)).toList.map fun d => decoded d.2.1 d.2.2) :
    WInv (tr ++ [(op, o)]) { s with track := (Track.step s.track top).2 }
      (ttr ++ [(top, (Track.step s.track top).1)]) gs := by
  have henc : encoded (tr ++ [(op, o)]) = encoded tr := by
    rw [encoded_snoc]
    cases op <;> first | exact absurd rfl (hop _) | simp
  refine ⟨i.track.passive top hp, i.group, henc ▸ i.groups, fun h => i.heads (refused_mono h), ?_, ?_,
    henc ▸ i.range⟩
  · rw [closed_snoc]
    rintro (h | h)
    · dsimp only
      rw [hg, hst]
      exact i.shut h
    · exact absurd h.1 hcl
  · intro c
    rw [results_snoc, Track.delivered_snoc, List.map_append, i.results c, hres c]

theorem write_cases (s : State) (g : Nat) (f : Input) :
    (¬ f.timestamp ≤ Container.MAX_U53 ∧ write s g f = (.refused, s)) ∨
    (f.timestamp ≤ Container.MAX_U53 ∧ (Track.step s.track (.write g (bytes f))).1 = .ok ∧
      write s g f = (.ok, { s with track := (Track.step s.track (.write g (bytes f))).2 })) ∨
    (f.timestamp ≤ Container.MAX_U53 ∧ (Track.step s.track (.write g (bytes f))).1 ≠ .ok ∧
      write s g f = (.closed, s)) := by
  by_cases hts : f.timestamp ≤ Container.MAX_U53
  · right
    unfold write
    rw [encodeFrame_eq _ _ hts]
    dsimp only
    have h := onGroup_out s.track g fun x => { x with frames := x.frames ++ [bytes f] }
    change ((Track.step s.track (.write g (bytes f))).1 = .ok ∧ _) ∨
      ((Track.step s.track (.write g (bytes f))).1 ≠ .ok ∧
        (Track.step s.track (.write g (bytes f))).2 = s.track) at h
    rcases h with ⟨h, -⟩ | ⟨h, h2⟩
    · left
      refine ⟨hts, h, ?_⟩
      rw [← bytes]
      split
      · next t he => rw [he]
      · next hn _ => exact absurd h (by rename_i o _ he; rw [he]; exact hn)
    · right
      refine ⟨hts, h, ?_⟩
      rw [← bytes]
      split
      · next t he => exact absurd (by rw [he]) h
      · next he =>
        rw [he] at h2
        dsimp only at h2
        rw [h2]
  · left
    refine ⟨hts, ?_⟩
    unfold write
    rw [encodeFrame_late _ _ hts]

theorem not_closed_encode {tr : Trace} {f : Input} {o : Out} (h : Closed (tr ++ [(.encode f, o)])) :
    Closed tr := by
  rw [closed_snoc] at h
  exact h.resolve_right (by simp)

theorem results_encode (tr : Trace) (f : Input) (o : Out) (c : Nat) :
    results (tr ++ [(.encode f, o)]) c = results tr c := by
  rw [results_snoc]
  simp [result]

/-- A frame that is not a keyframe. -/
theorem delta_inv {tr : Trace} {s : State} {ttr : Track.Trace} {gs : List (List Input)}
    (i : WInv tr s ttr gs) (f : Input) (hk : f.keyframe = false) :
    ∃ ttr' gs', WInv (tr ++ [(.encode f, (encode s f).1)]) (encode s f).2 ttr' gs' := by
  have same : ∀ o, o ≠ .ok → WInv (tr ++ [(.encode f, o)]) s ttr gs := by
    intro o ho
    have henc : encoded (tr ++ [(.encode f, o)]) = encoded tr := by
      rw [encoded_snoc]
      cases o <;> first | exact absurd rfl ho | simp
    exact ⟨i.track, i.group, henc ▸ i.groups, fun h => i.heads (refused_mono h),
      fun h => i.shut (not_closed_encode h), fun c => by rw [results_encode, i.results c],
      henc ▸ i.range⟩
  unfold encode
  rw [if_neg (by simp [hk])]
  have hgr := i.group
  by_cases hg : gs = []
  · rw [if_pos hg] at hgr
    rw [hgr]
    exact ⟨ttr, gs, same _ (by simp)⟩
  · rw [if_neg hg] at hgr
    rw [hgr]
    dsimp only
    rcases write_cases s (gs.length - 1) f with ⟨-, e⟩ | ⟨hts, ho, e⟩ | ⟨-, -, e⟩
    · rw [e]
      exact ⟨ttr, gs, same _ (by simp)⟩
    · rw [e]
      refine ⟨_, _, i.track.write hg f ho, ?_, ?_, ?_, ?_, ?_, ?_⟩
      · have : addLast gs f ≠ [] := fun h => by
          have := congrArg List.length h
          rw [addLast_length] at this
          exact hg (List.length_eq_zero_iff.mp this)
        rw [if_neg this, addLast_length]
        exact hgr
      · rw [encoded_snoc]
        exact i.groups.add hg f (.inl hk)
      · intro hr g hmem
        have hold := i.heads (refused_mono hr)
        obtain ⟨gs0, g0, rfl⟩ := snoc_of_ne hg
        rw [addLast_snoc] at hmem
        rcases List.mem_append.mp hmem with hm | hm
        · exact hold g (List.mem_append_left _ hm)
        · rw [List.mem_singleton] at hm
          subst hm
          obtain ⟨x, h1, h2⟩ := hold g0 (by simp)
          refine ⟨x, ?_, h2⟩
          cases g0 with
          | nil => cases h1
          | cons a g0 => exact h1
      · intro hcl
        have hsh := i.shut (not_closed_encode hcl)
        exfalso
        rcases onGroup_out s.track (gs.length - 1) fun x => { x with frames := x.frames ++ [bytes f] }
          with ⟨-, x, h1, h2, h3⟩ | ⟨h, -⟩
        · exact hsh.2 x h1 (by rw [hgr, h2]) h3
        · exact h ho
      · intro c
        rw [results_encode, i.results c, Track.delivered_snoc]
        simp [Track.delivery]
      · rw [encoded_snoc]
        intro x hx
        rcases List.mem_append.mp hx with hx | hx
        · exact i.range x hx
        · simp at hx
          subst hx
          exact hts
    · rw [e]
      exact ⟨ttr, gs, same _ (by simp)⟩

/-- Groups of a track are told apart by their numbers. -/
theorem unique_ids {ttr : Track.Trace} {t : Track.State} (h : Track.machine.Reach ttr t) :
    ∀ a ∈ t.groups, ∀ b ∈ t.groups, a.id = b.id → a = b := by
  have i := (Track.inv_reach h).track
  have hs : (t.groups.map (·.id)).Pairwise (· < ·) := by
    have := i.sorted
    rw [← i.ids] at this
    exact this
  rw [List.pairwise_map] at hs
  intro a ha b hb hab
  obtain ⟨j, hj, rfl⟩ := List.getElem_of_mem ha
  obtain ⟨k, hk, rfl⟩ := List.getElem_of_mem hb
  rw [List.pairwise_iff_getElem] at hs
  rcases Nat.lt_trichotomy j k with h | h | h
  · have := hs j k hj hk h
    omega
  · subst h; rfl
  · have := hs k j hk hj h
    omega

/-- What `closeGroup` does to the track. -/
theorem closeGroup_cases (s : State) : (s.group = none ∧ closeGroup s = s.track) ∨
    ∃ g, s.group = some g ∧ closeGroup s = (Track.step s.track (.closeGroup g)).2 := by
  unfold closeGroup
  cases h : s.group with
  | none => exact .inl ⟨rfl, rfl⟩
  | some g => exact .inr ⟨g, rfl, rfl⟩

theorem closeGroup_status (s : State) : (closeGroup s).status = s.track.status := by
  rcases closeGroup_cases s with ⟨-, e⟩ | ⟨g, -, e⟩ <;> rw [e]
  exact (onGroup_same s.track g fun g => { g with status := .closed }).2

/-- After `closeGroup` the group is not live; and other groups do not change. -/
theorem closeGroup_ended (s : State) (hu : ∀ a ∈ s.track.groups, ∀ b ∈ s.track.groups, a.id = b.id → a = b)
    (x : Track.Grp) (hx : x ∈ (closeGroup s).groups) :
    (s.group = some x.id → x.status ≠ .live) ∧
    (x.status = .live → x ∈ s.track.groups) := by
  rcases closeGroup_cases s with ⟨h, e⟩ | ⟨g, h, e⟩ <;> rw [e] at hx
  · rw [h]
    exact ⟨fun h => (by cases h), fun _ => hx⟩
  · rw [h]
    change x ∈ (Track.onGroup s.track g fun g => { g with status := .closed }).2.groups at hx
    unfold Track.onGroup at hx
    split at hx
    · next y hy =>
      obtain ⟨hm, hid⟩ := Track.find_mem hy
      split at hx
      · rw [List.mem_map] at hx
        obtain ⟨z, hz, rfl⟩ := hx
        by_cases hzi : z.id = g
        · rw [if_pos hzi]
          exact ⟨fun _ => by simp, fun h => by cases h⟩
        · rw [if_neg hzi]
          refine ⟨fun h => ?_, fun _ => hz⟩
          injection h with h
          exact absurd h.symm hzi
      · next hl =>
        refine ⟨fun h => ?_, fun _ => hx⟩
        injection h with h
        rw [hu x hx y hm (by rw [hid, h])]
        exact hl
    · next hnone =>
      refine ⟨fun h => ?_, fun _ => hx⟩
      injection h with h
      unfold Track.find at hnone
      rw [List.find?_eq_none] at hnone
      exact absurd h.symm (by simpa using hnone x hx)

theorem close_track {tr : Trace} {s : State} {ttr : Track.Trace} {gs : List (List Input)}
    (i : WInv tr s ttr gs) : ∃ ttr', TInv ttr' (closeGroup s) gs ∧
      ∀ c, Track.delivered ttr' c = Track.delivered ttr c := by
  rcases closeGroup_cases s with ⟨-, e⟩ | ⟨g, -, e⟩ <;> rw [e]
  · exact ⟨ttr, i.track, fun _ => rfl⟩
  · refine ⟨_, i.track.passive (.closeGroup g) trivial, fun c => ?_⟩
    rw [Track.delivered_snoc]
    simp [Track.delivery]

/-- A keyframe. -/
theorem key_inv {tr : Trace} {s : State} {ttr : Track.Trace} {gs : List (List Input)}
    (i : WInv tr s ttr gs) (f : Input) (hk : f.keyframe = true) :
    ∃ ttr' gs', WInv (tr ++ [(.encode f, (encode s f).1)]) (encode s f).2 ttr' gs' := by
  obtain ⟨t1, i1, d1⟩ := close_track i
  have hst := closeGroup_status s
  unfold encode
  rw [if_pos hk]
  by_cases hl : s.track.status = .live
  · have hncl : ¬ Closed tr := fun h => (i.shut h).1 hl
    have hncl' : ∀ o, ¬ Closed (tr ++ [(.encode f, o)]) := fun o h => hncl (not_closed_encode h)
    obtain ⟨ho, i2⟩ := i1.append (hst.trans hl)
    have hgrp : (Track.step (closeGroup s) .append).2.groups =
        (closeGroup s).groups ++ [⟨gs.length, [], .live⟩] := by
      rw [Track.step, Track.add, if_pos (hst.trans hl), i1.next (hst.trans hl)]
    have hbelow := (Track.inv_reach i1.reach).track
    generalize hr : Track.step (closeGroup s) .append = r at *
    obtain ⟨o, t⟩ := r
    dsimp only at ho i2 hgrp
    subst ho
    dsimp only
    have hlen : (gs ++ [[]]).length - 1 = gs.length := by simp
    have hgrpeq : (some gs.length : Option Nat) =
        if (gs ++ [[]]) = [] then none else some ((gs ++ [[]]).length - 1) := by
      rw [if_neg (by simp), hlen]
    have hdel : ∀ c, Track.delivered (t1 ++ [(Track.Op.append, Track.Out.group gs.length)]) c =
        Track.delivered ttr c := fun c => by
      rw [Track.delivered_snoc, d1 c]
      simp [Track.delivery]
    rcases write_cases ⟨t, some gs.length⟩ gs.length f with ⟨-, e⟩ | ⟨hts, ho, e⟩ | ⟨-, ho, -⟩
    · rw [e]
      refine ⟨_, _, i2, hgrpeq, ?_, fun h => absurd ⟨f, hk, by simp⟩ h, fun h => absurd h (hncl' _), ?_,
        ?_⟩
      · rw [encoded_snoc]
        simpa using i.groups.open_
      · intro c
        rw [results_encode, hdel c, i.results c]
      · rw [encoded_snoc]
        simpa using i.range
    · rw [e]
      have i3 := i2.write (by simp) f (by rw [hlen]; exact ho)
      rw [hlen] at i3
      refine ⟨_, _, i3, ?_, ?_, ?_, fun h => absurd h (hncl' _), ?_, ?_⟩
      · rw [addLast_snoc]
        rw [if_neg (by simp)]
        simp
      · rw [encoded_snoc]
        exact i.groups.open_.add (by simp) f (.inr (by simp))
      · intro h g hg
        rw [addLast_snoc] at hg
        rcases List.mem_append.mp hg with hg | hg
        · exact i.heads (refused_mono h) g hg
        · rw [List.mem_singleton] at hg
          subst hg
          exact ⟨f, rfl, hk⟩
      · intro c
        rw [results_encode, Track.delivered_snoc, hdel c, i.results c]
        simp [Track.delivery]
      · rw [encoded_snoc]
        intro x hx
        rcases List.mem_append.mp hx with hx | hx
        · exact i.range x hx
        · simp at hx
          subst hx
          exact hts
    · exfalso
      apply ho
      have hfind : Track.find t gs.length = some ⟨gs.length, [], .live⟩ := by
        unfold Track.find
        rw [hgrp, List.find?_append]
        have : (closeGroup s).groups.find? (fun g => g.id = gs.length) = none := by
          rw [List.find?_eq_none]
          intro x hx
          have h1 : x.id ∈ Track.ids (closeGroup s) := List.mem_map_of_mem hx
          rw [hbelow.ids, i1.acc, List.mem_range] at h1
          simp
          omega
        rw [this]
        simp
      show (Track.onGroup t gs.length _).1 = .ok
      unfold Track.onGroup
      rw [hfind]
      rfl
  · obtain ⟨h1, h2, h3⟩ := append_closed (t := closeGroup s) (by rw [hst]; exact hl)
    have i2 := i1.append_closed (by rw [hst]; exact hl)
    have hend := closeGroup_ended s (unique_ids i.track.reach)
    generalize hr : Track.step (closeGroup s) .append = r at *
    obtain ⟨o, t⟩ := r
    dsimp only at h1 h2 h3 i2
    subst h1
    dsimp only
    refine ⟨_, gs, i2, i.group, ?_, fun h => i.heads (refused_mono h), ?_, ?_, ?_⟩
    · rw [encoded_snoc]
      simpa using i.groups
    · intro _
      dsimp only
      rw [h2, h3, hst]
      exact ⟨hl, fun x hx => (hend x hx).1⟩
    · intro c
      rw [results_encode, Track.delivered_snoc, d1 c, i.results c]
      simp [Track.delivery]
    · rw [encoded_snoc]
      simpa using i.range

/-- `FrameProducer.close`. -/
theorem close_inv {tr : Trace} {s : State} {ttr : Track.Trace} {gs : List (List Input)}
    (i : WInv tr s ttr gs) : ∃ ttr' gs', WInv (tr ++ [(.close, .ok)])
      { s with track := closeGroup { s with track := (Track.step s.track .close).2 } } ttr' gs' := by
  have henc : encoded (tr ++ [(.close, .ok)]) = encoded tr := by
    rw [encoded_snoc]
    simp
  have hnl : (Track.step s.track .close).2.status ≠ .live := by
    rw [Track.step]
    split
    · simp
    · next h => exact h
  have i1 := i.track.passive .close trivial
  have hd1 : ∀ c, Track.delivered (ttr ++ [(.close, (Track.step s.track .close).1)]) c =
      Track.delivered ttr c := fun c => by
    rw [Track.delivered_snoc]
    simp [Track.delivery]
  have hres : ∀ c, results (tr ++ [(.close, .ok)]) c = results tr c := fun c => by
    rw [results_snoc]
    simp [result]
  have hend := closeGroup_ended { s with track := (Track.step s.track .close).2 } (unique_ids i1.reach)
  have hst := closeGroup_status { s with track := (Track.step s.track .close).2 }
  have hshut : (closeGroup { s with track := (Track.step s.track .close).2 }).status ≠ .live ∧
      ∀ x ∈ (closeGroup { s with track := (Track.step s.track .close).2 }).groups,
        s.group = some x.id → x.status ≠ .live := by
    refine ⟨?_, fun x hx => (hend x hx).1⟩
    rw [hst]
    exact hnl
  rcases closeGroup_cases { s with track := (Track.step s.track .close).2 } with ⟨-, e⟩ | ⟨g, -, e⟩
  · rw [e] at hshut ⊢
    exact ⟨_, gs, i1, i.group, henc ▸ i.groups, fun h => i.heads (refused_mono h), fun _ => hshut,
      fun c => by rw [hres, hd1, i.results c], henc ▸ i.range⟩
  · rw [e] at hshut ⊢
    refine ⟨_, gs, i1.passive (.closeGroup g) trivial, i.group, henc ▸ i.groups,
      fun h => i.heads (refused_mono h), fun _ => hshut, fun c => ?_, henc ▸ i.range⟩
    rw [hres, Track.delivered_snoc, hd1, i.results c]
    simp [Track.delivery]

theorem winv_init : WInv [] init [] [] :=
  ⟨⟨Machine.Reach.init, rfl, fun _ => rfl, fun _ => rfl⟩, rfl, ⟨rfl, fun _ h => (by cases h)⟩,
    fun _ _ h => (by cases h), fun h => (by cases h), fun _ => rfl, fun _ h => (by cases h)⟩

theorem step_winv {tr : Trace} {s : State} {ttr : Track.Trace} {gs : List (List Input)}
    (i : WInv tr s ttr gs) (op : Op) :
    ∃ ttr' gs', WInv (tr ++ [(op, (step s op).1)]) (step s op).2 ttr' gs' := by
  cases op with
  | encode f =>
    cases hk : f.keyframe with
    | true => exact key_inv i f hk
    | false => exact delta_inv i f hk
  | close => exact close_inv i
  | consume =>
    exact ⟨_, gs, i.reader .consume _ .consume trivial (by simp) (by simp) rfl rfl
      fun c => by simp [result, Track.delivery]⟩
  | run c =>
    have hs := onSub_same s.track c (Track.run s.track)
    have hr := fun o => i.reader (.run c) o (.run c) trivial (by simp) (by simp) hs.2.2 hs.2.1
      fun c' => by simp [result, Track.delivery]
    rw [step]
    split
    · next t he =>
      have h := hr .ok
      rw [he] at h
      exact ⟨_, gs, h⟩
    · next t _ he =>
      have h := hr .invalid
      rw [he] at h
      exact ⟨_, gs, h⟩
  | decode c p =>
    have hs := onSub_same s.track c fun u => Track.nextFrame s.track u p
    refine ⟨_, gs, i.reader (.decode c p) _ (.nextFrame c p) trivial (by simp) (by simp) hs.2.2 hs.2.1
      fun c' => ?_⟩
    rw [step]
    dsimp only
    cases (Track.step s.track (.nextFrame c p)).1 with
    | frame g k b =>
      unfold answer
      cases hd : decoded k b with
      | none => by_cases hc : c = c' <;> simp [result, Track.delivery, hc, hd]
      | some f => by_cases hc : c = c' <;> simp [result, Track.delivery, hc, hd]
    | _ => simp [answer, result, Track.delivery]
  | closeSub c =>
    have hs := onSub_same s.track c fun u =>
      (.ok, { u with
        closed := true
        fetch := .done .undefined
        current := none })
    have hr := fun o => i.reader (.closeSub c) o (.closeSub c) trivial (by simp) (by simp) hs.2.2 hs.2.1
      fun c' => by simp [result, Track.delivery]
    rw [step]
    split
    · next t he =>
      have h := hr .ok
      rw [he] at h
      exact ⟨_, gs, h⟩
    · next t _ he =>
      have h := hr .invalid
      rw [he] at h
      exact ⟨_, gs, h⟩

theorem winv_reach {tr : Trace} {s : State} (h : machine.Reach tr s) : ∃ ttr gs, WInv tr s ttr gs :=
  Machine.Reach.induct (M := machine) (P := fun tr s => ∃ ttr gs, WInv tr s ttr gs)
    ⟨[], [], winv_init⟩ (fun _ _ op _ ⟨_, _, i⟩ => step_winv i op) h

/-! ## Nothing is closed before `close` -/

/-- The track is live, and so is the group of the producer. -/
def Live (s : State) : Prop :=
  s.track.status = .live ∧ ∀ g, s.group = some g → ∃ x, Track.find s.track g = some x ∧ x.status = .live

theorem find_congr {t t' : Track.State} (h : t'.groups = t.groups) (g : Nat) :
    Track.find t' g = Track.find t g := by
  unfold Track.find
  rw [h]

/-- A write to a live group. -/
theorem write_live {s : State} {g : Nat} {f : Input} (l : Live s) (hg : s.group = some g) :
    (f.timestamp ≤ Container.MAX_U53 → (write s g f).1 = .ok) ∧ (write s g f).1 ≠ .closed ∧
      Live (write s g f).2 := by
  obtain ⟨x, hx, hxl⟩ := l.2 g hg
  have hon : Track.step s.track (.write g (bytes f)) = (.ok, { s.track with
      groups := s.track.groups.map fun x =>
        if x.id = g then { x with frames := x.frames ++ [bytes f] } else x }) := by
    show Track.onGroup _ _ _ = _
    unfold Track.onGroup
    rw [hx]
    dsimp only
    rw [if_pos hxl]
  rcases write_cases s g f with ⟨hn, e⟩ | ⟨-, -, e⟩ | ⟨-, ho, e⟩
  · rw [e]
    exact ⟨fun h => absurd h hn, by simp, l⟩
  · rw [e, hon]
    refine ⟨fun _ => rfl, by simp, l.1, fun g' hg' => ?_⟩
    dsimp only at hg'
    rw [hg] at hg'
    injection hg' with hg'
    subst hg'
    refine ⟨{ x with frames := x.frames ++ [bytes f] }, ?_, hxl⟩
    unfold Track.find at hx ⊢
    dsimp only
    generalize s.track.groups = l at hx
    induction l with
    | nil => cases hx
    | cons y l ih =>
      rw [List.map_cons]
      by_cases hy : y.id = g
      · rw [if_pos hy]
        simp only [List.find?_cons, hy, decide_true] at hx ⊢
        injection hx with hx
        subst hx
        rw [hy]
      · rw [if_neg hy]
        simp only [List.find?_cons, hy, decide_false] at hx ⊢
        exact ih hx
  · rw [hon] at ho
    exact absurd rfl ho

/-- A keyframe while nothing is closed. -/
theorem encode_live {tr : Trace} {s : State} {ttr : Track.Trace} {gs : List (List Input)}
    (i : WInv tr s ttr gs) (l : Live s) (f : Input) :
    (f.timestamp ≤ Container.MAX_U53 → f.keyframe = true ∨ gs ≠ [] → (encode s f).1 = .ok) ∧
      Live (encode s f).2 := by
  unfold encode
  split
  · obtain ⟨t1, i1, -⟩ := close_track i
    have hst := (closeGroup_status s).trans l.1
    have hgrp : Track.step (closeGroup s) .append = (.group gs.length, (Track.step (closeGroup s) .append).2) :=
      Prod.ext (i1.append hst).1 rfl
    have hgr2 : (Track.step (closeGroup s) .append).2.groups =
        (closeGroup s).groups ++ [⟨gs.length, [], .live⟩] := by
      rw [Track.step, Track.add, if_pos hst, i1.next hst]
    have hst2 : (Track.step (closeGroup s) .append).2.status = .live := by
      rw [Track.step, Track.add, if_pos hst]
      exact hst
    rw [hgrp]
    dsimp only
    have hbelow := (Track.inv_reach i1.reach).track
    have hfind : Track.find (Track.step (closeGroup s) .append).2 gs.length =
        some ⟨gs.length, [], .live⟩ := by
      unfold Track.find
      rw [hgr2, List.find?_append]
      have : (closeGroup s).groups.find? (fun g => g.id = gs.length) = none := by
        rw [List.find?_eq_none]
        intro x hx
        have h1 : x.id ∈ Track.ids (closeGroup s) := List.mem_map_of_mem hx
        rw [hbelow.ids, i1.acc, List.mem_range] at h1
        simp
        omega
      rw [this]
      simp
    have := write_live (s := ⟨(Track.step (closeGroup s) .append).2, some gs.length⟩) (f := f)
      ⟨hst2, fun g hg => by
        injection hg with hg
        subst hg
        exact ⟨_, hfind, rfl⟩⟩ rfl
    exact ⟨fun h _ => this.1 h, this.2.2⟩
  · next hk =>
    split
    · next hg =>
      refine ⟨fun _ h => ?_, l⟩
      rcases h with h | h
      · exact absurd h hk
      · have := i.group
        rw [hg, if_neg h] at this
        cases this
    · next g hg =>
      have := write_live (f := f) l hg
      exact ⟨fun h _ => this.1 h, this.2.2⟩

theorem live_congr {s s' : State} (l : Live s) (h1 : s'.group = s.group)
    (h2 : s'.track.groups = s.track.groups) (h3 : s'.track.status = s.track.status) : Live s' := by
  refine ⟨h3.trans l.1, fun g hg => ?_⟩
  rw [find_congr h2]
  exact l.2 g (h1 ▸ hg)

theorem live_reach {tr : Trace} {s : State} (h : machine.Reach tr s) (hc : ¬ Closed tr) : Live s := by
  refine Machine.Reach.induct (M := machine) (P := fun tr s => ¬ Closed tr → Live s) ?_ ?_ h hc
  · intro _
    exact ⟨rfl, fun g hg => by cases hg⟩
  · intro tr s op hr ih hc
    change ¬ Closed (tr ++ [(op, (step s op).1)]) at hc
    show Live (step s op).2
    rw [closed_snoc] at hc
    have l := ih fun h => hc (.inl h)
    cases op with
    | encode f =>
      obtain ⟨ttr, gs, i⟩ := winv_reach hr
      exact (encode_live i l f).2
    | close => exact absurd (.inr ⟨rfl, rfl⟩) hc
    | consume => exact live_congr l rfl rfl rfl
    | run c =>
      have hs := onSub_same s.track c (Track.run s.track)
      change _ ∧ (Track.step s.track (.run c)).2.status = _ ∧
        (Track.step s.track (.run c)).2.groups = _ at hs
      rw [step]
      split <;> next he => (rw [he] at hs; exact live_congr l rfl hs.2.2 hs.2.1)
    | decode c p =>
      have hs := onSub_same s.track c fun u => Track.nextFrame s.track u p
      exact live_congr l rfl hs.2.2 hs.2.1
    | closeSub c =>
      have hs := onSub_same s.track c fun u =>
        (.ok, { u with
          closed := true
          fetch := .done .undefined
          current := none })
      change _ ∧ (Track.step s.track (.closeSub c)).2.status = _ ∧
        (Track.step s.track (.closeSub c)).2.groups = _ at hs
      rw [step]
      split <;> next he => (rw [he] at hs; exact live_congr l rfl hs.2.2 hs.2.1)

/-! ## Which groups have ended -/

/-- Groups end by `close`, and only the group of the producer is live. -/
def Stat (s : State) : Prop :=
  ∀ x ∈ s.track.groups, x.status ≠ .aborted ∧ (x.status = .live → s.group = some x.id)

theorem write_stat {s : State} {g : Nat} {f : Input} (h : Stat s) : Stat (write s g f).2 := by
  rcases write_cases s g f with ⟨-, e⟩ | ⟨-, -, e⟩ | ⟨-, -, e⟩ <;> rw [e]
  · exact h
  · intro x hx
    change x ∈ (Track.onGroup s.track g _).2.groups at hx
    unfold Track.onGroup at hx
    split at hx
    · split at hx
      · rw [List.mem_map] at hx
        obtain ⟨y, hy, rfl⟩ := hx
        have := h y hy
        by_cases hyg : y.id = g
        · rw [if_pos hyg]
          exact this
        · rw [if_neg hyg]
          exact this
      · exact h x hx
    · exact h x hx
  · exact h

theorem closeGroup_stat {s : State} (h : Stat s)
    (hu : ∀ a ∈ s.track.groups, ∀ b ∈ s.track.groups, a.id = b.id → a = b) :
    ∀ x ∈ (closeGroup s).groups, x.status = .closed := by
  intro x hx
  obtain ⟨h1, h2⟩ := closeGroup_ended s hu x hx
  have hna : x.status ≠ .aborted := by
    rcases closeGroup_cases s with ⟨-, e⟩ | ⟨g, -, e⟩ <;> rw [e] at hx
    · exact (h x hx).1
    · change x ∈ (Track.onGroup s.track g fun g => { g with status := .closed }).2.groups at hx
      unfold Track.onGroup at hx
      split at hx
      · split at hx
        · rw [List.mem_map] at hx
          obtain ⟨y, hy, rfl⟩ := hx
          by_cases hyg : y.id = g
          · rw [if_pos hyg]
            simp
          · rw [if_neg hyg]
            exact (h y hy).1
        · exact (h x hx).1
      · exact (h x hx).1
  cases hs : x.status with
  | live => exact absurd hs (h1 ((h x (h2 hs)).2 hs))
  | closed => rfl
  | aborted => exact absurd hs hna

theorem stat_congr {s s' : State} (l : Stat s) (h1 : s'.group = s.group)
    (h2 : s'.track.groups = s.track.groups) : Stat s' := by
  intro x hx
  rw [h1]
  exact l x (h2 ▸ hx)

theorem stat_reach {tr : Trace} {s : State} (h : machine.Reach tr s) : Stat s := by
  refine Machine.Reach.induct (M := machine) (P := fun _ s => Stat s) ?_ ?_ h
  · intro x hx
    cases hx
  · intro tr s op hr ih
    obtain ⟨ttr, gs, w⟩ := winv_reach hr
    show Stat (step s op).2
    cases op with
    | encode f =>
      rw [step]
      unfold encode
      split
      · have hall := closeGroup_stat ih (unique_ids w.track.reach)
        have hst := closeGroup_status s
        by_cases hl : s.track.status = .live
        · obtain ⟨t1, i1, -⟩ := close_track w
          have hlv := hst.trans hl
          rw [show Track.step (closeGroup s) .append =
            (.group gs.length, (Track.step (closeGroup s) .append).2) from
              Prod.ext (i1.append hlv).1 rfl]
          dsimp only
          refine write_stat fun x hx => ?_
          rw [Track.step, Track.add, if_pos hlv, i1.next hlv] at hx
          rcases List.mem_append.mp hx with hx | hx
          · rw [hall x hx]
            exact ⟨by simp, by simp⟩
          · rw [List.mem_singleton] at hx
            subst hx
            exact ⟨by simp, fun _ => rfl⟩
        · obtain ⟨h1, -, h3⟩ := append_closed (t := closeGroup s) (by rw [hst]; exact hl)
          rw [show Track.step (closeGroup s) .append =
            (.threw, (Track.step (closeGroup s) .append).2) from Prod.ext h1 rfl]
          dsimp only
          intro x hx
          rw [h3] at hx
          rw [hall x hx]
          exact ⟨by simp, by simp⟩
      · split
        · exact ih
        · exact write_stat ih
    | close =>
      rw [step]
      have i1 := w.track.passive .close trivial
      have hg : (Track.step s.track .close).2.groups = s.track.groups := by
        rw [Track.step]
        split <;> rfl
      intro x hx
      have := closeGroup_stat (s := { s with track := (Track.step s.track .close).2 })
        (stat_congr ih rfl hg) (unique_ids i1.reach) x hx
      rw [this]
      exact ⟨by simp, by simp⟩
    | consume => exact stat_congr ih rfl rfl
    | run c =>
      have hs := onSub_same s.track c (Track.run s.track)
      change _ ∧ (Track.step s.track (.run c)).2.status = _ ∧
        (Track.step s.track (.run c)).2.groups = _ at hs
      rw [step]
      split <;> next he => (rw [he] at hs; exact stat_congr ih rfl hs.2.2)
    | decode c p =>
      have hs := onSub_same s.track c fun u => Track.nextFrame s.track u p
      exact stat_congr ih rfl hs.2.2
    | closeSub c =>
      have hs := onSub_same s.track c fun u =>
        (.ok, { u with
          closed := true
          fetch := .done .undefined
          current := none })
      change _ ∧ (Track.step s.track (.closeSub c)).2.status = _ ∧
        (Track.step s.track (.closeSub c)).2.groups = _ at hs
      rw [step]
      split <;> next he => (rw [he] at hs; exact stat_congr ih rfl hs.2.2)

end Verif.Js.Frames
