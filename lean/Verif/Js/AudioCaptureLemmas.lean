import Verif.Js.AudioCapture
import Verif.Js.CaptureLemmas

/-!
# Invariants of publishing audio from the browser
-/

set_option autoImplicit false

namespace Verif.Js.AudioCapture

open Verif

open Verif.Js.Frames (Input addLast addLast_snoc bytes)
open Verif.Js.Capture (TPart own own_none own_self own_other own_eq start_tpart)

/-! ## Histories -/

theorem written_snoc (tr : Trace) (op : Op) (o : Out) : written (tr ++ [(op, o)]) =
    written tr ++ match op with
      | .output r c => if o ≠ .invalid ∧ c.keyframe then [(r, c)] else []
      | _ => [] := by
  unfold written
  rw [List.filterMap_append]
  congr 1
  cases op with
  | output r c => by_cases h : o ≠ .invalid ∧ c.keyframe = true <;> simp [h]
  | _ => rfl

theorem started_snoc (tr : Trace) (e : Op × Out) (r : Nat) :
    Started (tr ++ [e]) r ↔ Started tr r ∨ e = (.start, .run r) := by
  unfold Started
  simp [eq_comm]

theorem errored_snoc (tr : Trace) (e : Op × Out) (r : Nat) :
    Errored (tr ++ [e]) r ↔ Errored tr r ∨ e = (.error r, .ok) := by
  unfold Errored
  simp [eq_comm]

theorem closed_snoc (tr : Trace) (e : Op × Out) : Closed (tr ++ [e]) ↔ Closed tr ∨ e = (.close, .ok) := by
  unfold Closed
  simp [eq_comm]

theorem stopped_snoc (tr : Trace) (e : Op × Out) (r : Nat) :
    Stopped (tr ++ [e]) r ↔ Stopped tr r ∨ (Started tr r ∧ Ends e) := by
  constructor
  · rintro ⟨pre, x, post, h1, h2, h3⟩
    rcases List.eq_nil_or_concat post with rfl | ⟨post', a, rfl⟩
    · cases h2
    · rw [List.concat_eq_append, ← List.cons_append, ← List.append_assoc] at h1
      obtain ⟨rfl, ha⟩ := List.append_inj' h1 rfl
      cases ha
      rw [List.concat_eq_append] at h2
      rcases List.mem_append.1 h2 with h | h
      · exact .inl ⟨pre, x, post', rfl, h, h3⟩
      · rw [List.mem_singleton.1 h] at h3
        exact .inr ⟨by unfold Started; simp, h3⟩
  · rintro (⟨pre, x, post, rfl, h2, h3⟩ | ⟨h1, h2⟩)
    · exact ⟨pre, x, post ++ [e], by simp, by simp [h2], h3⟩
    · obtain ⟨pre, post, rfl⟩ := List.append_of_mem h1
      exact ⟨pre, e, post ++ [e], by simp, by simp, h2⟩

/-! ## Calls -/

theorem act_eq {s : State} {r : Nat} {t : Track.State} (h : s.tracks[r]? = some t) (op : Track.Op) :
    act s r op = { s with
      tracks := s.tracks.set r (Track.step t op).2
      calls := s.calls ++ [(r, op, (Track.step t op).1)] } := by
  unfold act
  rw [h]

theorem trackTrace_act {s : State} {r : Nat} {t : Track.State} (h : s.tracks[r]? = some t) (op : Track.Op)
    (k : Nat) : trackTrace (act s r op) k =
      trackTrace s k ++ if k = r then [(op, (Track.step t op).1)] else [] := by
  rw [act_eq h]
  unfold trackTrace
  rw [List.filterMap_append]
  congr 1
  by_cases hk : k = r
  · simp [hk]
  · simp [hk, Ne.symm hk]

theorem tracks_act {s : State} {r : Nat} {t : Track.State} (h : s.tracks[r]? = some t) (op : Track.Op)
    (k : Nat) : (act s r op).tracks[k]? = if k = r then some (Track.step t op).2 else s.tracks[k]? := by
  rw [act_eq h]
  have hlt := (List.getElem?_eq_some_iff.1 h).1
  by_cases hk : k = r
  · subst hk
    simp only [if_true]
    exact List.getElem?_set_self hlt
  · rw [if_neg hk]
    exact List.getElem?_set_ne (Ne.symm hk)

theorem length_act (s : State) (r : Nat) (op : Track.Op) : (act s r op).tracks.length = s.tracks.length := by
  unfold act
  split <;> simp

theorem act_group (s : State) (r : Nat) (op : Track.Op) : (act s r op).group = s.group := by
  unfold act
  split <;> rfl

theorem act_timestamp (s : State) (r : Nat) (op : Track.Op) : (act s r op).timestamp = s.timestamp := by
  unfold act
  split <;> rfl

theorem act_current (s : State) (r : Nat) (op : Track.Op) : (act s r op).current = s.current := by
  unfold act
  split <;> rfl

theorem act_working (s : State) (r : Nat) (op : Track.Op) : (act s r op).working = s.working := by
  unfold act
  split <;> rfl

theorem act_closed (s : State) (r : Nat) (op : Track.Op) : (act s r op).closed = s.closed := by
  unfold act
  split <;> rfl

/-! ## Pieces -/

/-- A group: the run whose track it is in, and the chunks, with the runs that put them out. -/
abbrev Piece := Nat × List (Nat × Input)

/-- The groups of track `r`. -/
def mine (gs : List Piece) (r : Nat) : List (List Input) :=
  (gs.filter fun p => p.1 = r).map fun p => p.2.map (·.2)

theorem mine_append (a b : List Piece) (r : Nat) : mine (a ++ b) r = mine a r ++ mine b r := by
  simp [mine]

theorem mine_one (p : Piece) (r : Nat) : mine [p] r = if p.1 = r then [p.2.map (·.2)] else [] := by
  by_cases h : p.1 = r <;> simp [mine, h]

/-- The chunks of a group are within half a second after the first, which is from the run of the track. -/
def Fits (p : Piece) : Prop :=
  ∃ c cs, p.2 = (p.1, c) :: cs ∧
    ∀ x ∈ p.2, x.2.keyframe = true ∧ x.2.timestamp ≤ Container.MAX_U53 ∧
      (x = (p.1, c) ∨ x.2.timestamp - c.timestamp < GOP)

/-- The timestamp of the first chunk. -/
def start (p : Piece) : Option Int := p.2.head?.map (·.2.timestamp)

/-- Each group starts half a second or more after the one before. -/
def Gaps (gs : List Piece) : Prop :=
  ∀ (i : Nat) p q a b, gs[i]? = some p → gs[i + 1]? = some q → start p = some a → start q = some b → GOP ≤ b - a

/-- The tracks, and what was written to them. -/
structure Core (ws : List (Nat × Input)) (s : State) (gs : List Piece) : Prop where
  flat : ws = gs.flatMap (·.2)
  fits : ∀ p ∈ gs, Fits p
  track : ∀ r t, s.tracks[r]? = some t → TPart (trackTrace s r) t (mine gs r) (own s.group r)
  owner : ∀ p ∈ gs, p.1 < s.tracks.length
  calls : ∀ r, s.tracks.length ≤ r → trackTrace s r = []
  last : ∀ k g, s.group = some (k, g) → ∃ p, gs.getLast? = some p ∧ p.1 = k ∧ start p = some s.timestamp

theorem Core.same {ws : List (Nat × Input)} {s s' : State} {gs : List Piece} (i : Core ws s gs)
    (h1 : s'.tracks = s.tracks) (h2 : s'.calls = s.calls) (h3 : s'.group = s.group)
    (h4 : s'.timestamp = s.timestamp) : Core ws s' gs := by
  have ht : ∀ r, trackTrace s' r = trackTrace s r := fun r => by unfold trackTrace; rw [h2]
  refine ⟨i.flat, i.fits, ?_, by rw [h1]; exact i.owner, ?_, by rw [h3, h4]; exact i.last⟩
  · intro r t h
    rw [ht, h3]
    exact i.track r t (by rw [← h1]; exact h)
  · intro r h
    rw [ht]
    exact i.calls r (by rw [← h1]; exact h)

theorem Core.lt {ws : List (Nat × Input)} {s : State} {gs : List Piece} (i : Core ws s gs) {k g : Nat}
    (h : s.group = some (k, g)) : ∃ t, s.tracks[k]? = some t := by
  obtain ⟨p, h1, h2, -⟩ := i.last k g h
  have := i.owner p (List.mem_of_getLast? h1)
  rw [h2] at this
  exact ⟨_, List.getElem?_eq_getElem this⟩

/-- One track gets a call. -/
theorem Core.act {ws ws' : List (Nat × Input)} {s s' : State} {gs gs' : List Piece} (i : Core ws s gs) {r : Nat}
    {t : Track.State} (ht : s.tracks[r]? = some t) (op : Track.Op)
    (h1 : s'.tracks = (act s r op).tracks) (h2 : s'.calls = (AudioCapture.act s r op).calls)
    (hflat : ws' = gs'.flatMap (·.2)) (hfits : ∀ p ∈ gs', Fits p)
    (howner : ∀ p ∈ gs', p.1 < s.tracks.length)
    (hmine : ∀ k, k ≠ r → mine gs' k = mine gs k) (hown : ∀ k, k ≠ r → own s'.group k = own s.group k)
    (hlast : ∀ k g, s'.group = some (k, g) → ∃ p, gs'.getLast? = some p ∧ p.1 = k ∧ start p = some s'.timestamp)
    (hr : TPart (trackTrace s r ++ [(op, (Track.step t op).1)]) (Track.step t op).2 (mine gs' r)
      (own s'.group r)) : Core ws' s' gs' := by
  have htr : ∀ k, trackTrace s' k = trackTrace s k ++ if k = r then [(op, (Track.step t op).1)] else [] := by
    intro k
    rw [← trackTrace_act ht]
    unfold trackTrace
    rw [h2]
  refine ⟨hflat, hfits, ?_, ?_, ?_, hlast⟩
  · intro k t' hk
    rw [h1, tracks_act ht] at hk
    rw [htr]
    by_cases hkr : k = r
    · subst hkr
      simp only [if_true] at hk ⊢
      cases hk
      exact hr
    · rw [if_neg hkr] at hk ⊢
      rw [hmine k hkr, hown k hkr, List.append_nil]
      exact i.track k t' hk
  · rw [h1, length_act]
    exact howner
  · intro k hk
    rw [h1, length_act] at hk
    rw [htr, i.calls k hk]
    have := (List.getElem?_eq_some_iff.1 ht).1
    rw [if_neg (by omega)]
    rfl

/-- A call that does not touch `#group`. -/
theorem Core.quiet {ws : List (Nat × Input)} {s s' : State} {gs : List Piece} (i : Core ws s gs) {r : Nat}
    {t : Track.State} (ht : s.tracks[r]? = some t) (op : Track.Op)
    (h1 : s'.tracks = (AudioCapture.act s r op).tracks) (h2 : s'.calls = (AudioCapture.act s r op).calls)
    (h3 : s'.group = s.group) (h4 : s'.timestamp = s.timestamp)
    (hr : TPart (trackTrace s r ++ [(op, (Track.step t op).1)]) (Track.step t op).2 (mine gs r) (own s.group r)) :
    Core ws s' gs :=
  i.act ht op h1 h2 i.flat i.fits i.owner (fun _ _ => rfl) (fun k _ => by rw [h3]) (by rw [h3, h4]; exact i.last)
    (by rw [h3]; exact hr)

/-- `#group` is ended and forgotten. -/
theorem Core.ended {ws : List (Nat × Input)} {s s' : State} {gs : List Piece} (i : Core ws s gs) {k g : Nat}
    (hg : s.group = some (k, g)) {t : Track.State} (ht : s.tracks[k]? = some t) (op : Track.Op)
    (hop : op = .closeGroup g ∨ op = .abortGroup g)
    (h1 : s'.tracks = (AudioCapture.act s k op).tracks) (h2 : s'.calls = (AudioCapture.act s k op).calls)
    (h3 : s'.group = none) : Core ws s' gs := by
  have hp := i.track k t ht
  rw [hg, own_self] at hp
  refine i.act ht op h1 h2 i.flat i.fits i.owner (fun _ _ => rfl) ?_ ?_ ?_
  · intro k' hk'
    rw [h3, hg, own_none, own_other _ (Ne.symm hk')]
  · intro k' g' h
    rw [h3] at h
    cases h
  · rw [h3, own_none]
    rcases hop with rfl | rfl
    · exact hp.closeGroup.1
    · exact hp.abortGroup.1

theorem step_closeGroup_status {t : Track.State} (g : Nat) : (Track.step t (.closeGroup g)).2.status = t.status := by
  rw [Track.step]
  unfold Track.onGroup
  repeat' split
  all_goals rfl

theorem step_abortGroup_status {t : Track.State} (g : Nat) : (Track.step t (.abortGroup g)).2.status = t.status := by
  rw [Track.step]
  unfold Track.onGroup
  repeat' split
  all_goals rfl

theorem step_write_status {t : Track.State} (g : Nat) (b : Bytes) :
    (Track.step t (.write g b)).2.status = t.status := by
  rw [Track.step]
  unfold Track.onGroup
  repeat' split
  all_goals rfl

theorem step_append_status {t : Track.State} : (Track.step t .append).2.status = t.status := by
  rw [Track.step]
  unfold Track.add
  split <;> rfl

/-- How a track ended. -/
def status (s : State) (r : Nat) : Option Group.Status := (s.tracks[r]?).map (·.status)

theorem status_act {s : State} {r : Nat} {op : Track.Op} (h : ∀ t, (Track.step t op).2.status = t.status)
    (k : Nat) : status (act s r op) k = status s k := by
  unfold status
  cases ht : s.tracks[r]? with
  | none =>
    unfold act
    rw [ht]
  | some t =>
    rw [tracks_act ht]
    by_cases hk : k = r
    · rw [if_pos hk, hk, ht]
      simp [h]
    · rw [if_neg hk]

/-! ## The callback `output` -/

/-- What is the same after a step that writes. -/
structure Keeps (s s' : State) : Prop where
  current : s'.current = s.current
  working : s'.working = s.working
  closed : s'.closed = s.closed
  length : s'.tracks.length = s.tracks.length
  status : ∀ k, status s' k = status s k

theorem Keeps.refl (s : State) : Keeps s s := ⟨rfl, rfl, rfl, rfl, fun _ => rfl⟩

theorem Keeps.trans {a b c : State} (h1 : Keeps a b) (h2 : Keeps b c) : Keeps a c :=
  ⟨h2.current.trans h1.current, h2.working.trans h1.working, h2.closed.trans h1.closed,
    h2.length.trans h1.length, fun k => (h2.status k).trans (h1.status k)⟩

theorem keeps_act {s : State} {r : Nat} {op : Track.Op} (h : ∀ t, (Track.step t op).2.status = t.status) :
    Keeps s (act s r op) :=
  ⟨act_current .., act_working .., act_closed .., length_act .., status_act h⟩

theorem keeps_same {s s' : State} (h1 : s'.tracks = s.tracks) (h2 : s'.current = s.current)
    (h3 : s'.working = s.working) (h4 : s'.closed = s.closed) : Keeps s s' :=
  ⟨h2, h3, h4, by rw [h1], fun k => by unfold status; rw [h1]⟩

theorem fits_one (r : Nat) (c : Input) (hk : c.keyframe = true) (hb : c.timestamp ≤ Container.MAX_U53) :
    Fits (r, [(r, c)]) := by
  refine ⟨c, [], rfl, ?_⟩
  intro x hx
  rw [List.mem_singleton.1 hx]
  exact ⟨hk, hb, .inl rfl⟩

theorem fits_more {p : Piece} (h : Fits p) {ts : Int} (hs : start p = some ts) (r : Nat) (c : Input)
    (hk : c.keyframe = true) (hb : c.timestamp ≤ Container.MAX_U53) (hg : c.timestamp - ts < GOP) :
    Fits (p.1, p.2 ++ [(r, c)]) := by
  obtain ⟨a, cs, h1, h2⟩ := h
  refine ⟨a, cs ++ [(r, c)], by rw [h1]; rfl, ?_⟩
  intro x hx
  rcases List.mem_append.1 hx with hx | hx
  · exact h2 x hx
  · rw [List.mem_singleton.1 hx]
    refine ⟨hk, hb, .inr ?_⟩
    unfold start at hs
    rw [h1] at hs
    cases hs
    exact hg

/-- The frame is written to `#group`. -/
theorem write_core {ws : List (Nat × Input)} {s : State} {gs : List Piece} {p : Piece} (i : Core ws s (gs ++ [p]))
    {k g : Nat} (hg : s.group = some (k, g)) (r : Nat) (c : Input) (hk : c.keyframe = true)
    (hb : c.timestamp ≤ Container.MAX_U53) (hd : c.timestamp - s.timestamp < GOP) :
    (write s k g c).1 = .wrote k g ∧ Core (ws ++ [(r, c)]) (write s k g c).2 (gs ++ [(p.1, p.2 ++ [(r, c)])]) ∧
    Keeps s (write s k g c).2 ∧ (write s k g c).2.group = s.group ∧
    (write s k g c).2.timestamp = s.timestamp := by
  obtain ⟨t, ht⟩ := i.lt hg
  obtain ⟨p', hp1, hp2, hp3⟩ := i.last k g hg
  rw [List.getLast?_concat] at hp1
  cases hp1
  have hp := i.track k t ht
  rw [hg, own_self] at hp
  obtain ⟨w1, w2, -⟩ := hp.write c
  have hw : write s k g c = (.wrote k g, act s k (.write g (bytes c))) := by
    unfold write
    rw [Container.encodeFrame_eq c.data c.timestamp hb]
    dsimp only
    rw [ht]
    dsimp only
    rw [show Container.header c.timestamp ++ c.data = bytes c from rfl, w1, if_pos rfl]
  rw [hw]
  refine ⟨rfl, ?_, keeps_act fun t => step_write_status .., act_group .., act_timestamp ..⟩
  refine i.act ht _ rfl rfl ?_ ?_ ?_ ?_ ?_ ?_ ?_
  · rw [i.flat]
    simp
  · intro q hq
    rcases List.mem_append.1 hq with hq | hq
    · exact i.fits q (List.mem_append_left _ hq)
    · rw [List.mem_singleton.1 hq]
      exact fits_more (i.fits p (by simp)) hp3 r c hk hb hd
  · intro q hq
    rcases List.mem_append.1 hq with hq | hq
    · exact i.owner q (List.mem_append_left _ hq)
    · rw [List.mem_singleton.1 hq]
      exact i.owner p (by simp)
  · intro k' hk'
    rw [mine_append, mine_append, mine_one, mine_one, hp2, if_neg (Ne.symm hk'), if_neg (Ne.symm hk')]
  · intro k' _
    rw [act_group]
  · intro k' g' h
    rw [act_group, hg] at h
    cases h
    refine ⟨_, List.getLast?_concat, hp2, ?_⟩
    rw [act_timestamp]
    unfold start at hp3 ⊢
    dsimp only
    cases hpp : p.2 with
    | nil => rw [hpp] at hp3; cases hp3
    | cons a as => rw [hpp] at hp3; exact hp3
  · rw [act_group, hg, own_self]
    have : mine (gs ++ [(p.1, p.2 ++ [(r, c)])]) k = addLast (mine (gs ++ [p]) k) c := by
      rw [mine_append, mine_append, mine_one, mine_one, hp2]
      dsimp only
      rw [if_pos rfl, if_pos rfl, addLast_snoc]
      simp
    rw [this]
    exact w2

theorem closeGroup_core {ws : List (Nat × Input)} {s : State} {gs : List Piece} (i : Core ws s gs) :
    Core ws { closeGroup s with group := none } gs ∧ Keeps s (closeGroup s) := by
  unfold closeGroup
  cases hg : s.group with
  | none => exact ⟨i.same rfl rfl hg.symm rfl, .refl s⟩
  | some p =>
    obtain ⟨k, g⟩ := p
    obtain ⟨t, ht⟩ := i.lt hg
    exact ⟨i.ended hg ht (.closeGroup g) (.inl rfl) rfl rfl rfl, keeps_act fun t => step_closeGroup_status _⟩

theorem abortGroup_core {ws : List (Nat × Input)} {s : State} {gs : List Piece} (i : Core ws s gs) :
    Core ws { abortGroup s with group := none } gs ∧ Keeps s (abortGroup s) := by
  unfold abortGroup
  cases hg : s.group with
  | none => exact ⟨i.same rfl rfl hg.symm rfl, .refl s⟩
  | some p =>
    obtain ⟨k, g⟩ := p
    obtain ⟨t, ht⟩ := i.lt hg
    exact ⟨i.ended hg ht (.abortGroup g) (.inr rfl) rfl rfl rfl, keeps_act fun t => step_abortGroup_status _⟩

/-- A new group is started. -/
theorem rotate_core {ws : List (Nat × Input)} {s : State} {gs : List Piece} (i : Core ws s gs) {r : Nat}
    (hl : status s r = some .live) (c : Input) (hk : c.keyframe = true)
    (hb : c.timestamp ≤ Container.MAX_U53) :
    (rotate s r c).1 = .wrote r (mine gs r).length ∧
    Core (ws ++ [(r, c)]) (rotate s r c).2 (gs ++ [(r, [(r, c)])]) ∧
    Keeps s (rotate s r c).2 ∧ (rotate s r c).2.group = some (r, (mine gs r).length) ∧
    (rotate s r c).2.timestamp = c.timestamp := by
  obtain ⟨j, hkeep⟩ := closeGroup_core i
  unfold rotate
  dsimp only
  generalize closeGroup s = s1 at j hkeep
  have hl1 : status s1 r = some .live := by rw [hkeep.status]; exact hl
  unfold status at hl1
  cases ht : s1.tracks[r]? with
  | none => rw [ht] at hl1; cases hl1
  | some t =>
    rw [ht] at hl1
    have hlive : t.status = .live := by simpa using hl1
    have hp := j.track r t ht
    have hp : TPart (trackTrace s1 r) t (mine gs r) none := hp
    obtain ⟨a1, a2, -⟩ := hp.append hlive
    dsimp only
    have ht1 : ({ s1 with group := none } : State).tracks[r]? = some t := ht
    have ha : act { s1 with group := none } r .append = { act s1 r .append with group := none } := by
      rw [act_eq ht, act_eq ht1]
    generalize hn : (mine gs r).length = n at a1 a2 ⊢
    rw [a1]
    dsimp only
    -- an empty group for a moment, and then the frame
    have hlen := (List.getElem?_eq_some_iff.1 ht).1
    have hs2 : ({ act s1 r .append with group := some (r, n), timestamp := c.timestamp } : State).tracks[r]? =
        some (Track.step t .append).2 := by
      have := tracks_act ht .append r
      rw [if_pos rfl] at this
      exact this
    have htr2 : ∀ k, trackTrace { act s1 r .append with group := some (r, n), timestamp := c.timestamp } k =
        trackTrace s1 k ++ if k = r then [(.append, (Track.step t .append).1)] else [] := by
      intro k
      exact trackTrace_act ht .append k
    obtain ⟨w1, w2, w3⟩ := a2.write c
    have hw : write { act s1 r .append with group := some (r, n), timestamp := c.timestamp } r n c =
        (.wrote r n, act { act s1 r .append with group := some (r, n), timestamp := c.timestamp } r
          (.write n (bytes c))) := by
      unfold write
      rw [Container.encodeFrame_eq c.data c.timestamp hb]
      dsimp only
      rw [hs2]
      dsimp only
      rw [show Container.header c.timestamp ++ c.data = bytes c from rfl, w1, if_pos rfl]
    rw [hw]
    have hmine : mine (gs ++ [(r, [(r, c)])]) r = addLast (mine gs r ++ [[]]) c := by
      rw [mine_append, mine_one, addLast_snoc]
      simp
    refine ⟨rfl, ?_, ?_, act_group .., act_timestamp ..⟩
    · refine ⟨?_, ?_, ?_, ?_, ?_, ?_⟩
      · rw [i.flat]
        simp
      · intro q hq
        rcases List.mem_append.1 hq with hq | hq
        · exact i.fits q hq
        · rw [List.mem_singleton.1 hq]
          exact fits_one r c hk hb
      · intro k t' hk'
        rw [tracks_act hs2] at hk'
        rw [trackTrace_act hs2, htr2, act_group]
        by_cases hkr : k = r
        · subst hkr
          simp only [if_true] at hk' ⊢
          cases hk'
          rw [own_self, hmine]
          exact w2
        · rw [if_neg hkr] at hk' ⊢
          have hk2 : s1.tracks[k]? = some t' := by
            have := tracks_act ht .append k
            rw [if_neg hkr] at this
            rw [← this]
            exact hk'
          rw [if_neg hkr, own_other _ (Ne.symm hkr), mine_append, mine_one, if_neg (Ne.symm hkr), List.append_nil,
            List.append_nil, List.append_nil]
          exact j.track k t' hk2
      · rw [length_act]
        change ∀ p ∈ gs ++ [(r, [(r, c)])], p.1 < (act s1 r .append).tracks.length
        rw [length_act]
        intro q hq
        rcases List.mem_append.1 hq with hq | hq
        · exact j.owner q hq
        · rw [List.mem_singleton.1 hq]
          exact hlen
      · intro k hk'
        rw [length_act] at hk'
        have hk2 : s1.tracks.length ≤ k := by
          rw [← length_act s1 r .append]
          exact hk'
        have hkr : k ≠ r := by omega
        rw [trackTrace_act hs2, htr2, if_neg hkr, if_neg hkr, List.append_nil, List.append_nil]
        exact j.calls k hk2
      · intro k g h
        rw [act_group] at h
        rw [act_timestamp]
        cases h
        exact ⟨_, List.getLast?_concat, rfl, rfl⟩
    · refine hkeep.trans ((keeps_act (r := r) fun t => step_append_status).trans ?_)
      exact (keeps_same (s := act s1 r .append)
        (s' := { act s1 r .append with group := some (r, n), timestamp := c.timestamp }) rfl rfl rfl rfl).trans (keeps_act fun t => step_write_status ..)

/-- A chunk is written, and how that changes the groups. -/
theorem emit_core {ws : List (Nat × Input)} {s : State} {gs : List Piece} (i : Core ws s gs) {r : Nat}
    (hl : status s r = some .live) (c : Input) (hk : c.keyframe = true)
    (hb : c.timestamp ≤ Container.MAX_U53) :
    ∃ gs' k g, (emit s r c).1 = .wrote k g ∧ Core (ws ++ [(r, c)]) (emit s r c).2 gs' ∧
      Keeps s (emit s r c).2 ∧ (emit s r c).2.group = some (k, g) ∧
      ((gs' = gs ++ [(r, [(r, c)])] ∧ k = r ∧ (emit s r c).2.timestamp = c.timestamp ∧
          (s.group = none ∨ GOP ≤ c.timestamp - s.timestamp)) ∨
        (∃ gs0 p, gs = gs0 ++ [p] ∧ gs' = gs0 ++ [(p.1, p.2 ++ [(r, c)])] ∧ s.group = some (k, g) ∧
          (emit s r c).2.timestamp = s.timestamp ∧ c.timestamp - s.timestamp < GOP)) := by
  unfold emit
  rw [if_pos hk]
  cases hg : s.group with
  | none =>
    dsimp only
    obtain ⟨h1, h2, h3, h4, h5⟩ := rotate_core i hl c hk hb
    exact ⟨_, _, _, h1, h2, h3, h4, .inl ⟨rfl, rfl, h5, .inl rfl⟩⟩
  | some p =>
    obtain ⟨k, g⟩ := p
    dsimp only
    split
    · next hd =>
      obtain ⟨h1, h2, h3, h4, h5⟩ := rotate_core i hl c hk hb
      exact ⟨_, _, _, h1, h2, h3, h4, .inl ⟨rfl, rfl, h5, .inr hd⟩⟩
    · next hd =>
      obtain ⟨p, hp1, -, -⟩ := i.last k g hg
      obtain ⟨gs0, rfl⟩ := List.getLast?_eq_some_iff.1 hp1
      have hd' : c.timestamp - s.timestamp < GOP := by omega
      obtain ⟨h1, h2, h3, h4, h5⟩ := write_core i hg r c hk hb hd'
      exact ⟨_, k, g, h1, h2, h3, by rw [h4, hg], .inr ⟨gs0, p, rfl, rfl, rfl, h5, hd'⟩⟩

/-! ## Invariant -/

structure Inv (tr : Trace) (s : State) : Prop where
  core : ∃ gs, Core (written tr) s gs ∧ ((∀ r, ¬ Errored tr r) → Gaps gs ∧ (s.group = none → gs = []))
  started : ∀ r, Started tr r ↔ r < s.tracks.length
  closed : s.closed = true ↔ Closed tr
  shut : s.closed = true → s.current = none
  current : ∀ r, s.current = some r ↔ Started tr r ∧ ¬ Stopped tr r
  last : ∀ r, s.current = some r → r + 1 = s.tracks.length
  working : s.working = true ↔ ∃ r, s.current = some r ∧ ¬ Errored tr r
  errored : ∀ r, Errored tr r → r < s.tracks.length
  status : ∀ r x, status s r = some x →
    (x = .aborted ↔ Errored tr r) ∧ (x = .closed ↔ Stopped tr r ∧ ¬ Errored tr r)

theorem Inv.live {tr : Trace} {s : State} (i : Inv tr s) {r : Nat} (hc : s.current = some r)
    (hw : s.working = true) : AudioCapture.status s r = some .live ∧ ¬ Errored tr r := by
  have hlt := i.last r hc
  obtain ⟨k, hk, he⟩ := i.working.1 hw
  rw [hc] at hk
  cases hk
  refine ⟨?_, he⟩
  have hs : AudioCapture.status s r = some s.tracks[r].status := by
    unfold AudioCapture.status
    rw [List.getElem?_eq_getElem (by omega)]
    rfl
  rw [hs]
  obtain ⟨h1, h2⟩ := i.status r _ hs
  cases hx : s.tracks[r].status with
  | live => rfl
  | closed => exact absurd (h2.1 hx).1 ((i.current r).1 hc).2
  | aborted => exact absurd (h1.1 hx) he

/-- What a history says is not changed by an event. -/
structure Silent (tr : Trace) (e : Op × Out) : Prop where
  started : ∀ r, Started (tr ++ [e]) r ↔ Started tr r
  errored : ∀ r, Errored (tr ++ [e]) r ↔ Errored tr r
  closed : Closed (tr ++ [e]) ↔ Closed tr
  stopped : ∀ r, Stopped (tr ++ [e]) r ↔ Stopped tr r

theorem silent_of (tr : Trace) (e : Op × Out) (h1 : ∀ r, e ≠ (.start, .run r)) (h2 : ∀ r, e ≠ (.error r, .ok))
    (h3 : e ≠ (.close, .ok)) (h4 : e ≠ (.stop, .ok)) : Silent tr e := by
  refine ⟨fun r => ?_, fun r => ?_, ?_, fun r => ?_⟩
  · simp [started_snoc, h1]
  · simp [errored_snoc, h2]
  · simp [closed_snoc, h3]
  · simp [stopped_snoc, Ends, h1, h3, h4]

theorem Inv.silent {tr : Trace} {s s' : State} (i : Inv tr s) {e : Op × Out} (h : Silent tr e) (k : Keeps s s')
    (hcore : ∃ gs, Core (written (tr ++ [e])) s' gs ∧
      ((∀ r, ¬ Errored tr r) → Gaps gs ∧ (s'.group = none → gs = []))) : Inv (tr ++ [e]) s' := by
  refine ⟨?_, ?_, ?_, ?_, ?_, ?_, ?_, ?_, ?_⟩
  · simp only [h.errored]
    exact hcore
  · simp only [h.started, k.length]
    exact i.started
  · rw [h.closed, k.closed]
    exact i.closed
  · rw [k.closed, k.current]
    exact i.shut
  · simp only [h.started, h.stopped, k.current]
    exact i.current
  · rw [k.current, k.length]
    exact i.last
  · simp only [h.errored, k.current, k.working]
    exact i.working
  · simp only [h.errored, k.length]
    exact i.errored
  · simp only [h.errored, h.stopped, k.status]
    exact i.status

/-- Nothing happens. -/
theorem Inv.noop {tr : Trace} {s : State} (i : Inv tr s) {e : Op × Out} (h : Silent tr e)
    (hw : written (tr ++ [e]) = written tr) : Inv (tr ++ [e]) s := by
  refine i.silent h (.refl s) ?_
  rw [hw]
  exact i.core

theorem gaps_add {gs : List Piece} (h : Gaps gs) (q : Piece)
    (hq : ∀ p a b, gs.getLast? = some p → start p = some a → start q = some b → GOP ≤ b - a) :
    Gaps (gs ++ [q]) := by
  intro i p p' a b h1 h2 h3 h4
  have hi := (List.getElem?_eq_some_iff.1 h2).1
  rw [List.length_append, List.length_singleton] at hi
  have hlt : i < gs.length := by omega
  rw [List.getElem?_append_left hlt] at h1
  by_cases hl : i + 1 < gs.length
  · rw [List.getElem?_append_left hl] at h2
    exact h i p p' a b h1 h2 h3 h4
  · have he : i + 1 = gs.length := by omega
    rw [he, List.getElem?_append_right (Nat.le_refl _), Nat.sub_self] at h2
    cases h2
    refine hq p a b ?_ h3 h4
    rw [List.getLast?_eq_getElem?, ← h1]
    congr 1
    omega

theorem gaps_last {gs : List Piece} {p q : Piece} (h : Gaps (gs ++ [p])) (hs : start q = start p) :
    Gaps (gs ++ [q]) := by
  intro i x y a b h1 h2 h3 h4
  have hi := (List.getElem?_eq_some_iff.1 h2).1
  rw [List.length_append, List.length_singleton] at hi
  have hlt : i < gs.length := by omega
  rw [List.getElem?_append_left hlt] at h1
  have h1' : (gs ++ [p])[i]? = some x := by rw [List.getElem?_append_left hlt]; exact h1
  by_cases hl : i + 1 < gs.length
  · rw [List.getElem?_append_left hl] at h2
    exact h i x y a b h1' (by rw [List.getElem?_append_left hl]; exact h2) h3 h4
  · have he : i + 1 = gs.length := by omega
    rw [he, List.getElem?_append_right (Nat.le_refl _), Nat.sub_self] at h2
    cases h2
    rw [hs] at h4
    refine h i x p a b h1' ?_ h3 h4
    rw [he, List.getElem?_append_right (Nat.le_refl _), Nat.sub_self]
    rfl

theorem start_more {p : Piece} (h : Fits p) (x : Nat × Input) :
    start (p.1, p.2 ++ [x]) = start p := by
  obtain ⟨c, cs, h1, -⟩ := h
  unfold start
  rw [h1]
  rfl

theorem Inv.output {tr : Trace} {s : State} (i : Inv tr s) (r : Nat) (c : Input) :
    Inv (tr ++ [(.output r c, (step s (.output r c)).1)]) (step s (.output r c)).2 := by
  have hsil : ∀ o, Silent tr (.output r c, o) := fun o => by
    apply silent_of <;> simp
  have hno : ∀ o, (o = .invalid ∨ c.keyframe = false) → Inv (tr ++ [(.output r c, o)]) s := by
    intro o ho
    refine i.noop (hsil o) ?_
    rw [written_snoc]
    dsimp only
    rw [if_neg (by rcases ho with h | h <;> simp [h]), List.append_nil]
  rw [step]
  split
  · next h =>
    cases hk : c.keyframe with
    | false =>
      unfold emit
      rw [hk]
      exact hno .notKey (.inr hk)
    | true =>
      obtain ⟨gs, hcore, hgap⟩ := i.core
      obtain ⟨gs', k, g, h1, h2, h3, h4, h5⟩ := emit_core hcore (i.live h.1 h.2.1).1 c hk h.2.2
      rw [h1]
      refine i.silent (hsil _) h3 ⟨gs', ?_, fun he => ⟨?_, ?_⟩⟩
      · rw [written_snoc]
        dsimp only
        rw [if_pos ⟨by simp, hk⟩]
        exact h2
      · obtain ⟨g1, g2⟩ := hgap he
        rcases h5 with ⟨rfl, -, -, h7⟩ | ⟨gs0, p, rfl, rfl, h6, -, -⟩
        · refine gaps_add g1 _ ?_
          intro p a b hp ha hb
          cases hb
          rcases h7 with h7 | h7
          · rw [g2 h7] at hp
            cases hp
          · cases hg : s.group with
            | none =>
              rw [g2 hg] at hp
              cases hp
            | some q =>
              obtain ⟨p', hp', -, hs'⟩ := hcore.last q.1 q.2 hg
              rw [hp] at hp'
              cases hp'
              rw [ha] at hs'
              cases hs'
              exact h7
        · exact gaps_last g1 (start_more (hcore.fits p (by simp)) _)
      · rw [h4]
        intro h
        cases h
  · exact hno .invalid (.inl rfl)

theorem Inv.track {tr : Trace} {s : State} (i : Inv tr s) (r : Nat) (op : Track.Op) :
    Inv (tr ++ [(.track r op, (step s (.track r op)).1)]) (step s (.track r op)).2 := by
  have hsil : ∀ o, Silent tr (.track r op, o) := fun o => by
    apply silent_of <;> simp
  have hw : ∀ o, written (tr ++ [(.track r op, o)]) = written tr := fun o => by
    rw [written_snoc]
    simp
  rw [step]
  cases ht : s.tracks[r]? with
  | none => exact i.noop (hsil _) (hw _)
  | some t =>
    dsimp only
    split
    · next hop =>
      obtain ⟨gs, hcore, hgap⟩ := i.core
      obtain ⟨h1, -⟩ := (hcore.track r t ht).reads op hop
      refine i.silent (hsil _) (keeps_act fun t => (Receive.reads_keeps hop t).2.1) ⟨gs, ?_, ?_⟩
      · rw [hw]
        exact hcore.quiet ht op rfl rfl (act_group ..) (act_timestamp ..) h1
      · rw [act_group]
        exact hgap
    · exact i.noop (hsil _) (hw _)

/-! ## Starting, stopping and failing -/

theorem cleanup_core {ws : List (Nat × Input)} {s : State} {gs : List Piece} (i : Core ws s gs) :
    Core ws (cleanup s) gs := by
  unfold cleanup
  cases hc : s.current with
  | none => exact i
  | some r =>
    dsimp only
    split
    · cases ht : s.tracks[r]? with
      | none =>
        have : act s r .close = s := by
          unfold act
          rw [ht]
        rw [this]
        exact i.same rfl rfl rfl rfl
      | some t => exact i.quiet ht .close rfl rfl (act_group ..) (act_timestamp ..) (i.track r t ht).close
    · exact i.same rfl rfl rfl rfl

theorem cleanup_current (s : State) : (cleanup s).current = none := by
  unfold cleanup
  split
  · rfl
  · next h => exact h

theorem cleanup_group (s : State) : (cleanup s).group = s.group := by
  unfold cleanup
  split
  · dsimp only
    split
    · exact act_group ..
    · rfl
  · rfl

theorem cleanup_closed (s : State) : (cleanup s).closed = s.closed := by
  unfold cleanup
  split
  · dsimp only
    split
    · exact act_closed ..
    · rfl
  · rfl

theorem cleanup_length (s : State) : (cleanup s).tracks.length = s.tracks.length := by
  unfold cleanup
  split
  · dsimp only
    split
    · exact length_act ..
    · rfl
  · rfl

theorem close_status (t : Track.State) : (Track.step t .close).2.status =
    if t.status = .live then .closed else t.status := by
  rw [Track.step]
  split <;> rfl

theorem abort_status (t : Track.State) : (Track.step t .abort).2.status =
    if t.status = .live then .aborted else t.status := by
  rw [Track.step]
  split <;> rfl

theorem status_lt {s : State} {r : Nat} {x : Group.Status} (h : status s r = some x) : r < s.tracks.length := by
  unfold status at h
  cases ht : s.tracks[r]? with
  | none => rw [ht] at h; cases h
  | some t => exact (List.getElem?_eq_some_iff.1 ht).1

theorem cleanup_working {tr : Trace} {s : State} (i : Inv tr s) : (cleanup s).working = false := by
  unfold cleanup
  split
  · rfl
  · next h =>
    cases hw : s.working with
    | false => rfl
    | true =>
      obtain ⟨r, hr, -⟩ := i.working.1 hw
      rw [h] at hr
      cases hr

/-- After the cleanup, every run has ended. -/
theorem cleanup_status {tr : Trace} {s : State} (i : Inv tr s) (r : Nat) (x : Group.Status)
    (h : status (cleanup s) r = some x) :
    (x = .aborted ↔ Errored tr r) ∧ (x = .closed ↔ ¬ Errored tr r) := by
  have hlt : r < s.tracks.length := by
    rw [← cleanup_length]
    exact status_lt h
  have hold : ∀ y, AudioCapture.status s r = some y → s.current ≠ some r →
      (y = .aborted ↔ Errored tr r) ∧ (y = .closed ↔ ¬ Errored tr r) := by
    intro y hy hc
    obtain ⟨h1, h2⟩ := i.status r y hy
    have hst : Stopped tr r := Classical.byContradiction fun hn => hc ((i.current r).2 ⟨(i.started r).2 hlt, hn⟩)
    exact ⟨h1, by rw [h2]; simp [hst]⟩
  unfold cleanup at h
  cases hc : s.current with
  | none =>
    rw [hc] at h
    exact hold x h (by rw [hc]; simp)
  | some k =>
    rw [hc] at h
    dsimp only at h
    by_cases hrk : r = k
    · subst hrk
      cases hw : s.working with
      | false =>
        rw [hw] at h
        have h' : AudioCapture.status s r = some x := h
        have her : Errored tr r := Classical.byContradiction fun hn => by
          have := i.working.2 ⟨r, hc, hn⟩
          rw [hw] at this
          cases this
        have hx := (i.status r x h').1.2 her
        subst hx
        exact ⟨by simp [her], by simp [her]⟩
      | true =>
        rw [hw, if_pos rfl] at h
        obtain ⟨h1, h2⟩ := i.live hc hw
        unfold AudioCapture.status at h h1
        cases ht : s.tracks[r]? with
        | none => rw [ht] at h1; cases h1
        | some t =>
          rw [ht] at h1
          dsimp only at h
          rw [tracks_act ht, if_pos rfl] at h
          have hl : t.status = .live := by simpa using h1
          have hx : x = .closed := by
            have := close_status t
            rw [if_pos hl] at this
            rw [Option.map_some, this] at h
            exact (Option.some.inj h).symm
          subst hx
          exact ⟨by simp [h2], by simp [h2]⟩
    · refine hold x ?_ (by rw [hc]; simpa using Ne.symm hrk)
      unfold AudioCapture.status at h ⊢
      rw [← h]
      dsimp only
      split
      · cases ht : s.tracks[k]? with
        | none =>
          unfold act
          rw [ht]
        | some t => rw [tracks_act ht, if_neg hrk]
      · rfl

theorem Inv.stop {tr : Trace} {s s' : State} (i : Inv tr s) {e : Op × Out} (he : Ends e)
    (hs : ∀ r, e ≠ (.start, .run r)) (hw : written (tr ++ [e]) = written tr)
    (h1 : s'.tracks = (cleanup s).tracks) (h2 : s'.calls = (cleanup s).calls) (h3 : s'.group = s.group)
    (h4 : s'.timestamp = (cleanup s).timestamp) (h5 : s'.current = none) (h6 : s'.working = false)
    (h7 : s'.closed = true ↔ Closed (tr ++ [e])) : Inv (tr ++ [e]) s' := by
  obtain ⟨gs, hcore, hgap⟩ := i.core
  have herr : ∀ r, Errored (tr ++ [e]) r ↔ Errored tr r := by
    intro r
    rw [errored_snoc]
    refine ⟨fun h => h.elim id fun h => ?_, .inl⟩
    subst h
    rcases he with h | h | ⟨k, h⟩ <;> cases h
  have hst : ∀ r, Started (tr ++ [e]) r ↔ Started tr r := by
    intro r
    simp [started_snoc, hs]
  have hstop : ∀ r, Stopped (tr ++ [e]) r ↔ Stopped tr r ∨ Started tr r := by
    intro r
    simp [stopped_snoc, he]
  have hlen : s'.tracks.length = s.tracks.length := by rw [h1, cleanup_length]
  refine ⟨⟨gs, ?_, ?_⟩, ?_, h7, fun _ => h5, ?_, ?_, ?_, ?_, ?_⟩
  · rw [hw]
    exact (cleanup_core hcore).same h1 h2 (by rw [h3, cleanup_group]) h4
  · simp only [herr]
    rw [h3]
    exact hgap
  · simp only [hst, hlen]
    exact i.started
  · intro r
    rw [h5, hst, hstop]
    simp only [reduceCtorEq, false_iff]
    rintro ⟨a, b⟩
    exact b (.inr a)
  · rw [h5]
    intro r h
    cases h
  · rw [h5, h6]
    simp
  · simp only [herr, hlen]
    exact i.errored
  · intro r x h
    have h' : AudioCapture.status (cleanup s) r = some x := by
      unfold AudioCapture.status at h ⊢
      rw [← h1]
      exact h
    obtain ⟨a, b⟩ := cleanup_status i r x h'
    have hlt := status_lt h
    rw [hlen] at hlt
    rw [herr, hstop]
    exact ⟨a, by rw [b]; simp [(i.started r).2 hlt]⟩

theorem Inv.start {tr : Trace} {s : State} (i : Inv tr s) (hcl : s.closed = false) :
    Inv (tr ++ [(.start, .run (cleanup s).tracks.length)]) { cleanup s with
      tracks := (cleanup s).tracks ++ [Track.init]
      current := some (cleanup s).tracks.length
      working := true } := by
  obtain ⟨gs, hcore, hgap⟩ := i.core
  have j := cleanup_core hcore
  have hlen := cleanup_length s
  have hgr := cleanup_group s
  have hclo := cleanup_closed s
  have hstat := cleanup_status i
  rw [hlen]
  have herr : ∀ r, Errored (tr ++ [(.start, .run s.tracks.length)]) r ↔ Errored tr r := by
    intro r
    simp [errored_snoc]
  have hstart : ∀ r, Started (tr ++ [(.start, .run s.tracks.length)]) r ↔ r < s.tracks.length + 1 := by
    intro r
    rw [started_snoc, i.started]
    simp only [Prod.mk.injEq, true_and, Out.run.injEq]
    omega
  have hstop : ∀ r, Stopped (tr ++ [(.start, .run s.tracks.length)]) r ↔ r < s.tracks.length := by
    intro r
    rw [stopped_snoc, i.started]
    refine ⟨fun h => h.elim (fun ⟨pre, e, post, h1, _, _⟩ => ?_) (·.1), fun h => .inr ⟨h, .inr (.inr ⟨_, rfl⟩)⟩⟩
    rw [← i.started, h1]
    unfold Started
    simp
  have hw : written (tr ++ [(.start, .run s.tracks.length)]) = written tr := by
    rw [written_snoc]
    simp
  have hne : ∀ r, Errored tr r → r < s.tracks.length := i.errored
  generalize cleanup s = u at j hlen hgr hclo hstat
  have htr : ∀ r, trackTrace { u with
      tracks := u.tracks ++ [Track.init], current := some s.tracks.length, working := true } r = trackTrace u r :=
    fun _ => rfl
  refine ⟨⟨gs, ⟨?_, j.fits, ?_, ?_, ?_, j.last⟩, ?_⟩, ?_, ?_, ?_, ?_, ?_, ?_, ?_, ?_⟩
  · rw [hw]
    exact j.flat
  · intro r t ht
    dsimp only at ht
    rw [htr]
    by_cases hlt : r < u.tracks.length
    · rw [List.getElem?_append_left hlt] at ht
      exact j.track r t ht
    · have hge : u.tracks.length ≤ r := by omega
      rw [List.getElem?_append_right hge] at ht
      have he : r = u.tracks.length := by
        have := (List.getElem?_eq_some_iff.1 ht).1
        rw [List.length_singleton] at this
        omega
      subst he
      rw [Nat.sub_self] at ht
      cases ht
      have hm : mine gs u.tracks.length = [] := by
        unfold mine
        rw [List.map_eq_nil_iff, List.filter_eq_nil_iff]
        intro p hp
        have := j.owner p hp
        simp only [decide_eq_true_eq]
        omega
      have ho : own u.group u.tracks.length = none := by
        cases ho : own u.group u.tracks.length with
        | none => rfl
        | some g =>
          obtain ⟨t, ht⟩ := j.lt (own_eq.1 ho)
          have := (List.getElem?_eq_some_iff.1 ht).1
          omega
      rw [j.calls _ (Nat.le_refl _), hm]
      dsimp only
      rw [ho]
      exact start_tpart
  · intro p hp
    have := j.owner p hp
    simp only [List.length_append, List.length_singleton]
    omega
  · intro r hr
    rw [htr]
    simp only [List.length_append, List.length_singleton] at hr
    exact j.calls r (by omega)
  · simp only [herr]
    intro he
    obtain ⟨g1, g2⟩ := hgap he
    exact ⟨g1, by rw [hgr]; exact g2⟩
  · intro r
    rw [hstart]
    simp [hlen]
  · rw [closed_snoc]
    dsimp only
    rw [hclo, i.closed]
    simp
  · dsimp only
    rw [hclo, hcl]
    intro h
    cases h
  · intro r
    rw [hstart, hstop]
    simp only [Option.some.injEq]
    omega
  · intro r h
    cases h
    simp [hlen]
  · simp only [herr, true_iff]
    refine ⟨_, rfl, fun h => ?_⟩
    have := hne _ h
    omega
  · intro r h
    have := hne r ((herr r).1 h)
    simp only [List.length_append, List.length_singleton, hlen]
    omega
  · intro r x h
    rw [herr, hstop]
    unfold AudioCapture.status at h
    dsimp only at h
    by_cases hlt : r < u.tracks.length
    · rw [List.getElem?_append_left hlt] at h
      obtain ⟨a, b⟩ := hstat r x h
      rw [hlen] at hlt
      exact ⟨a, by rw [b]; simp [hlt]⟩
    · have hge : u.tracks.length ≤ r := by omega
      rw [List.getElem?_append_right hge] at h
      have hx : x = .live := by
        cases hz : ([Track.init] : List Track.State)[r - u.tracks.length]? with
        | none => rw [hz] at h; cases h
        | some t =>
          rw [hz] at h
          have := List.mem_of_getElem? hz
          rw [List.mem_singleton.1 this] at h
          exact (Option.some.inj h).symm
      subst hx
      have hn : ¬ Errored tr r := fun he => by
        have := hne r he
        omega
      have hn' : ¬ r < s.tracks.length := by omega
      simp [hn, hn']

theorem Inv.error {tr : Trace} {s : State} (i : Inv tr s) {r : Nat} (hc : s.current = some r)
    (hw : s.working = true) :
    Inv (tr ++ [(.error r, .ok)]) (act { abortGroup s with group := none, working := false } r .abort) := by
  obtain ⟨gs, hcore, hgap⟩ := i.core
  obtain ⟨hl, hne⟩ := i.live hc hw
  obtain ⟨j, k⟩ := abortGroup_core hcore
  generalize abortGroup s = u at j k
  have herr : ∀ q, Errored (tr ++ [(.error r, .ok)]) q ↔ Errored tr q ∨ q = r := by
    intro q
    rw [errored_snoc]
    simp [eq_comm]
  have hst : ∀ q, Started (tr ++ [(.error r, .ok)]) q ↔ Started tr q := by simp [started_snoc]
  have hstop : ∀ q, Stopped (tr ++ [(.error r, .ok)]) q ↔ Stopped tr q := by simp [stopped_snoc, Ends]
  have hlt := i.last r hc
  have hul : AudioCapture.status u r = some .live := by rw [k.status]; exact hl
  cases ht : u.tracks[r]? with
  | none =>
    unfold AudioCapture.status at hul
    rw [ht] at hul
    cases hul
  | some t =>
    have htl : t.status = .live := by
      unfold AudioCapture.status at hul
      rw [ht] at hul
      simpa using hul
    have ht' : ({ u with group := none, working := false } : State).tracks[r]? = some t := ht
    have j' : Core (written tr) { u with group := none, working := false } gs := j.same rfl rfl rfl rfl
    have hlen : (act { u with group := none, working := false } r .abort).tracks.length = s.tracks.length := by
      rw [length_act]
      exact k.length
    have hcur : (act { u with group := none, working := false } r .abort).current = some r := by
      rw [act_current]
      dsimp only
      rw [k.current, hc]
    refine ⟨⟨gs, ?_, ?_⟩, ?_, ?_, ?_, ?_, ?_, ?_, ?_, ?_⟩
    · rw [written_snoc]
      dsimp only
      rw [List.append_nil]
      exact j'.quiet ht' .abort rfl rfl (act_group ..) (act_timestamp ..) (j'.track r t ht').abort
    · intro he
      exact absurd ((herr r).2 (.inr rfl)) (he r)
    · intro q
      rw [hst, hlen]
      exact i.started q
    · rw [closed_snoc, act_closed]
      dsimp only
      rw [k.closed, i.closed]
      simp
    · rw [act_closed]
      dsimp only
      rw [k.closed]
      intro h
      have := i.shut h
      rw [hc] at this
      cases this
    · intro q
      rw [hcur, ← hc, hst, hstop]
      exact i.current q
    · intro q h
      rw [hcur] at h
      cases h
      rw [hlen]
      exact hlt
    · rw [act_working]
      simp only [Bool.false_eq_true, false_iff, hcur, herr]
      rintro ⟨q, h1, h2⟩
      cases h1
      exact h2 (.inr rfl)
    · intro q h
      rw [hlen]
      rcases (herr q).1 h with h | rfl
      · exact i.errored q h
      · omega
    · intro q x h
      rw [herr, hstop]
      unfold AudioCapture.status at h
      rw [tracks_act ht'] at h
      by_cases hq : q = r
      · subst hq
        rw [if_pos rfl, Option.map_some, abort_status, if_pos htl] at h
        cases h
        simp
      · rw [if_neg hq] at h
        have h' : AudioCapture.status u q = some x := h
        rw [k.status] at h'
        obtain ⟨a, b⟩ := i.status q x h'
        simp only [hq, or_false]
        exact ⟨a, b⟩

theorem inv_reach {tr : Trace} {s : State} (h : machine.Reach tr s) : Inv tr s := by
  refine Machine.Reach.induct (M := machine) (P := fun tr s => Inv tr s) ?_ ?_ h
  · refine ⟨⟨[], ⟨rfl, fun p hp => (by cases hp), fun r t h => ?_, fun p hp => (by cases hp), fun r h => rfl,
      fun k g h => (by cases h)⟩, fun _ => ⟨fun i p q a b h => (by simp at h), fun _ => rfl⟩⟩, ?_, ?_, ?_, ?_, ?_,
      ?_, ?_, ?_⟩
    · simp [init] at h
    · intro r
      simp [Started, machine, init]
    · simp [Closed, machine, init]
    · intro _
      rfl
    · intro r
      simp [Started, machine, init]
    · intro r h
      cases h
    · simp [machine, init]
    · intro r h
      cases h
    · intro r x h
      simp [AudioCapture.status, init] at h
  · intro tr s op hr i
    change Inv (tr ++ [(op, (step s op).1)]) (step s op).2
    have hinv : ∀ op, (∀ r c, op ≠ .output r c) → Inv (tr ++ [(op, .invalid)]) s := by
      intro op ho
      refine i.noop (by apply silent_of <;> simp) ?_
      rw [written_snoc]
      cases op with
      | output r c => exact absurd rfl (ho r c)
      | _ => simp
    cases op with
    | start =>
      rw [step]
      split
      · exact hinv _ (by simp)
      · next hc => exact i.start (by simpa using hc)
    | stop =>
      rw [step]
      split
      · exact hinv _ (by simp)
      · next hc =>
        refine i.stop (.inl rfl) (by simp) (by rw [written_snoc]; simp) rfl rfl (cleanup_group s) rfl (cleanup_current s)
          (cleanup_working i) ?_
        rw [cleanup_closed, closed_snoc, i.closed]
        simp
    | close =>
      rw [step]
      split
      · exact hinv _ (by simp)
      · next hc =>
        refine i.stop (.inr (.inl rfl)) (by simp) (by rw [written_snoc]; simp) rfl rfl (cleanup_group s) rfl
          (cleanup_current s) (cleanup_working i) ?_
        rw [closed_snoc]
        simp
    | output r c => exact i.output r c
    | error r =>
      rw [step]
      split
      · next h => exact i.error h.1 h.2
      · exact hinv _ (by simp)
    | track r op => exact i.track r op

end Verif.Js.AudioCapture
