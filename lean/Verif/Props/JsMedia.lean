import Verif.Js.MediaLemmas

/-!
# Property C109: asking for the camera, the microphone and the screen
-/

set_option autoImplicit false

namespace Verif.Props.JsMedia

open Verif Verif.Js.Media

/-! ## Specification -/

/-- What the application wants of an effect, with the constraints: `none` if nothing. -/
def demand (k : Kind) (c : Config) : Option (List Nat) :=
  match k with
  | .cameraAudio => if c.device = some .camera ∧ c.audio = true then some [c.audioConstraints] else none
  | .cameraVideo => if c.device = some .camera ∧ c.video = true then some [c.videoConstraints] else none
  | .screen =>
    if c.device = some .screen ∧ (c.audio = true ∨ c.video = true) then some [c.videoConstraints, c.audioConstraints]
    else none

/-- The request was made by the effect and not given up. -/
def Open (tr : Trace) (k : Kind) (i : Nat) : Prop := Made tr k i ∧ ¬ Dropped tr i

/-- Sound comes from the microphone or with the screen, pictures from the camera or the screen. -/
def Captures (k : Kind) (video : Bool) : Prop :=
  k = .screen ∨ k = (if video then .cameraVideo else .cameraAudio)

/-- The signal for sound or for pictures. -/
def signal (s : State) (video : Bool) : Option Nat := if video then s.video else s.audio

/-- Does a change of the signals make the effect start over: something else is wanted, or, for the screen, sound is
switched on or off. -/
def Changes (k : Kind) (c c' : Config) : Prop :=
  demand k c' ≠ demand k c ∨ (k = .screen ∧ c'.audio ≠ c.audio)

/-! ## Lemmas -/

theorem demand_iff (k : Kind) (c : Config) : (demand k c).isSome = asks k c := by
  obtain ⟨d, a, v, p, q⟩ := c
  cases k <;> rcases d with _ | _ | _ <;> cases a <;> cases v <;> rfl

theorem reads_new (k : Kind) (c c' : Config) (h : asks k c' = true) : reads k c c' = true ↔ Changes k c c' := by
  obtain ⟨d, a, v, p, q⟩ := c
  obtain ⟨d', a', v', p', q'⟩ := c'
  unfold Changes
  cases k with
  | cameraAudio =>
    simp only [asks, Bool.and_eq_true, beq_iff_eq] at h
    obtain ⟨rfl, rfl⟩ := h
    rcases d with _ | _ | _ <;> cases a <;> simp [reads, demand]
  | cameraVideo =>
    simp only [asks, Bool.and_eq_true, beq_iff_eq] at h
    obtain ⟨rfl, rfl⟩ := h
    rcases d with _ | _ | _ <;> cases v <;> simp [reads, demand]
  | screen =>
    simp only [asks, Bool.and_eq_true, Bool.or_eq_true, beq_iff_eq] at h
    obtain ⟨rfl, h⟩ := h
    rcases d with _ | _ | _ <;> cases a <;> cases v <;> cases a' <;> cases v' <;> simp [reads, demand] at h ⊢ <;> omega

theorem reads_old (k : Kind) (c c' : Config) (h : asks k c = true) : reads k c c' = true ↔ Changes k c c' := by
  obtain ⟨d, a, v, p, q⟩ := c
  obtain ⟨d', a', v', p', q'⟩ := c'
  unfold Changes
  cases k with
  | cameraAudio =>
    simp only [asks, Bool.and_eq_true, beq_iff_eq] at h
    obtain ⟨rfl, rfl⟩ := h
    rcases d' with _ | _ | _ <;> cases a' <;> simp [reads, demand]
  | cameraVideo =>
    simp only [asks, Bool.and_eq_true, beq_iff_eq] at h
    obtain ⟨rfl, rfl⟩ := h
    rcases d' with _ | _ | _ <;> cases v' <;> simp [reads, demand]
  | screen =>
    simp only [asks, Bool.and_eq_true, Bool.or_eq_true, beq_iff_eq] at h
    obtain ⟨rfl, h⟩ := h
    rcases d' with _ | _ | _ <;> cases a <;> cases v <;> cases a' <;> cases v' <;> simp [reads, demand] at h ⊢ <;> omega

theorem rerun_made (c : Config) (k k' : Kind) (i : Nat) (x : List (Kind × Nat) × List (Kind × Nat) × State) :
    (k', i) ∈ (rerun c k x).1 ↔ (k', i) ∈ x.1 ∨
      (k' = k ∧ reads k c x.2.2.config = true ∧ asks k x.2.2.config = true ∧ i = x.2.2.requests.length) := by
  have h := cleanup_cleaned x.2.2 k
  unfold rerun
  split
  · next hr =>
    dsimp only
    unfold run
    rw [h.config, h.requests]
    split
    · next ha => simp [hr, ha]
    · next ha => simp [ha]
  · next hr => simp [hr]

theorem rerun_dropped (c : Config) (k k' : Kind) (i : Nat) (x : List (Kind × Nat) × List (Kind × Nat) × State) :
    (k', i) ∈ (rerun c k x).2.1 ↔ (k', i) ∈ x.2.1 ∨
      (k' = k ∧ reads k c x.2.2.config = true ∧ x.2.2.current k = some i) := by
  unfold rerun
  split
  · next hr =>
    dsimp only
    rw [List.mem_append, cleanup_drops]
    cases x.2.2.current k with
    | none => simp
    | some j => simp [hr, eq_comm]
  · next hr => simp [hr]

theorem reran_made (s : State) (c : Config) (k : Kind) :
    (∃ i, (k, i) ∈ (reran s c).1) ↔ reads k s.config c = true ∧ asks k c = true := by
  unfold reran
  simp only [rerun_made, (rerun_config ..).1]
  cases k <;> simp

theorem reran_fresh {s : State} {c : Config} {k : Kind} {i : Nat} (h : (k, i) ∈ (reran s c).1) :
    s.requests.length ≤ i := by
  unfold reran at h
  rw [rerun_made, rerun_made, rerun_made] at h
  have h1 := rerun_requests s.config .cameraAudio ([], [], { s with config := c })
  have h2 := rerun_requests s.config .cameraVideo (rerun s.config .cameraAudio ([], [], { s with config := c }))
  rcases h with ((h | h) | h) | h
  · cases h
  · rw [h.2.2.2]
    exact Nat.le_refl _
  · rw [h.2.2.2]
    exact h1
  · rw [h.2.2.2]
    exact Nat.le_trans h1 h2

theorem reran_dropped (s : State) (c : Config) (k : Kind) (i : Nat) :
    (k, i) ∈ (reran s c).2.1 ↔ reads k s.config c = true ∧ s.current k = some i := by
  unfold reran
  rw [rerun_dropped, rerun_dropped, rerun_dropped, rerun_other (by decide), rerun_other (by decide),
    rerun_other (by decide)]
  simp only [(rerun_config ..).1]
  cases k <;> simp

theorem open_iff {tr : Trace} {s : State} (h : machine.Reach tr s) (k : Kind) (i : Nat) :
    Open tr k i ↔ s.current k = some i := ((inv_reach h).reqs.current k i).symm

/-! ## What is asked for -/

/-- As long as the broadcast is not closed, an effect has a request that was not given up if and only if something is
wanted of it, and then just one.  Afterwards it has none. -/
theorem c109_open (tr : Trace) (s : State) (h : machine.Reach tr s) (k : Kind) :
    (¬ Closed tr → ((∃ i, Open tr k i) ↔ demand k (config tr) ≠ none)) ∧
    (Closed tr → ∀ i, ¬ Open tr k i) ∧
    (∀ i j, Open tr k i → Open tr k j → i = j) := by
  have inv := inv_reach h
  refine ⟨fun hc => ?_, fun hc i => ?_, fun i j hi hj => ?_⟩
  · have hcl : s.closed = false := by
      cases hs : s.closed with
      | false => rfl
      | true => exact absurd (inv.closed.1 hs) hc
    have ha := inv.asks hcl k
    rw [← demand_iff, inv.config] at ha
    simp only [open_iff h]
    rw [← Option.isSome_iff_exists, ha, Option.isSome_iff_ne_none]
  · rw [open_iff h, inv.ended (inv.closed.2 hc) k]
    simp
  · rw [open_iff h] at hi hj
    rw [hi] at hj
    exact Option.some.inj hj

/-- When signals are set, an effect makes a request if something is wanted of it that is new, and gives up its request
if that is no longer what is wanted.  Requests that are made are new ones. -/
theorem c109_requests (tr : Trace) (s : State) (h : machine.Reach tr s) (hc : ¬ Closed tr) (c : Config) :
    ∃ ms ds, (step s (.set c)).1 = .ran ms ds ∧
    (∀ k, (∃ i, (k, i) ∈ ms) ↔ demand k c ≠ none ∧ Changes k (config tr) c) ∧
    (∀ k i, (k, i) ∈ ds ↔ Open tr k i ∧ Changes k (config tr) c) ∧
    (∀ k i, (k, i) ∈ ms → ∀ k', ¬ Made tr k' i) := by
  have inv := inv_reach h
  have hcl : s.closed = false := by
    cases hs : s.closed with
    | false => rfl
    | true => exact absurd (inv.closed.1 hs) hc
  refine ⟨(reran s c).1, (reran s c).2.1, by simp [step, hcl, reran], ?_, ?_, ?_⟩
  · intro k
    rw [reran_made, inv.config, ← Option.isSome_iff_ne_none, demand_iff]
    constructor
    · rintro ⟨h1, h2⟩
      exact ⟨h2, (reads_new k _ _ h2).1 h1⟩
    · rintro ⟨h1, h2⟩
      exact ⟨(reads_new k _ _ h1).2 h2, h1⟩
  · intro k i
    rw [reran_dropped, open_iff h, inv.config]
    have key : s.current k = some i → asks k (config tr) = true := by
      intro h1
      have := inv.asks hcl k
      rw [h1, inv.config] at this
      exact this.symm
    constructor
    · rintro ⟨h1, h2⟩
      exact ⟨h2, (reads_old k _ _ (key h2)).1 h1⟩
    · rintro ⟨h1, h2⟩
      exact ⟨(reads_old k _ _ (key h1)).2 h2, h1⟩
  · intro k i hi k' hm
    have h1 := reran_fresh hi
    have h2 := (List.getElem?_eq_some_iff.1 ((inv.reqs.made k' i).1 hm)).1
    omega

/-- `close()` gives up all requests and makes none, and no request is made afterwards. -/
theorem c109_close (tr : Trace) (s : State) (h : machine.Reach tr s) :
    (¬ Closed tr → ∃ ds, (step s .close).1 = .ran [] ds ∧ ∀ k i, (k, i) ∈ ds ↔ Open tr k i) ∧
    (Closed tr → ∀ op ms ds, (step s op).1 ≠ .ran ms ds) := by
  have inv := inv_reach h
  constructor
  · intro hc
    have hcl : s.closed = false := by
      cases hs : s.closed with
      | false => rfl
      | true => exact absurd (inv.closed.1 hs) hc
    refine ⟨(cleanup s .screen).1 ++ (cleanup (cleanup s .screen).2 .cameraVideo).1 ++
      (cleanup (cleanup (cleanup s .screen).2 .cameraVideo).2 .cameraAudio).1, by simp [step, hcl], ?_⟩
    intro k i
    rw [open_iff h, cleanup_drops, cleanup_drops, cleanup_drops, (cleanup_cleaned _ .cameraVideo).other _ (by decide),
      (cleanup_cleaned _ .screen).other _ (by decide), (cleanup_cleaned _ .screen).other _ (by decide)]
    cases k <;> cases s.current .screen <;> cases s.current .cameraVideo <;> cases s.current .cameraAudio <;>
      simp [eq_comm]
  · intro hc op ms ds
    have hcl := inv.closed.2 hc
    cases op with
    | set c => simp [step, hcl]
    | close => simp [step, hcl]
    | denied i =>
      unfold step
      dsimp only
      split <;> simp
    | granted i a v =>
      unfold step
      dsimp only
      split
      · split <;> simp
      · simp

/-! ## What is captured -/

/-- If no request is granted late, that is, after it was given up, then every track that is captured is in its signal
and comes from a request that was not given up, of an effect of which something is wanted; and what is in a signal is
captured.  Missing: histories with late grants; see `c109_late_captured` and `c109_late_lost`. -/
theorem c109_captured_partial (tr : Trace) (s : State) (h : machine.Reach tr s) (hl : ¬ Late tr) :
    (∀ (id : Nat) x, s.sources[id]? = some x → x.stopped = false →
      signal s x.video = some id ∧ ¬ Closed tr ∧
      ∃ k, Captures k x.video ∧ Open tr k x.request ∧ demand k (config tr) ≠ none) ∧
    (∀ video id, signal s video = some id → ∃ x, s.sources[id]? = some x ∧ x.video = video ∧ x.stopped = false) := by
  have inv := inv_reach h
  have safe := inv.safe hl
  have done : ∀ (x : Source) k, s.current k = some x.request → Captures k x.video →
      ¬ Closed tr ∧ ∃ k, Captures k x.video ∧ Open tr k x.request ∧ demand k (config tr) ≠ none := by
    intro x k hk hcap
    have hno : ¬ Closed tr := fun hc => by
      rw [inv.ended (inv.closed.2 hc) k] at hk
      cases hk
    exact ⟨hno, k, hcap, (open_iff h k _).2 hk, ((c109_open tr s h k).1 hno).1 ⟨_, (open_iff h k _).2 hk⟩⟩
  refine ⟨?_, ?_⟩
  · intro id x hx hs
    have hlive := safe.live id x hx hs
    cases hv : x.video with
    | true =>
      rw [hv] at hlive
      obtain ⟨y, h1, h2, h3, k, h4, h5⟩ := safe.video id hlive
      rw [hx] at h1
      cases h1
      have := done x k h5 (by rw [hv]; cases k <;> simp [Captures] at h4 ⊢)
      rw [hv] at this
      exact ⟨hlive, this⟩
    | false =>
      rw [hv] at hlive
      obtain ⟨y, h1, h2, h3, k, h4, h5⟩ := safe.audio id hlive
      rw [hx] at h1
      cases h1
      have := done x k h5 (by rw [hv]; cases k <;> simp [Captures] at h4 ⊢)
      rw [hv] at this
      exact ⟨hlive, this⟩
  · intro video id hid
    cases video with
    | true =>
      obtain ⟨x, h1, h2, h3, -⟩ := safe.video id hid
      exact ⟨x, h1, h2, h3⟩
    | false =>
      obtain ⟨x, h1, h2, h3, -⟩ := safe.audio id hid
      exact ⟨x, h1, h2, h3⟩

/-- If no request is granted late: whenever nothing is wanted, and after `close()`, nothing is captured and the
signals are empty.  Missing: as for `c109_captured_partial`; see `c109_late_captured` and `c109_late_closed`. -/
theorem c109_off_partial (tr : Trace) (s : State) (h : machine.Reach tr s) (hl : ¬ Late tr)
    (hoff : Closed tr ∨ ∀ k, demand k (config tr) = none) :
    (∀ x ∈ s.sources, x.stopped = true) ∧ s.audio = none ∧ s.video = none := by
  obtain ⟨h1, h2⟩ := c109_captured_partial tr s h hl
  have no : ∀ (id : Nat) x, s.sources[id]? = some x → x.stopped = true := by
    intro id x hx
    cases hs : x.stopped with
    | true => rfl
    | false =>
      obtain ⟨-, h3, k, -, -, h4⟩ := h1 id x hx hs
      rcases hoff with ho | ho
      · exact absurd ho h3
      · exact absurd (ho k) h4
  refine ⟨?_, ?_, ?_⟩
  · intro x hx
    obtain ⟨id, hid⟩ := List.mem_iff_getElem?.1 hx
    exact no id x hid
  · cases ha : s.audio with
    | none => rfl
    | some id =>
      obtain ⟨x, h3, -, h4⟩ := h2 false id ha
      rw [no id x h3] at h4
      cases h4
  · cases ha : s.video with
    | none => rfl
    | some id =>
      obtain ⟨x, h3, -, h4⟩ := h2 true id ha
      rw [no id x h3] at h4
      cases h4

/-- If no request is granted late: what was granted is in the signals and captured until the request is given up.
Missing: as for `c109_captured_partial`; see `c109_late_lost`. -/
theorem c109_shown_partial (tr : Trace) (s : State) (h : machine.Reach tr s) (hl : ¬ Late tr) (k : Kind) (i : Nat)
    (audio video : Bool) (hg : (.granted i audio video, .ok) ∈ tr) (ho : Open tr k i) (v : Bool)
    (hv : k = (if v then .cameraVideo else .cameraAudio) ∨ (k = .screen ∧ (if v then video else audio) = true)) :
    ∃ id x, signal s v = some id ∧ s.sources[id]? = some x ∧ x.request = i ∧ x.video = v ∧ x.stopped = false := by
  have inv := inv_reach h
  obtain ⟨k1, k2, k3⟩ := inv.kept hl i audio video hg
  rw [open_iff h] at ho
  have fin : Shown s (signal s v) i →
      ∃ id x, signal s v = some id ∧ s.sources[id]? = some x ∧ x.request = i ∧ x.video = v ∧ x.stopped = false := by
    rintro ⟨id, x, h1, h2, h3⟩
    obtain ⟨y, h4, h5, h6⟩ := (c109_captured_partial tr s h hl).2 v id h1
    rw [h2] at h4
    cases h4
    exact ⟨id, x, h1, h2, h3, h5, h6⟩
  apply fin
  cases v with
  | true =>
    rcases hv with rfl | ⟨rfl, hv⟩
    · exact k2 ho
    · exact (k3 ho).2 hv
  | false =>
    rcases hv with rfl | ⟨rfl, hv⟩
    · exact k1 ho
    · exact (k3 ho).1 hv

/-! ## What is lost -/

/-- The track captures and is in no signal. -/
def Lost (s : State) (id : Nat) : Prop :=
  (∃ x, s.sources[id]? = some x ∧ x.stopped = false) ∧ s.audio ≠ some id ∧ s.video ≠ some id

theorem clearAudio_lost {s : State} {id : Nat} (h : Lost s id) : Lost (clearAudio s) id := by
  obtain ⟨⟨x, h1, h2⟩, h3, h4⟩ := h
  exact ⟨⟨_, stop_keep h1, by simp [h2, h3]⟩, by simp [clearAudio], h4⟩

theorem clearVideo_lost {s : State} {id : Nat} (h : Lost s id) : Lost (clearVideo s) id := by
  obtain ⟨⟨x, h1, h2⟩, h3, h4⟩ := h
  exact ⟨⟨_, stop_keep h1, by simp [h2, h4]⟩, h3, by simp [clearVideo]⟩

theorem cleanup_lost {s : State} {id : Nat} (h : Lost s id) (k : Kind) : Lost (cleanup s k).2 id := by
  rw [cleanup_eq]
  cases s.current k with
  | none => exact h
  | some i =>
    cases k with
    | cameraAudio => exact clearAudio_lost h
    | cameraVideo => exact clearVideo_lost h
    | screen => exact clearAudio_lost (clearVideo_lost h)

theorem rerun_lost {x : List (Kind × Nat) × List (Kind × Nat) × State} {id : Nat} (h : Lost x.2.2 id) (c : Config)
    (k : Kind) : Lost (rerun c k x).2.2 id := by
  unfold rerun
  split
  · have h1 := cleanup_lost h k
    dsimp only
    unfold run
    split
    · exact h1
    · exact h1
  · exact h

theorem grant_lost {s : State} {id : Nat} (h : Lost s id) (i : Nat) (k : Kind) (a v : Bool) :
    Lost (grant s i k a v) id := by
  obtain ⟨⟨x, h1, h2⟩, h3, h4⟩ := h
  have hlt := (List.getElem?_eq_some_iff.1 h1).1
  refine ⟨⟨x, grant_keep h1, h2⟩, ?_, ?_⟩
  · cases k with
    | cameraAudio => simp [grant]; omega
    | cameraVideo => exact h3
    | screen => cases a <;> cases v <;> simp [grant] <;> omega
  · cases k with
    | cameraAudio => exact h4
    | cameraVideo => simp [grant]; omega
    | screen => cases a <;> cases v <;> simp [grant] <;> omega

theorem step_lost {s : State} {id : Nat} (h : Lost s id) (op : Op) : Lost (step s op).2 id := by
  cases op with
  | set c =>
    unfold step
    dsimp only
    split
    · exact h
    · exact rerun_lost (rerun_lost (rerun_lost (x := ([], [], { s with config := c })) h _ _) _ _) _ _
  | granted i a v =>
    unfold step
    dsimp only
    split
    · split
      · exact grant_lost h ..
      · exact h
    · exact h
  | denied i =>
    unfold step
    dsimp only
    split
    · exact h
    · exact h
  | close =>
    unfold step
    dsimp only
    split
    · exact h
    · exact cleanup_lost (cleanup_lost (cleanup_lost h .screen) .cameraVideo) .cameraAudio

/-- A track that captures and is in no signal captures for ever. -/
theorem c109_lost (s : State) (id : Nat) (h : Lost s id) (ops : List Op) : Lost (machine.runFrom s ops).2 id := by
  induction ops generalizing s with
  | nil => exact h
  | cons op ops ih => exact ih _ (step_lost h op)

/-- A track that captures after `close()` captures for ever. -/
theorem c109_closed_on (tr : Trace) (s : State) (h : machine.Reach tr s) (hc : Closed tr) (id : Nat) (x : Source)
    (hx : s.sources[id]? = some x) (ops : List Op) : (machine.runFrom s ops).2.sources[id]? = some x := by
  have hcl := (inv_reach h).closed.2 hc
  clear h hc
  induction ops generalizing s with
  | nil => exact hx
  | cons op ops ih =>
    have key : (step s op).2.sources[id]? = some x ∧ (step s op).2.closed = true := by
      cases op with
      | set c => simp [step, hcl, hx]
      | close => simp [step, hcl, hx]
      | denied i =>
        unfold step
        dsimp only
        split
        · exact ⟨hx, hcl⟩
        · exact ⟨hx, hcl⟩
      | granted i a v =>
        unfold step
        dsimp only
        split
        · split
          · exact ⟨grant_keep hx, by rw [(grant_fields ..).2.2.2.2]; exact hcl⟩
          · exact ⟨hx, hcl⟩
        · exact ⟨hx, hcl⟩
    exact ih _ key.1 key.2

/-- Check for `Late` on a given history. -/
def isLate (tr : Trace) : Bool :=
  (List.range tr.length).any fun n =>
    match tr[n]? with
    | some (.granted i _ _, .ok) => (tr.take n).any fun e =>
      match e.2 with
      | .ran _ ds => ds.any fun d => d.2 == i
      | _ => false
    | _ => false

theorem late_check {tr : Trace} (h : Late tr) : isLate tr = true := by
  obtain ⟨pre, post, i, a, v, rfl, op, ms, ds, k, h1, h2⟩ := h
  refine List.any_eq_true.2 ⟨pre.length, by simp, ?_⟩
  have e : (pre ++ (Op.granted i a v, Out.ok) :: post)[pre.length]? = some (.granted i a v, .ok) := by simp
  rw [e, List.take_left']
  · exact List.any_eq_true.2 ⟨_, h1, List.any_eq_true.2 ⟨_, h2, by simp⟩⟩
  · rfl

/-! ## Late grants -/

/-- The camera with the given constraints. -/
def cam (n : Nat) : Config := ⟨some .camera, false, true, 0, n⟩

/-- The device is switched off while the request for the camera is pending; the user grants it then. -/
def lateOps : List Op := [.set (cam 0), .set { cam 0 with device := none }, .granted 0 false true]

/-- The code violates the property: with a late grant the camera is on, and published, though no device is wanted. -/
theorem c109_late_captured : ∃ (tr : Trace) (s : State), machine.Reach tr s ∧ (∀ k, demand k (config tr) = none) ∧
    ∃ (id : Nat) (x : Source), s.video = some id ∧ s.sources[id]? = some x ∧ x.stopped = false := by
  refine ⟨_, _, machine.reach_run lateOps, ?_, 0, ⟨true, 0, false⟩, rfl, rfl, rfl⟩
  intro k
  cases k <;> rfl

/-- The constraints change while the request is pending; then both requests are granted, the second one first. -/
def swapOps : List Op := [.set (cam 0), .set (cam 1), .granted 1 false true, .granted 0 false true]

/-- The code violates the property: the track with the current constraints is replaced by that of the request that was
given up, and captures for ever, whatever happens next, `close()` included. -/
theorem c109_late_lost : ∃ (tr : Trace) (s : State), machine.Reach tr s ∧ config tr = cam 1 ∧
    (∃ (id : Nat) (x : Source), s.video = some id ∧ s.sources[id]? = some x ∧ Dropped tr x.request) ∧
    ∃ (id : Nat) (x : Source), s.sources[id]? = some x ∧ Open tr .cameraVideo x.request ∧
      ∀ ops, ∃ y : Source, (machine.runFrom s ops).2.sources[id]? = some y ∧ y.stopped = false := by
  have hr := machine.reach_run swapOps
  refine ⟨_, _, hr, rfl, ⟨1, ⟨true, 0, false⟩, rfl, rfl, ?_⟩, 0, ⟨true, 1, false⟩, rfl, ?_, ?_⟩
  · exact ⟨.set (cam 1), [(.cameraVideo, 1)], [(.cameraVideo, 0)], .cameraVideo, by decide +kernel, by decide⟩
  · exact (open_iff hr _ _).2 rfl
  · intro ops
    have hl : Lost (machine.run swapOps).2 0 := ⟨⟨⟨true, 1, false⟩, rfl, rfl⟩, by decide +kernel, by decide +kernel⟩
    exact (c109_lost _ 0 hl ops).1

/-- The broadcast is closed while the request is pending. -/
def closeOps : List Op := [.set (cam 0), .close, .granted 0 false true]

/-- The code violates the property: a camera that is granted after `close()` is on for ever. -/
theorem c109_late_closed : ∃ (tr : Trace) (s : State), machine.Reach tr s ∧ Closed tr ∧
    ∃ (id : Nat) (x : Source), s.sources[id]? = some x ∧ x.stopped = false ∧
      ∀ ops, (machine.runFrom s ops).2.sources[id]? = some x := by
  have hr := machine.reach_run closeOps
  have hc : Closed (machine.run closeOps).1 := ⟨[], [(.cameraVideo, 0)], by decide +kernel⟩
  exact ⟨_, _, hr, hc, 0, ⟨true, 0, false⟩, rfl, rfl, fun ops => c109_closed_on _ _ hr hc 0 _ rfl ops⟩

/-! ## The screen -/

/-- The screen without sound; sound is switched on. -/
def screenOps : List Op := [.set ⟨some .screen, false, true, 0, 0⟩, .granted 0 false true,
  .set ⟨some .screen, true, true, 0, 0⟩]

/-- When sound is switched on while the screen is shared, the picture is stopped and the user is asked again, though
what is asked for is the same. -/
theorem c109_screen_again : ∃ (tr : Trace) (s : State) (c : Config), machine.Reach tr s ∧ ¬ Late tr ∧
    demand .screen c = demand .screen (config tr) ∧ c.video = (config tr).video ∧
    (∃ (id : Nat) (x : Source), s.video = some id ∧ s.sources[id]? = some x ∧ x.stopped = false ∧
      (step s (.set c)).2.sources[id]? = some { x with stopped := true }) ∧
    (step s (.set c)).1 = .ran [(.screen, 1)] [(.screen, 0)] := by
  refine ⟨_, _, ⟨some .screen, true, true, 0, 0⟩, machine.reach_run (screenOps.take 2), ?_, rfl, rfl,
    ⟨0, ⟨true, 0, false⟩, rfl, rfl, rfl, by decide +kernel⟩, by decide +kernel⟩
  exact fun h => absurd (late_check h) (by decide +kernel)

/-- With sound only, the picture of the screen is captured nevertheless. -/
theorem c109_screen_picture : ∃ (tr : Trace) (s : State), machine.Reach tr s ∧ (config tr).video = false ∧
    ∃ (id : Nat) (x : Source), s.video = some id ∧ s.sources[id]? = some x ∧ x.video = true ∧ x.stopped = false :=
  ⟨_, _, machine.reach_run [.set ⟨some .screen, true, false, 0, 0⟩, .granted 0 true true], rfl, 0, ⟨true, 0, false⟩,
    rfl, rfl, rfl, rfl⟩

/-! ## Cases that meet the hypotheses -/

/-- From the camera, with other constraints, to the screen, and off: no grant is late. -/
def someOps : List Op := [.set ⟨some .camera, true, true, 0, 0⟩, .granted 1 false true, .granted 0 true false,
  .set ⟨some .camera, true, true, 0, 1⟩, .granted 2 false true, .set ⟨some .screen, true, true, 0, 1⟩,
  .granted 3 true true, .set ⟨none, true, true, 0, 1⟩]

example : (machine.run someOps).1.map (·.2) =
    [.ran [(.cameraAudio, 0), (.cameraVideo, 1)] [], .ok, .ok,
      .ran [(.cameraVideo, 2)] [(.cameraVideo, 1)], .ok,
      .ran [(.screen, 3)] [(.cameraAudio, 0), (.cameraVideo, 2)], .ok,
      .ran [] [(.screen, 3)]] := by decide +kernel

/-- Before the last change sound and picture of the screen are captured, and nothing else; afterwards nothing is. -/
example : ((machine.run (someOps.take 7)).2.sources.map fun x => (x.request, x.stopped)) =
    [(1, true), (0, true), (2, true), (3, false), (3, false)] ∧
    (machine.run (someOps.take 7)).2.video = some 3 ∧ (machine.run (someOps.take 7)).2.audio = some 4 ∧
    ((machine.run someOps).2.sources.all fun x => x.stopped) = true := by decide +kernel

example : ¬ Late (machine.run someOps).1 := fun h => absurd (late_check h) (by decide +kernel)

/-- The case of `c109_off_partial` and the others: the history without late grants, off at the end. -/
example : ∀ k, demand k (config (machine.run someOps).1) = none := by
  intro k
  cases k <;> rfl

end Verif.Props.JsMedia
