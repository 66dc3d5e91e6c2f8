import Verif.Js.CatalogTrackLemmas
import Verif.Props.JsTrack

/-!
# Property C110: the catalog track in the browser
-/

set_option autoImplicit false

namespace Verif.Props.JsCatalogTrack

open Verif Verif.Js Verif.Js.CatalogTrack

open Verif.Props.JsTrack (Prompt Quiet FrameWaits)

/-! ## Specification -/

/-- What the application did. -/
structure Past where
  enabled : Bool
  parts : Parts
  closed : Bool
  /-- the catalogs that had to be published, in order -/
  due : List Parts

/-- A catalog has to be published when broadcasting is switched on, and when it changes while on, until `close()`. -/
def Past.next (x : Past) : Op → Past
  | .set enabled parts => { x with
      enabled := enabled
      parts := parts
      due := if x.closed = false ∧ enabled = true ∧ (x.enabled = false ∨ parts ≠ x.parts) then x.due ++ [parts] else x.due }
  | .close => { x with closed := true }
  | .read _ => x

def past (tr : Trace) : Past := tr.foldl (fun x e => x.next e.1) ⟨false, ⟨0, 0, 0, 0, 0⟩, false, []⟩

/-! ## Lemmas -/

theorem past_snoc (tr : Trace) (op : Op) (o : Out) : past (tr ++ [(op, o)]) = (past tr).next op := by
  unfold past
  rw [List.foldl_append]
  rfl

/-- State and history. -/
structure Agree (enc : Parts → Bytes) (x : Past) (s : State) : Prop where
  enabled : s.enabled = x.enabled
  parts : s.parts = x.parts
  closed : s.closed = x.closed
  inv : Inv enc x.due s
  last : x.closed = false → x.enabled = true → x.due.getLast? = some x.parts

theorem reads_iff (s : State) (e : Bool) (p : Parts) (he : e = true) :
    reads s e p = true ↔ s.enabled = false ∨ p ≠ s.parts := by
  subst he
  unfold reads
  cases s.enabled <;> simp

theorem step_agree {enc : Parts → Bytes} {x : Past} {s : State} (a : Agree enc x s) (op : Op) :
    Agree enc (x.next op) (step enc s op).2 := by
  cases op with
  | set e p =>
    unfold step Past.next
    dsimp only
    have hiff : (s.closed = false ∧ reads s e p = true ∧ e = true) ↔
        (x.closed = false ∧ e = true ∧ (x.enabled = false ∨ p ≠ x.parts)) := by
      rw [a.closed, ← a.enabled, ← a.parts]
      constructor
      · rintro ⟨h1, h2, h3⟩
        exact ⟨h1, h3, (reads_iff s e p h3).1 h2⟩
      · rintro ⟨h1, h2, h3⟩
        exact ⟨h1, (reads_iff s e p h2).2 h3, h2⟩
    have hs' : Inv enc x.due { s with enabled := e, parts := p } := a.inv.frame rfl rfl
    by_cases h : s.closed = false ∧ reads s e p = true ∧ e = true
    · rw [if_pos h, if_pos (hiff.1 h)]
      obtain ⟨-, r2, r3, r4, r5⟩ := run_inv hs'
      exact ⟨r3, r4, r5.trans a.closed, r2, fun _ _ => by simp⟩
    · rw [if_neg h, if_neg (fun h' => h (hiff.2 h'))]
      refine ⟨rfl, rfl, a.closed, hs', fun h1 h2 => ?_⟩
      dsimp only at h1 h2 ⊢
      have hn : ¬ (x.enabled = false ∨ p ≠ x.parts) := fun h3 => h (hiff.2 ⟨h1, h2, h3⟩)
      have h4 : x.enabled = true := by
        cases hx : x.enabled with
        | true => rfl
        | false => exact absurd (.inl hx) hn
      have h5 : p = x.parts := Classical.byContradiction fun h6 => hn (.inr h6)
      rw [h5]
      exact a.last h1 h4
  | close => exact ⟨a.enabled, a.parts, rfl, a.inv.frame rfl rfl, fun h => (by cases h)⟩
  | read op =>
    unfold step Past.next
    dsimp only
    split
    · next hop => exact ⟨a.enabled, a.parts, a.closed, a.inv.reader op hop, a.last⟩
    · exact a

theorem agree_reach {enc : Parts → Bytes} {tr : Trace} {s : State} (h : (machine enc).Reach tr s) :
    Agree enc (past tr) s :=
  Machine.Reach.induct (M := machine enc) (P := fun tr s => Agree enc (past tr) s)
    ⟨rfl, rfl, rfl, init_inv enc, fun _ h => (by cases h)⟩
    (fun tr s op _ ih => by
      show Agree enc (past (tr ++ [(op, _)])) _
      rw [past_snoc]
      exact step_agree ih op) h

/-! ## What is written -/

/-- The track has just the catalogs that had to be published: each is the only frame of a group of its own, which is
closed. -/
theorem c110_groups (enc : Parts → Bytes) (tr : Trace) (s : State) (h : (machine enc).Reach tr s) :
    Track.accepted s.calls = List.range (past tr).due.length ∧
    ∀ (g : Nat) p, (past tr).due[g]? = some p →
      Track.content s.calls g = [enc p] ∧ (.closeGroup g, .ok) ∈ s.calls := by
  have a := agree_reach h
  refine ⟨a.inv.acc, fun g p hg => ⟨?_, a.inv.ended g (List.getElem?_eq_some_iff.1 hg).1⟩⟩
  rw [a.inv.content, hg]
  rfl

/-- While broadcasting is on, the newest group has the current catalog. -/
theorem c110_current (enc : Parts → Bytes) (tr : Trace) (s : State) (h : (machine enc).Reach tr s)
    (hc : (past tr).closed = false) (he : (past tr).enabled = true) :
    ∃ g, (Track.accepted s.calls).getLast? = some g ∧ Track.content s.calls g = [enc (past tr).parts] := by
  have a := agree_reach h
  have hl := a.last hc he
  obtain ⟨l, hl'⟩ := List.getLast?_eq_some_iff.1 hl
  obtain ⟨h1, h2⟩ := c110_groups enc tr s h
  refine ⟨l.length, ?_, (h2 l.length (past tr).parts (by rw [hl']; simp)).1⟩
  rw [h1, hl', List.length_append, List.length_singleton, List.range_succ]
  simp

/-- The effect never throws. -/
theorem c110_written (enc : Parts → Bytes) (tr : Trace) (s : State) (h : (machine enc).Reach tr s) (op : Op) :
    (step enc s op).1 ≠ .threw := by
  have a := agree_reach h
  cases op with
  | set e p =>
    unfold step
    dsimp only
    split
    · rw [(run_inv (a.inv.frame (s' := { s with enabled := e, parts := p }) rfl rfl)).1]
      simp
    · simp
  | close => simp [step]
  | read op =>
    unfold step
    dsimp only
    split <;> simp

/-! ## What readers get -/

/-- A reader is given catalogs that were published, in order, and none twice. -/
theorem c110_read (enc : Parts → Bytes) (tr : Trace) (s : State) (h : (machine enc).Reach tr s) (c : Nat) :
    ∃ gs : List (Nat × Parts), gs.Pairwise (fun a b => a.1 < b.1) ∧
      (∀ x ∈ gs, (past tr).due[x.1]? = some x.2) ∧
      Track.delivered s.calls c = gs.map fun x => (x.1, 0, enc x.2) := by
  have a := agree_reach h
  obtain ⟨h1, h2, -⟩ := JsTrack.c94_frames a.inv.reach c
  have key : ∀ d ∈ Track.delivered s.calls c, ∃ p, (past tr).due[d.1]? = some p ∧ d.2.1 = 0 ∧ d.2.2 = enc p := by
    rintro ⟨g, k, b⟩ hd
    have := (h2 g k b hd).1
    rw [a.inv.content] at this
    dsimp only
    cases hp : (past tr).due[g]? with
    | none => rw [hp] at this; simp at this
    | some p =>
      rw [hp] at this
      refine ⟨p, rfl, ?_⟩
      cases k with
      | zero => exact ⟨rfl, by simpa using this.symm⟩
      | succ k => simp at this
  generalize Track.delivered s.calls c = l at h1 key
  clear h2
  induction l with
  | nil => exact ⟨[], .nil, fun _ h => (by cases h), rfl⟩
  | cons d l ih =>
    rw [List.pairwise_cons] at h1
    obtain ⟨gs, g1, g2, g3⟩ := ih h1.2 fun d hd => key d (List.mem_cons_of_mem _ hd)
    obtain ⟨p, p1, p2, p3⟩ := key d (by simp)
    refine ⟨(d.1, p) :: gs, ?_, ?_, ?_⟩
    · rw [List.pairwise_cons]
      refine ⟨fun x hx => ?_, g1⟩
      have hm : (x.1, 0, enc x.2) ∈ l := by
        rw [g3]
        exact List.mem_map_of_mem hx
      rcases h1.1 _ hm with h | ⟨-, h⟩
      · exact h
      · simp at h
    · intro x hx
      rcases List.mem_cons.1 hx with rfl | hx
      · exact p1
      · exact g2 x hx
    · rw [List.map_cons, ← g3]
      obtain ⟨d1, d2, d3⟩ := d
      dsimp only at p2 p3
      rw [p2, p3]

/-- A reader that waits for a frame has the current catalog as its last one, if broadcasting is on and its fetch got to
continue between any two catalogs.  Missing: catalogs published in quick succession; see `c110_burst`. -/
theorem c110_newest_partial (enc : Parts → Bytes) (tr : Trace) (s : State) (h : (machine enc).Reach tr s)
    (hc : (past tr).closed = false) (he : (past tr).enabled = true) (c : Nat)
    (hpr : Prompt s.calls c) (hp : FrameWaits s.track c) (hq : Quiet s.track c)
    (hcl : ¬ Track.Closed s.calls c) (hng : (.nextGroup c, .undefined) ∉ s.calls) :
    ∃ g, (Track.delivered s.calls c).getLast? = some (g, 0, enc (past tr).parts) := by
  have a := agree_reach h
  obtain ⟨g, h1, h2⟩ := c110_current enc tr s h hc he
  obtain ⟨h3, h4⟩ := JsTrack.c94_frames_newest_partial a.inv.reach c hpr hp hq a.inv.ending hcl hng g h1
  have hm := h4 0 (enc (past tr).parts) (by rw [h2]; rfl)
  refine ⟨g, ?_⟩
  obtain ⟨gs, g1, g2, g3⟩ := c110_read enc tr s h c
  obtain ⟨h5, -⟩ := c110_groups enc tr s h
  have hlen : g + 1 = (past tr).due.length := by
    rw [h5] at h1
    cases hn : (past tr).due.length with
    | zero => rw [hn] at h1; simp at h1
    | succ n =>
      rw [hn, List.range_succ] at h1
      simp at h1
      omega
  rw [g3] at hm ⊢
  obtain ⟨x, hx, hx'⟩ := List.mem_map.1 hm
  injection hx' with e1 e2
  injection e2 with _ e3
  obtain ⟨l1, l2, rfl⟩ := List.append_of_mem hx
  cases l2 with
  | nil => simp [e1, e3]
  | cons y l2 =>
    exfalso
    have hy := (List.getElem?_eq_some_iff.1 (g2 y (by simp))).1
    rw [List.pairwise_append] at g1
    have := (List.pairwise_cons.1 g1.2.1).1 y (by simp)
    omega

/-- The track never ends: no reader that was not closed is told so, whatever was done, `close()` included. -/
theorem c110_endless (enc : Parts → Bytes) (tr : Trace) (s : State) (h : (machine enc).Reach tr s) (c : Nat)
    (hcl : ¬ Track.Closed s.calls c) (op : Track.Op) (hop : JsTrack.Call op c) :
    (step enc s (.read op)).1 ≠ .reader .undefined ∧ (step enc s (.read op)).1 ≠ .reader .rejected := by
  have a := agree_reach h
  obtain ⟨h1, h2⟩ := JsTrack.c94_end a.inv.reach c op hop
  rw [a.inv.ending] at h1 h2
  unfold step
  dsimp only
  split
  · constructor
    · intro hx
      injection hx with hx
      rcases h1 hx with h3 | h3
      · exact hcl h3
      · cases h3
    · intro hx
      injection hx with hx
      cases h2 hx
  · simp

/-! ## Catalogs in quick succession -/

/-- What writing a catalog does to readers. -/
theorem run_track {enc : Parts → Bytes} {cs : List Parts} {s : State} (i : Inv enc cs s) :
    (run enc s).2.track.subs = s.track.subs.map (fun u => { u with fetch := u.fetch.settle (.value (some cs.length)) }) ∧
    (run enc s).2.track.epoch = s.track.epoch + 1 := by
  have hon : ∀ (t : Track.State) g f, (Track.onGroup t g f).2.subs = t.subs ∧ (Track.onGroup t g f).2.epoch = t.epoch := by
    intro t g f
    unfold Track.onGroup
    split
    · split <;> exact ⟨rfl, rfl⟩
    · exact ⟨rfl, rfl⟩
  have hap : (Track.step s.track .append).2.subs =
      s.track.subs.map (fun u => { u with fetch := u.fetch.settle (.value (some cs.length)) }) ∧
      (Track.step s.track .append).2.epoch = s.track.epoch + 1 := by
    rw [Track.step, Track.add, if_pos i.live, i.next]
    exact ⟨rfl, rfl⟩
  have hw : ∀ (t : Track.State) g b, (Track.step t (.write g b)).2.subs = t.subs ∧ (Track.step t (.write g b)).2.epoch = t.epoch :=
    fun t g b => hon t g _
  have hcg : ∀ (t : Track.State) g, (Track.step t (.closeGroup g)).2.subs = t.subs ∧ (Track.step t (.closeGroup g)).2.epoch = t.epoch :=
    fun t g => hon t g _
  have hwrote := (run_inv i).1
  unfold run at hwrote ⊢
  split at hwrote
  · next g hg =>
    dsimp only at hwrote ⊢
    split at hwrote
    · next hok =>
      dsimp only [call]
      rw [(hcg _ _).1, (hw _ _ _).1, (hcg _ _).2, (hw _ _ _).2]
      exact hap
    · cases hwrote
  · cases hwrote

/-- The code violates the property: whenever a reader waits, two catalogs that are published at once make it miss the
newer one.  It is given the group of the older one and then waits, with nothing under way. -/
theorem c110_burst (enc : Parts → Bytes) (tr : Trace) (s : State) (h : (machine enc).Reach tr s)
    (hc : (past tr).closed = false) (he : (past tr).enabled = true) (c : Nat)
    (hp : (Track.step s.track (.nextGroup c)).1 = .pending) (hq : Quiet s.track c) (p q : Parts)
    (hpp : p ≠ (past tr).parts) (hqp : q ≠ p) :
    let ops := [.set true p, .set true q, .read (.run c), .read (.nextGroup c), .read (.nextGroup c)]
    let r := (machine enc).runFrom s ops
    r.1.map (·.2) = [.wrote, .wrote, .reader .ok, .reader (.group (past tr).due.length), .reader .pending] ∧
    (past (tr ++ r.1)).due = (past tr).due ++ [p, q] ∧ (past (tr ++ r.1)).parts = q ∧ Quiet r.2.track c := by
  have a := agree_reach h
  intro ops r
  obtain ⟨u, hu, hf⟩ := JsTrack.waits_fetch hp hq
  have hs := (Track.inv_reach a.inv.reach).sub c u hu
  have hcl : u.closed = false := by
    cases hx : u.closed with
    | false => rfl
    | true =>
      have := (hs.shut hx).1
      rw [hf] at this
      cases this
  -- the first catalog
  let s0 : State := { s with enabled := true, parts := p }
  have i0 : Inv enc (past tr).due s0 := a.inv.frame rfl rfl
  obtain ⟨r1, r2, r3, r4, r5⟩ := run_inv i0
  obtain ⟨t1, t2⟩ := run_track i0
  have e1 : step enc s (.set true p) = run enc s0 := by
    unfold step
    dsimp only
    rw [if_pos ⟨a.closed.trans hc, (reads_iff s true p rfl).2 (.inr (by rw [a.parts]; exact hpp)), rfl⟩]
  let s1 := (run enc s0).2
  -- the second one
  let s2 : State := { s1 with enabled := true, parts := q }
  have i1 : Inv enc ((past tr).due ++ [p]) s2 := r2.frame rfl rfl
  obtain ⟨q1, q2, q3, q4, q5⟩ := run_inv i1
  obtain ⟨v1, v2⟩ := run_track i1
  have e2 : step enc s1 (.set true q) = run enc s2 := by
    unfold step
    dsimp only
    rw [if_pos ⟨r5.trans (a.closed.trans hc), (reads_iff s1 true q rfl).2 (.inr (by rw [r4]; exact hqp)), rfl⟩]
  let s3 := (run enc s2).2
  have hlive : s3.track.status = .live := q2.live
  have hu3 : s3.track.subs[c]? = some { u with fetch := .ready (.value (some (past tr).due.length)) } := by
    show (run enc s2).2.track.subs[c]? = _
    rw [v1]
    show (List.map _ (run enc s0).2.track.subs)[c]? = _
    rw [t1, List.getElem?_map, List.getElem?_map, show s0.track.subs[c]? = some u from hu]
    simp [hf, Track.Fetch.settle]
  -- the reader
  let u4 : Track.Sub := { u with epoch := s3.track.epoch + 1, fetch := .done (.value (past tr).due.length) }
  let t4 : Track.State := { s3.track with subs := s3.track.subs.set c u4 }
  have hlt : c < s3.track.subs.length := (List.getElem?_eq_some_iff.1 hu3).1
  have k4 : Track.step s3.track (.run c) = (.ok, t4) := by
    show Track.onSub _ _ _ = _
    unfold Track.onSub
    rw [hu3]
    rfl
  have hu4 : t4.subs[c]? = some u4 := List.getElem?_set_self hlt
  let u5 : Track.Sub := { u4 with fetch := .waiting, current := some (past tr).due.length, frame := 0 }
  let t5 : Track.State := { t4 with subs := t4.subs.set c u5 }
  have k5 : Track.step t4 (.nextGroup c) = (.group (past tr).due.length, t5) := by
    have hst : Track.startFetch t4 u4 = { u4 with fetch := .waiting } := by
      unfold Track.startFetch
      rw [if_neg (by simp [u4, hcl]), if_neg (by simp [u4, t4])]
      simp [Track.wait, u4, t4, hcl, hlive]
    show Track.onSub _ _ _ = _
    unfold Track.onSub
    rw [hu4]
    have : Track.nextGroup t4 u4 = (.group (past tr).due.length, u5) := by
      unfold Track.nextGroup
      rw [hst]
    simp only [this]
    rfl
  have hu5 : t5.subs[c]? = some u5 := List.getElem?_set_self (by simpa [t4] using hlt)
  let t6 : Track.State := { t5 with subs := t5.subs.set c u5 }
  have k6 : Track.step t5 (.nextGroup c) = (.pending, t6) := by
    show Track.onSub _ _ _ = _
    unfold Track.onSub
    rw [hu5]
    rfl
  have hu6 : t6.subs[c]? = some u5 := List.getElem?_set_self (by simpa [t5, t4] using hlt)
  have run1 : r = ([(.set true p, .wrote), (.set true q, .wrote), (.read (.run c), .reader .ok),
      (.read (.nextGroup c), .reader (.group (past tr).due.length)), (.read (.nextGroup c), .reader .pending)],
      call (call (call s3 (.run c)) (.nextGroup c)) (.nextGroup c)) := by
    have f1 : step enc s (.set true p) = (.wrote, s1) := by rw [e1]; exact Prod.ext r1 rfl
    have f2 : step enc s1 (.set true q) = (.wrote, s3) := by rw [e2]; exact Prod.ext q1 rfl
    have f3 : step enc s3 (.read (.run c)) = (.reader .ok, call s3 (.run c)) := by
      show (Out.reader (Track.step s3.track (.run c)).1, _) = _
      rw [k4]
    have c3 : (call s3 (.run c)).track = t4 := by show (Track.step s3.track (.run c)).2 = _; rw [k4]
    have f4 : step enc (call s3 (.run c)) (.read (.nextGroup c)) =
        (.reader (.group (past tr).due.length), call (call s3 (.run c)) (.nextGroup c)) := by
      show (Out.reader (Track.step (call s3 (.run c)).track (.nextGroup c)).1, _) = _
      rw [c3, k5]
    have c4 : (call (call s3 (.run c)) (.nextGroup c)).track = t5 := by
      show (Track.step (call s3 (.run c)).track (.nextGroup c)).2 = _
      rw [c3, k5]
    have f5 : step enc (call (call s3 (.run c)) (.nextGroup c)) (.read (.nextGroup c)) =
        (.reader .pending, call (call (call s3 (.run c)) (.nextGroup c)) (.nextGroup c)) := by
      show (Out.reader (Track.step (call (call s3 (.run c)) (.nextGroup c)).track (.nextGroup c)).1, _) = _
      rw [c4, k6]
    simp only [r, ops, Machine.runFrom, f1, f2, f3, f4, f5]
  have c6 : r.2.track = t6 := by
    rw [run1]
    show (Track.step (Track.step (Track.step s3.track (.run c)).2 (.nextGroup c)).2 (.nextGroup c)).2 = _
    rw [k4, k5, k6]
  have hpast : past (tr ++ r.1) = ⟨true, q, false, (past tr).due ++ [p, q]⟩ := by
    rw [run1, show past (tr ++ [_, _, _, _, _]) = List.foldl _ (past tr) [_, _, _, _, _] from List.foldl_append]
    simp only [List.foldl_cons, List.foldl_nil, Past.next]
    simp [hc, he, hpp, hqp]
  refine ⟨by rw [run1]; rfl, by rw [hpast], by rw [hpast], ?_⟩
  unfold Quiet
  rw [c6]
  show (Track.onSub t6 c (Track.run t6)).1 = _
  unfold Track.onSub
  rw [hu6]
  rfl

/-! ## Examples -/

/-- An encoding for the examples. -/
def enc₀ (p : Parts) : Bytes := [p.audio.toUInt8, p.video.toUInt8]

def p₀ : Parts := ⟨0, 0, 0, 0, 0⟩
def p₁ : Parts := ⟨0, 1, 0, 0, 0⟩
def p₂ : Parts := ⟨2, 1, 0, 0, 0⟩

/-- A check of `Prompt`; `b` is whether there was a group since the last continuation. -/
def check (c : Nat) : Track.Trace → Bool → Bool
  | [], _ => true
  | e :: tr, b =>
    if Track.accepted [e] ≠ [] then !b && check c tr true
    else if e.1 = .run c then check c tr false else check c tr b

theorem check_sound (c : Nat) (tr : Track.Trace) : ∀ b, check c tr b = true →
    Prompt tr c ∧ (b = true → ∀ mid y post, tr = mid ++ y :: post → Track.accepted [y] ≠ [] → ∃ o, (.run c, o) ∈ mid) := by
  induction tr with
  | nil =>
    intro b _
    exact ⟨fun a x mid y b h => by simp at h, fun _ mid y post h => by simp at h⟩
  | cons e tr ih =>
    intro b h
    unfold check at h
    have hcons : ∀ b', check c tr b' = true → (Track.accepted [e] ≠ [] → b' = true) → Prompt (e :: tr) c := by
      intro b' hb' hacc a x mid y post hl hx hy
      cases a with
      | nil =>
        injection hl with h1 h2
        subst h1
        exact (ih b' hb').2 (hacc hx) mid y post h2 hy
      | cons a0 a =>
        injection hl with h1 h2
        exact (ih b' hb').1 a x mid y post h2 hx hy
    split at h
    · next hacc =>
      rw [Bool.and_eq_true] at h
      refine ⟨hcons true h.2 fun _ => rfl, fun hb => ?_⟩
      rw [hb] at h
      exact absurd h.1 Bool.false_ne_true
    · next hacc =>
      have hacc' : ∀ {P : Prop}, Track.accepted [e] ≠ [] → P := fun h => absurd h hacc
      split at h
      · next hr =>
        refine ⟨hcons false h hacc', fun _ mid y post hl hy => ?_⟩
        cases mid with
        | nil =>
          injection hl with h1 _
          exact hacc' (h1 ▸ hy)
        | cons m mid =>
          injection hl with h1 _
          exact ⟨e.2, by rw [← hr, ← h1]; simp⟩
      · refine ⟨hcons b h hacc', fun hb mid y post hl hy => ?_⟩
        cases mid with
        | nil =>
          injection hl with h1 _
          exact hacc' (h1 ▸ hy)
        | cons m mid =>
          injection hl with _ h2
          obtain ⟨o, ho⟩ := (ih b h).2 hb mid y post h2 hy
          exact ⟨o, List.mem_cons_of_mem _ ho⟩

/-- Broadcasting is switched on, a reader reads, video and then audio are added, and the broadcast is closed. -/
def ops₁ : List Op :=
  [.set false p₁, .set true p₀, .read .consume, .read (.nextFrame 0 .group), .read (.nextFrame 0 .frame),
   .read (.run 0), .set true p₁, .read (.run 0), .read (.nextFrame 0 .group), .read (.nextFrame 0 .frame), .set true p₁, .set true p₂,
   .read (.run 0), .read (.nextFrame 0 .group), .read (.nextFrame 0 .frame)]

example : (past ((machine enc₀).run ops₁).1).due = [p₀, p₁, p₂] := by decide +kernel

example : Track.delivered ((machine enc₀).run ops₁).2.calls 0 = [(0, 0, [0, 0]), (1, 0, [0, 1]), (2, 0, [2, 1])] := by
  decide +kernel

example : (past ((machine enc₀).run ops₁).1).closed = false ∧ (past ((machine enc₀).run ops₁).1).enabled = true :=
  ⟨by decide +kernel, by decide +kernel⟩

/-- The hypotheses of `c110_newest_partial`. -/
example : let s := ((machine enc₀).run ops₁).2
    Prompt s.calls 0 ∧ FrameWaits s.track 0 ∧ Quiet s.track 0 ∧ ¬ Track.Closed s.calls 0 ∧
      (.nextGroup 0, .undefined) ∉ s.calls := by
  refine ⟨(check_sound 0 _ false (by decide +kernel)).1, fun p => ?_, by decide +kernel, ?_, by decide +kernel⟩
  · cases p <;> decide +kernel
  · unfold Track.Closed
    decide +kernel

/-- The hypotheses of `c110_burst`. -/
def ops₂ : List Op := [.set true p₀, .read .consume, .read (.nextGroup 0), .read (.nextGroup 0)]

example : (Track.step ((machine enc₀).run ops₂).2.track (.nextGroup 0)).1 = .pending ∧
    Quiet ((machine enc₀).run ops₂).2.track 0 := ⟨by decide +kernel, by decide +kernel⟩

/-- After `close()` the reader still waits. -/
example : (step enc₀ ((machine enc₀).run (ops₁ ++ [.close, .set true p₁, .read (.run 0)])).2 (.read (.nextFrame 0 .frame))).1 =
    .reader .pending := by decide +kernel

end Verif.Props.JsCatalogTrack
