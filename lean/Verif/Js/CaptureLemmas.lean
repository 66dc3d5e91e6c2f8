import Verif.Js.Capture
import Verif.Js.FramesLemmas
import Verif.Js.ReceiveLemmas

/-!
# Invariants of publishing video from the browser
-/

set_option autoImplicit false

namespace Verif.Js.Capture

open Verif

open Verif.Js.Frames (Input TInv addLast addLast_snoc addLast_get addLast_length bytes Passive)

/-! ## Tracks -/

/-- The group has not ended. -/
def Alive (t : Track.State) (g : Nat) : Prop := ∃ x, Track.find t g = some x ∧ x.status = .live

/-- The track has these groups, and the one that has not ended is `grp`. -/
structure TPart (ttr : Track.Trace) (t : Track.State) (gs : List (List Input)) (grp : Option Nat) :
    Prop where
  tinv : TInv ttr t gs
  alive : ∀ g, Alive t g ↔ grp = some g
  last : ∀ g, grp = some g → g + 1 = gs.length

theorem alive_groups {t t' : Track.State} (h : t'.groups = t.groups) (g : Nat) :
    Alive t' g ↔ Alive t g := by
  unfold Alive Track.find
  rw [h]

theorem TPart.quiet {ttr : Track.Trace} {t : Track.State} {gs : List (List Input)} {grp : Option Nat}
    (p : TPart ttr t gs grp) (op : Track.Op) (hop : Passive op)
    (hg : (Track.step t op).2.groups = t.groups) :
    TPart (ttr ++ [(op, (Track.step t op).1)]) (Track.step t op).2 gs grp :=
  ⟨p.tinv.passive op hop, fun g => by rw [alive_groups hg]; exact p.alive g, p.last⟩

theorem TPart.reads {ttr : Track.Trace} {t : Track.State} {gs : List (List Input)} {grp : Option Nat}
    (p : TPart ttr t gs grp) (op : Track.Op) (hop : Receive.reads op = true) :
    TPart (ttr ++ [(op, (Track.step t op).1)]) (Track.step t op).2 gs grp ∧
    (Track.step t op).2.status = t.status := by
  obtain ⟨h1, h2, -⟩ := Receive.reads_keeps hop t
  refine ⟨p.quiet op ?_ h1, h2⟩
  cases op <;> trivial

theorem TPart.close {ttr : Track.Trace} {t : Track.State} {gs : List (List Input)} {grp : Option Nat}
    (p : TPart ttr t gs grp) :
    TPart (ttr ++ [(.close, (Track.step t .close).1)]) (Track.step t .close).2 gs grp := by
  refine p.quiet .close trivial ?_
  rw [Track.step]
  split <;> rfl

theorem TPart.abort {ttr : Track.Trace} {t : Track.State} {gs : List (List Input)} {grp : Option Nat}
    (p : TPart ttr t gs grp) :
    TPart (ttr ++ [(.abort, (Track.step t .abort).1)]) (Track.step t .abort).2 gs grp := by
  refine p.quiet .abort trivial ?_
  rw [Track.step]
  split <;> rfl

theorem TPart.finish {ttr : Track.Trace} {t : Track.State} {gs : List (List Input)} {g : Nat}
    (p : TPart ttr t gs (some g)) (op : Track.Op) (st : Js.Group.Status) (hst : st ≠ .live)
    (hop : Passive op)
    (hstep : Track.step t op = Track.onGroup t g fun x => { x with status := st }) :
    TPart (ttr ++ [(op, (Track.step t op).1)]) (Track.step t op).2 gs none ∧
    (Track.step t op).2.status = t.status := by
  obtain ⟨x, hx, hl⟩ := (p.alive g).2 rfl
  obtain ⟨h1, h2⟩ := Receive.group_step hx hl (fun x => { x with status := st }) fun _ => rfl
  have ht := p.tinv.passive op hop
  refine ⟨⟨ht, fun k => ?_, fun k hk => by cases hk⟩, ?_⟩
  · rw [hstep]
    simp only [reduceCtorEq, iff_false]
    rintro ⟨y, hy, hyl⟩
    by_cases hk : k = g
    · subst hk
      rw [h2.this] at hy
      cases hy
      exact hst hyl
    · rw [h2.other k hk] at hy
      have := (p.alive k).1 ⟨y, hy, hyl⟩
      exact hk (Option.some.inj this).symm
  · rw [hstep]
    exact h2.status

theorem TPart.closeGroup {ttr : Track.Trace} {t : Track.State} {gs : List (List Input)} {g : Nat}
    (p : TPart ttr t gs (some g)) :
    TPart (ttr ++ [(.closeGroup g, (Track.step t (.closeGroup g)).1)]) (Track.step t (.closeGroup g)).2
      gs none ∧ (Track.step t (.closeGroup g)).2.status = t.status :=
  p.finish (.closeGroup g) .closed (by simp) trivial rfl

theorem TPart.abortGroup {ttr : Track.Trace} {t : Track.State} {gs : List (List Input)} {g : Nat}
    (p : TPart ttr t gs (some g)) :
    TPart (ttr ++ [(.abortGroup g, (Track.step t (.abortGroup g)).1)]) (Track.step t (.abortGroup g)).2
      gs none ∧ (Track.step t (.abortGroup g)).2.status = t.status :=
  p.finish (.abortGroup g) .aborted (by simp) trivial rfl

theorem TPart.append {ttr : Track.Trace} {t : Track.State} {gs : List (List Input)}
    (p : TPart ttr t gs none) (hl : t.status = .live) :
    (Track.step t .append).1 = .group gs.length ∧
    TPart (ttr ++ [(.append, (Track.step t .append).1)]) (Track.step t .append).2 (gs ++ [[]])
      (some gs.length) ∧ (Track.step t .append).2.status = .live := by
  obtain ⟨h1, h2⟩ := p.tinv.append hl
  have hnext := p.tinv.next hl
  have hgr : (Track.step t .append).2.groups = t.groups ++ [⟨gs.length, [], .live⟩] := by
    rw [Track.step, Track.add, if_pos hl, hnext]
  refine ⟨h1, ⟨h2, fun g => ?_, fun g hg => ?_⟩, ?_⟩
  · have hnone : ∀ x ∈ t.groups, x.id ≠ gs.length := by
      intro x hx he
      have hi := (Track.inv_reach p.tinv.reach).track
      have hm : x.id ∈ Track.ids t := List.mem_map_of_mem hx
      rw [hi.ids, p.tinv.acc, he] at hm
      simp at hm
    have hf : Track.find (Track.step t .append).2 g =
        (Track.find t g).or (if gs.length = g then some ⟨gs.length, [], .live⟩ else none) := by
      unfold Track.find
      rw [hgr, List.find?_append]
      congr 1
      by_cases h : gs.length = g <;> simp [h]
    unfold Alive
    rw [hf]
    constructor
    · rintro ⟨x, hx, hxl⟩
      cases hy : Track.find t g with
      | some y =>
        rw [hy] at hx
        cases hx
        have := (p.alive g).1 ⟨_, hy, hxl⟩
        cases this
      | none =>
        rw [hy, Option.none_or] at hx
        split at hx
        · next he => rw [he]
        · cases hx
    · intro he
      cases he
      refine ⟨⟨gs.length, [], .live⟩, ?_, rfl⟩
      cases hy : Track.find t gs.length with
      | some y =>
        obtain ⟨a, b⟩ := Track.find_mem hy
        exact absurd b (hnone y a)
      | none => simp
  · cases hg
    simp
  · rw [Track.step, Track.add, if_pos hl]
    exact hl

theorem TPart.write {ttr : Track.Trace} {t : Track.State} {gs : List (List Input)} {g : Nat}
    (p : TPart ttr t gs (some g)) (c : Input) :
    (Track.step t (.write g (bytes c))).1 = .ok ∧
    TPart (ttr ++ [(.write g (bytes c), (Track.step t (.write g (bytes c))).1)])
      (Track.step t (.write g (bytes c))).2 (addLast gs c) (some g) ∧
    (Track.step t (.write g (bytes c))).2.status = t.status := by
  obtain ⟨x, hx, hl⟩ := (p.alive g).2 rfl
  have hlast := p.last g rfl
  obtain ⟨h1, h2⟩ := Receive.group_step hx hl (fun x => { x with frames := x.frames ++ [bytes c] })
    fun _ => rfl
  have h1' : (Track.step t (.write g (bytes c))).1 = .ok := h1
  have hg : g = gs.length - 1 := by omega
  have ht := p.tinv.write (by intro h; rw [h] at hlast; simp at hlast) c (by rw [← hg]; exact h1')
  rw [← hg] at ht
  refine ⟨h1', ⟨by rw [h1']; exact ht, fun k => ?_, fun k hk => ?_⟩, h2.status⟩
  · by_cases hk : k = g
    · subst hk
      refine ⟨fun _ => rfl, fun _ => ⟨_, h2.this, hl⟩⟩
    · unfold Alive
      rw [show Track.step t (.write g (bytes c)) = Track.onGroup t g _ from rfl, h2.other k hk]
      exact p.alive k
  · rw [addLast_length]
    exact p.last k hk

/-! ## Calls -/

/-- The group of track `r` that is `#group`. -/
def own (grp : Option (Nat × Nat)) (r : Nat) : Option Nat :=
  match grp with
  | some (k, g) => if k = r then some g else none
  | none => none

theorem own_none (r : Nat) : own none r = none := rfl

theorem own_self (r g : Nat) : own (some (r, g)) r = some g := by simp [own]

theorem own_other {k r : Nat} (g : Nat) (h : k ≠ r) : own (some (k, g)) r = none := by simp [own, h]

theorem own_eq {grp : Option (Nat × Nat)} {r g : Nat} : own grp r = some g ↔ grp = some (r, g) := by
  unfold own
  split
  · next k g' =>
    by_cases h : k = r <;> simp [h]
  · simp

theorem act_eq {s : State} {r : Nat} {t : Track.State} (h : s.tracks[r]? = some t) (op : Track.Op) :
    act s r op = { s with
      tracks := s.tracks.set r (Track.step t op).2
      calls := s.calls ++ [(r, op, (Track.step t op).1)] } := by
  unfold act
  rw [h]

theorem trackTrace_same {s : State} {calls : List (Nat × Track.Op × Track.Out)} {r : Nat}
    (op : Track.Op) (o : Track.Out) (h : s.calls = calls ++ [(r, op, o)]) :
    trackTrace s r = (calls.filterMap fun e => if e.1 = r then some e.2 else none) ++ [(op, o)] := by
  unfold trackTrace
  rw [h, List.filterMap_append]
  simp

theorem trackTrace_other {s : State} {calls : List (Nat × Track.Op × Track.Out)} {r k : Nat}
    (op : Track.Op) (o : Track.Out) (h : s.calls = calls ++ [(r, op, o)]) (hk : k ≠ r) :
    trackTrace s k = calls.filterMap fun e => if e.1 = k then some e.2 else none := by
  unfold trackTrace
  rw [h, List.filterMap_append]
  simp [hk.symm]

/-! ## Histories -/

theorem chunks_snoc (tr : Trace) (op : Op) (o : Out) (r : Nat) : chunks (tr ++ [(op, o)]) r =
    chunks tr r ++ match op with
      | .output r' c => if r' = r ∧ o ≠ .invalid then [c] else []
      | _ => [] := by
  unfold chunks
  rw [List.filterMap_append]
  congr 1
  cases op with
  | output r' c =>
    by_cases h : r' = r ∧ o ≠ .invalid <;> simp [h]
  | _ => rfl

theorem pictures_snoc (tr : Trace) (op : Op) (o : Out) (r : Nat) : pictures (tr ++ [(op, o)]) r =
    pictures tr r ++ match op with
      | .picture r' ts => if r' = r ∧ o ≠ .invalid then [ts] else []
      | _ => [] := by
  unfold pictures
  rw [List.filterMap_append]
  congr 1
  cases op with
  | picture r' ts =>
    by_cases h : r' = r ∧ o ≠ .invalid <;> simp [h]
  | _ => rfl

theorem started_snoc (tr : Trace) (e : Op × Out) (r : Nat) :
    Started (tr ++ [e]) r ↔ Started tr r ∨ e = (.start, .run r) := by
  unfold Started
  simp [eq_comm]

theorem closed_snoc (tr : Trace) (e : Op × Out) : Closed (tr ++ [e]) ↔ Closed tr ∨ e = (.close, .ok) := by
  unfold Closed
  simp [eq_comm]

theorem errored_snoc (tr : Trace) (e : Op × Out) (r : Nat) :
    Errored (tr ++ [e]) r ↔ Errored tr r ∨ e = (.error r, .ok) := by
  unfold Errored
  simp [eq_comm]

theorem late_snoc (tr : Trace) (e : Op × Out) : Late (tr ++ [e]) ↔ Late tr ∨
    ∃ r ok o r', e = (.config r ok, o) ∧ o ≠ .invalid ∧ Started tr r' ∧ r < r' := by
  constructor
  · rintro ⟨pre, post, r, ok, o, r', h1, h2, h3, h4⟩
    rcases List.eq_nil_or_concat post with rfl | ⟨post', a, rfl⟩
    · obtain ⟨rfl, h⟩ := List.append_inj' h1 rfl
      exact .inr ⟨r, ok, o, r', (List.cons.inj h).1, h2, h3, h4⟩
    · rw [List.concat_eq_append, ← List.cons_append, ← List.append_assoc] at h1
      obtain ⟨rfl, -⟩ := List.append_inj' h1 rfl
      exact .inl ⟨pre, post', r, ok, o, r', rfl, h2, h3, h4⟩
  · rintro (⟨pre, post, r, ok, o, r', rfl, h2, h3, h4⟩ | ⟨r, ok, o, r', rfl, h2, h3, h4⟩)
    · exact ⟨pre, post ++ [e], r, ok, o, r', by simp, h2, h3, h4⟩
    · exact ⟨tr, [], r, ok, o, r', rfl, h2, h3, h4⟩

/-! ## Invariant -/

/-- The pictures that were not put out yet. -/
def pending (run : Run) : List Int :=
  match run.encoder, run.phase with
  | .working q _, _ => q.map (·.timestamp)
  | .unconfigured, .config _ ts => [ts]
  | _, _ => []

/-- What a run has put out: `gs` are its groups and `ls` the chunks that were lost after each. -/
structure CPart (cs : List Input) (ps : List Int) (late : Prop) (s : State) (r : Nat) (run : Run)
    (gs ls : List (List Input)) : Prop where
  len : gs.length = ls.length
  flat : cs = (List.zipWith (· ++ ·) gs ls).flatten
  heads : ∀ g ∈ gs, ∃ c, g.head? = some c ∧ c.keyframe = true
  tails : ∀ g ∈ gs, ∀ c ∈ g.tail, c.keyframe = false
  lost : ∀ l ∈ ls, ∀ c ∈ l, c.keyframe = false
  whole : ¬ late → ∀ l ∈ ls, l = []
  last : own s.group r ≠ none → ls.getLast? = some []
  mine : own s.group r ≠ none → ∃ q, run.encoder = .working q true
  phase : match run.encoder with
    | .unconfigured => (run.phase = .first ∨ ∃ p ts, run.phase = .config p ts) ∧ gs = [] ∧
      (run.phase = .first → run.done = false)
    | .working _ st => run.phase = .loop ∧ run.done = false ∧ s.current = some r ∧
      (st = true ↔ gs ≠ [])
    | .closed => run.phase = .over ∨ run.phase = .loop
  going : run.done = false → s.current = some r
  order : ∃ rest, ps = cs.map (·.timestamp) ++ pending run ++ rest ∧ (run.encoder ≠ .closed → rest = [])
  small : ∀ ts ∈ ps, ts ≤ Container.MAX_U53

structure RInv (cs : List Input) (ps : List Int) (late : Prop) (s : State) (r : Nat) (run : Run)
    (t : Track.State) (gs ls : List (List Input)) : Prop where
  track : TPart (trackTrace s r) t gs (own s.group r)
  run : CPart cs ps late s r run gs ls

structure SInv (ch : Nat → List Input) (pi : Nat → List Int) (late : Prop) (s : State) : Prop where
  len : s.tracks.length = s.runs.length
  run : ∀ r run t, s.runs[r]? = some run → s.tracks[r]? = some t →
    ∃ gs ls, RInv (ch r) (pi r) late s r run t gs ls
  group : ∀ k g, s.group = some (k, g) → k < s.runs.length
  current : ∀ r, s.current = some r → r + 1 = s.runs.length
  fresh : ∀ r, s.runs.length ≤ r → ch r = [] ∧ pi r = [] ∧ trackTrace s r = []

structure Inv (tr : Trace) (s : State) : Prop where
  state : SInv (chunks tr) (pictures tr) (Late tr) s
  started : ∀ r, Started tr r ↔ r < s.runs.length
  closed : s.closed = true ↔ Closed tr
  shut : s.closed = true → s.current = none
  keeps : ¬ Late tr → ∀ r run q, s.runs[r]? = some run → run.encoder = .working q true →
    ∃ g, s.group = some (r, g)
  live : ∀ r run t, s.current = some r → s.runs[r]? = some run → s.tracks[r]? = some t →
    run.encoder ≠ .closed → t.status = .live

theorem SInv.both {ch : Nat → List Input} {pi : Nat → List Int} {late : Prop} {s : State}
    (i : SInv ch pi late s) {r : Nat} {run : Run} (h : s.runs[r]? = some run) :
    ∃ t gs ls, s.tracks[r]? = some t ∧ RInv (ch r) (pi r) late s r run t gs ls := by
  have hlt := (List.getElem?_eq_some_iff.1 h).1
  obtain ⟨t, ht⟩ : ∃ t, s.tracks[r]? = some t :=
    ⟨_, List.getElem?_eq_getElem (by rw [i.len]; exact hlt)⟩
  obtain ⟨gs, ls, hr⟩ := i.run r run t h ht
  exact ⟨t, gs, ls, ht, hr⟩

/-- The owner of `#group` is the run whose encoder works. -/
theorem SInv.owner {ch : Nat → List Input} {pi : Nat → List Int} {late : Prop} {s : State}
    (i : SInv ch pi late s) {k g : Nat} (h : s.group = some (k, g)) :
    ∃ run q, s.runs[k]? = some run ∧ run.encoder = .working q true ∧ s.current = some k := by
  obtain ⟨run, hrun⟩ : ∃ run, s.runs[k]? = some run := ⟨_, List.getElem?_eq_getElem (i.group k g h)⟩
  obtain ⟨t, gs, ls, -, hr⟩ := i.both hrun
  obtain ⟨q, hq⟩ := hr.run.mine (by rw [h, own_self]; simp)
  have := hr.run.phase
  rw [hq] at this
  exact ⟨run, q, hrun, hq, this.2.2.1⟩

/-- A state whose tracks and calls differ only in track `r`. -/
structure Only (s s' : State) (r : Nat) (ops : Track.Trace) (t' : Track.State) : Prop where
  len : s'.tracks.length = s.tracks.length
  this : s'.tracks[r]? = some t'
  other : ∀ k, k ≠ r → s'.tracks[k]? = s.tracks[k]?
  trace : trackTrace s' r = trackTrace s r ++ ops
  traces : ∀ k, k ≠ r → trackTrace s' k = trackTrace s k

theorem act_only {s : State} {r : Nat} {t : Track.State} (h : s.tracks[r]? = some t) (op : Track.Op) :
    Only s (act s r op) r [(op, (Track.step t op).1)] (Track.step t op).2 := by
  have hlt := (List.getElem?_eq_some_iff.1 h).1
  rw [act_eq h]
  refine ⟨by simp, List.getElem?_set_self hlt, fun k hk => List.getElem?_set_ne (Ne.symm hk), ?_, ?_⟩
  · exact trackTrace_same (s := { s with tracks := _, calls := s.calls ++ [(r, op, (Track.step t op).1)] })
      op _ rfl
  · intro k hk
    exact trackTrace_other (s := { s with tracks := _, calls := s.calls ++ [(r, op, (Track.step t op).1)] })
      op _ rfl hk

theorem RInv.other {cs : List Input} {ps : List Int} {late late' : Prop} {s s' : State} {r : Nat} {run : Run}
    {t : Track.State} {gs ls : List (List Input)} (h : RInv cs ps late s r run t gs ls)
    (htr : trackTrace s' r = trackTrace s r) (hown : own s'.group r = own s.group r)
    (hcur : s'.current = some r ↔ s.current = some r) (hl : late → late') :
    RInv cs ps late' s' r run t gs ls := by
  refine ⟨by rw [htr, hown]; exact h.track, h.run.len, h.run.flat, h.run.heads, h.run.tails, h.run.lost,
    fun hn => h.run.whole fun x => hn (hl x), by rw [hown]; exact h.run.last,
    by rw [hown]; exact h.run.mine, ?_, by rw [hcur]; exact h.run.going, h.run.order, h.run.small⟩
  have := h.run.phase
  rw [hcur]
  exact this

theorem SInv.update {ch ch' : Nat → List Input} {pi pi' : Nat → List Int} {late late' : Prop}
    {s s' : State} (i : SInv ch pi late s) (r : Nat) {run' : Run} {t' : Track.State}
    {gs ls : List (List Input)}
    (hlen : s'.runs.length = s.runs.length) (hlt : r < s.runs.length)
    (hruns : ∀ k, k ≠ r → s'.runs[k]? = s.runs[k]?) (hrun : s'.runs[r]? = some run')
    (htl : s'.tracks.length = s.tracks.length)
    (htracks : ∀ k, k ≠ r → s'.tracks[k]? = s.tracks[k]?) (htrack : s'.tracks[r]? = some t')
    (htraces : ∀ k, k ≠ r → trackTrace s' k = trackTrace s k)
    (howns : ∀ k, k ≠ r → own s'.group k = own s.group k)
    (hcur : ∀ k, k ≠ r → (s'.current = some k ↔ s.current = some k))
    (hcur' : s'.current = some r → r + 1 = s.runs.length)
    (hl : late → late') (hch : ∀ k, k ≠ r → ch' k = ch k) (hpi : ∀ k, k ≠ r → pi' k = pi k)
    (h : RInv (ch' r) (pi' r) late' s' r run' t' gs ls) : SInv ch' pi' late' s' := by
  refine ⟨by rw [htl, hlen, i.len], ?_, ?_, ?_, ?_⟩
  · intro k run t hk ht
    by_cases hkr : k = r
    · subst hkr
      rw [hrun] at hk
      rw [htrack] at ht
      cases hk
      cases ht
      exact ⟨gs, ls, h⟩
    · rw [hruns k hkr] at hk
      rw [htracks k hkr] at ht
      obtain ⟨gs, ls, x⟩ := i.run k run t hk ht
      rw [hch k hkr, hpi k hkr]
      exact ⟨gs, ls, x.other (htraces k hkr) (howns k hkr) (hcur k hkr) hl⟩
  · intro k g hg
    rw [hlen]
    by_cases hkr : k = r
    · rw [hkr]
      exact hlt
    · have := howns k hkr
      rw [hg, own_self] at this
      exact i.group k g (own_eq.1 this.symm)
  · intro k hk
    rw [hlen]
    by_cases hkr : k = r
    · subst hkr
      exact hcur' hk
    · exact i.current k ((hcur k hkr).1 hk)
  · intro k hk
    rw [hlen] at hk
    have hkr : k ≠ r := by omega
    rw [hch k hkr, hpi k hkr, htraces k hkr]
    exact i.fresh k hk

/-- Only a run changes. -/
theorem SInv.setRun {ch ch' : Nat → List Input} {pi pi' : Nat → List Int} {late late' : Prop}
    {s s' : State} (i : SInv ch pi late s) {r : Nat} {run run' : Run} (hr : s.runs[r]? = some run)
    (hruns : s'.runs = s.runs.set r run') (htracks : s'.tracks = s.tracks) (hcalls : s'.calls = s.calls)
    (hgroup : s'.group = s.group) (hcur : ∀ k, k ≠ r → (s'.current = some k ↔ s.current = some k))
    (hcur' : s'.current = some r → r + 1 = s.runs.length)
    (hl : late → late') (hch : ∀ k, k ≠ r → ch' k = ch k) (hpi : ∀ k, k ≠ r → pi' k = pi k)
    (h : ∀ t gs ls, s.tracks[r]? = some t → RInv (ch r) (pi r) late s r run t gs ls →
      CPart (ch' r) (pi' r) late' s' r run' gs ls) : SInv ch' pi' late' s' := by
  have hlt := (List.getElem?_eq_some_iff.1 hr).1
  have htt : ∀ k, trackTrace s' k = trackTrace s k := fun k => by unfold trackTrace; rw [hcalls]
  obtain ⟨t, gs, ls, ht, x⟩ := i.both hr
  refine i.update r (run' := run') (t' := t) (gs := gs) (ls := ls) (by rw [hruns, List.length_set]) hlt
    (fun k hk => by rw [hruns, List.getElem?_set_ne (Ne.symm hk)])
    (by rw [hruns, List.getElem?_set_self hlt]) (by rw [htracks]) (fun k _ => by rw [htracks])
    (by rw [htracks]; exact ht) (fun k _ => htt k) (fun k _ => by rw [hgroup]) hcur hcur' hl hch hpi ?_
  exact ⟨by rw [htt, hgroup]; exact x.track, h t gs ls ht x⟩

/-- Nothing that matters changes. -/
theorem SInv.same {ch : Nat → List Input} {pi : Nat → List Int} {late late' : Prop} {s s' : State}
    (i : SInv ch pi late s) (hruns : s'.runs = s.runs) (htracks : s'.tracks = s.tracks)
    (hcalls : s'.calls = s.calls) (hgroup : s'.group = s.group) (hcur : s'.current = s.current)
    (hl : late → late') : SInv ch pi late' s' := by
  have htt : ∀ k, trackTrace s' k = trackTrace s k := fun k => by unfold trackTrace; rw [hcalls]
  refine ⟨by rw [hruns, htracks]; exact i.len, ?_, by rw [hruns, hgroup]; exact i.group,
    by rw [hruns, hcur]; exact i.current, ?_⟩
  · intro r run t h1 h2
    rw [hruns] at h1
    rw [htracks] at h2
    obtain ⟨gs, ls, x⟩ := i.run r run t h1 h2
    exact ⟨gs, ls, x.other (htt r) (by rw [hgroup]) (by rw [hcur]) hl⟩
  · intro r hr
    rw [hruns] at hr
    rw [htt]
    exact i.fresh r hr

/-- Something happens to a track, but not to what is published on it. -/
theorem SInv.onTrack {ch : Nat → List Input} {pi : Nat → List Int} {late : Prop} {s s' : State}
    (i : SInv ch pi late s) {r : Nat} {ops : Track.Trace} {t t' : Track.State} {run : Run}
    (hr : s.runs[r]? = some run)
    (ht : s.tracks[r]? = some t) (ho : Only s s' r ops t') (hruns : s'.runs = s.runs)
    (hcur : s'.current = s.current) (howns : ∀ k, k ≠ r → own s'.group k = own s.group k)
    (hdrop : own s'.group r ≠ none → own s.group r ≠ none)
    (h : ∀ gs, TPart (trackTrace s r) t gs (own s.group r) →
      TPart (trackTrace s' r) t' gs (own s'.group r)) : SInv ch pi late s' := by
  have hlt := (List.getElem?_eq_some_iff.1 hr).1
  obtain ⟨gs, ls, x⟩ := i.run r run t hr ht
  refine i.update r (run' := run) (t' := t') (gs := gs) (ls := ls) (by rw [hruns]) hlt
    (fun k _ => by rw [hruns]) (by rw [hruns]; exact hr) ho.len ho.other ho.this ho.traces howns
    (fun k _ => by rw [hcur]) (fun hk => by rw [hcur] at hk; exact i.current r hk) id (fun _ _ => rfl)
    (fun _ _ => rfl) ?_
  have c := x.run
  refine ⟨h gs x.track, c.len, c.flat, c.heads, c.tails, c.lost, c.whole, fun hn => c.last (hdrop hn),
    fun hn => c.mine (hdrop hn), ?_, by rw [hcur]; exact c.going, c.order, c.small⟩
  rw [hcur]
  exact c.phase

/-! ## `finally` -/

/-- `#group` is closed and forgotten. -/
def drop (s : State) : State := { closeGroup s with group := none }

/-- The tracks of `s'` have the status they have in `s`. -/
def SameStatus (s s' : State) : Prop :=
  ∀ (k : Nat) t', s'.tracks[k]? = some t' → ∃ t, s.tracks[k]? = some t ∧ t'.status = t.status

theorem drop_fields (s : State) : (drop s).runs = s.runs ∧ (drop s).current = s.current ∧
    (drop s).latest = s.latest ∧ (drop s).captured = s.captured ∧ (drop s).shut = s.shut ∧
    (drop s).timestamp = s.timestamp ∧ (drop s).active = s.active ∧ (drop s).closed = s.closed ∧
    (drop s).encoderConfig = s.encoderConfig ∧ (drop s).decoderConfig = s.decoderConfig ∧
    (drop s).group = none := by
  unfold drop closeGroup act
  split
  · split <;> exact ⟨rfl, rfl, rfl, rfl, rfl, rfl, rfl, rfl, rfl, rfl, rfl⟩
  · exact ⟨rfl, rfl, rfl, rfl, rfl, rfl, rfl, rfl, rfl, rfl, rfl⟩

theorem finish_eq {s : State} {r : Nat} {run : Run} (h : run.encoder ≠ .closed) :
    finish s r run = { drop s with
      runs := s.runs.set r { run with phase := .over, encoder := .closed }
      active := false } := by
  unfold finish
  rw [if_neg h]
  have := (drop_fields s).1
  unfold drop at this ⊢
  dsimp only at this
  unfold put
  rw [this]

theorem SInv.drop {ch : Nat → List Input} {pi : Nat → List Int} {late : Prop} {s : State}
    (i : SInv ch pi late s) : SInv ch pi late (drop s) ∧ SameStatus s (drop s) := by
  cases hg : s.group with
  | none =>
    have : Capture.drop s = s := by
      unfold Capture.drop closeGroup
      rw [hg]
      dsimp only
      rw [← hg]
    rw [this]
    exact ⟨i, fun k t h => ⟨t, h, rfl⟩⟩
  | some p =>
    obtain ⟨k, g⟩ := p
    obtain ⟨run, q, hrun, -, -⟩ := i.owner hg
    obtain ⟨t, gs, ls, ht, x⟩ := i.both hrun
    have hd : Capture.drop s = { act s k (.closeGroup g) with group := none } := by
      unfold Capture.drop closeGroup
      rw [hg]
    have ho := act_only ht (.closeGroup g)
    have ho' : Only s { act s k (.closeGroup g) with group := none } k _ _ := ⟨ho.1, ho.2, ho.3, ho.4, ho.5⟩
    rw [hd]
    constructor
    · refine i.onTrack hrun ht ho' (by rw [act_eq ht]) (by rw [act_eq ht]) ?_ (fun h => absurd rfl h) ?_
      · intro j hj
        rw [hg, own_other g (Ne.symm hj)]
        rfl
      · intro gs p
        rw [hg, own_self] at p
        rw [ho'.trace]
        exact p.closeGroup.1
    · intro j t' hj
      by_cases hjk : j = k
      · subst hjk
        have h1 := ho'.this
        rw [hj] at h1
        cases h1
        have p := x.track
        rw [hg, own_self] at p
        exact ⟨t, ht, p.closeGroup.2⟩
      · rw [ho'.other j hjk] at hj
        exact ⟨t', hj, rfl⟩

theorem SInv.finish {ch : Nat → List Input} {pi : Nat → List Int} {late : Prop} {s : State}
    (i : SInv ch pi late s) {r : Nat} {run run' : Run} (hr : s.runs[r]? = some run)
    (he : run'.encoder = .closed ↔ run.encoder = .closed) (hdone : run'.done = false → s.current = some r) :
    SInv ch pi late (finish s r run') ∧ SameStatus s (finish s r run') := by
  have hkey : ∀ (s1 s2 : State), SInv ch pi late s1 → s1.runs[r]? = some run → s1.current = s.current →
      (run.encoder = .closed ∨ own s1.group r = none) →
      s2.runs = s1.runs.set r ⟨.over, .closed, run'.done⟩ → s2.tracks = s1.tracks →
      s2.calls = s1.calls → s2.group = s1.group → s2.current = s1.current → SInv ch pi late s2 := by
    intro s1 s2 i1 hr1 hc1 hg1 e1 e2 e3 e4 e5
    refine i1.setRun hr1 e1 e2 e3 e4 (fun k _ => by rw [e5]) (fun h => by rw [e5] at h; exact i1.current r h)
      id (fun _ _ => rfl) (fun _ _ => rfl) ?_
    intro t gs ls ht x
    have c := x.run
    have hn : own s2.group r = none := by
      rw [e4]
      rcases hg1 with h | h
      · cases ho : own s1.group r with
        | none => rfl
        | some g =>
          obtain ⟨q, hq⟩ := c.mine (by rw [ho]; simp)
          rw [hq] at h
          cases h
      · exact h
    refine ⟨c.len, c.flat, c.heads, c.tails, c.lost, c.whole, fun h => absurd hn h, fun h => absurd hn h,
      .inl rfl, fun h => by rw [e5, hc1]; exact hdone h, ?_, c.small⟩
    obtain ⟨rest, h1, h2⟩ := c.order
    exact ⟨pending run ++ rest, by rw [h1]; simp [pending], fun h => absurd rfl h⟩
  by_cases h : run.encoder = .closed
  · unfold Capture.finish
    rw [if_pos (he.2 h)]
    refine ⟨hkey s _ i hr rfl (.inl h) ?_ rfl rfl rfl rfl, fun k t hk => ⟨t, hk, rfl⟩⟩
    unfold put
    dsimp only
    rw [he.2 h]
  · rw [finish_eq fun hc => h (he.1 hc)]
    obtain ⟨d1, d2⟩ := i.drop
    obtain ⟨f1, f2, -, -, -, -, -, -, -, -, f3⟩ := drop_fields s
    refine ⟨hkey (Capture.drop s) _ d1 (by rw [f1]; exact hr) f2 (.inr (by rw [f3]; rfl)) (by rw [f1]) rfl rfl
      rfl rfl, d2⟩

theorem finish_get {s : State} {r : Nat} {run : Run} (h : r < s.runs.length) :
    (finish s r run).runs[r]? = some ⟨.over, .closed, run.done⟩ ∧
    (finish s r run).runs.length = s.runs.length ∧
    (∀ k, k ≠ r → (finish s r run).runs[k]? = s.runs[k]?) ∧ (finish s r run).current = s.current ∧
    (finish s r run).closed = s.closed := by
  by_cases he : run.encoder = .closed
  · unfold finish
    rw [if_pos he]
    unfold put
    dsimp only
    rw [he]
    exact ⟨List.getElem?_set_self h, by simp, fun k hk => List.getElem?_set_ne (Ne.symm hk), rfl, rfl⟩
  · rw [finish_eq he]
    obtain ⟨f1, f2, -, -, -, -, -, f3, -⟩ := drop_fields s
    exact ⟨List.getElem?_set_self h, by simp, fun k hk => List.getElem?_set_ne (Ne.symm hk), f2, f3⟩

theorem SInv.exhaust {ch : Nat → List Input} {pi : Nat → List Int} {late : Prop} {s : State}
    (i : SInv ch pi late s) {r : Nat} {run : Run} (hr : s.runs[r]? = some run) :
    SInv ch pi late (exhaust s r run) ∧ SameStatus s (exhaust s r run) ∧
    (exhaust s r run).runs.length = s.runs.length ∧ (exhaust s r run).current = s.current ∧
    (exhaust s r run).closed = s.closed ∧
    ∃ run', (exhaust s r run).runs[r]? = some run' ∧ run'.done = true ∧
      (∀ q st, run'.encoder ≠ .working q st) ∧ (run'.encoder ≠ .closed → run.encoder ≠ .closed) := by
  have hlt := (List.getElem?_eq_some_iff.1 hr).1
  obtain ⟨t, gs, ls, ht, x⟩ := i.both hr
  have hp := x.run.phase
  have hfin : SInv ch pi late (Capture.finish s r { run with done := true }) ∧
      SameStatus s (Capture.finish s r { run with done := true }) ∧
      (Capture.finish s r { run with done := true }).runs.length = s.runs.length ∧
      (Capture.finish s r { run with done := true }).current = s.current ∧
      (Capture.finish s r { run with done := true }).closed = s.closed ∧
      ∃ run', (Capture.finish s r { run with done := true }).runs[r]? = some run' ∧ run'.done = true ∧
        (∀ q st, run'.encoder ≠ .working q st) ∧ (run'.encoder ≠ .closed → run.encoder ≠ .closed) := by
    obtain ⟨f1, f2, -, f3, f4⟩ := finish_get (run := { run with done := true }) hlt
    obtain ⟨j1, j2⟩ := i.finish (run' := { run with done := true }) hr Iff.rfl (fun h => by cases h)
    exact ⟨j1, j2, f2, f3, f4, _, f1, rfl, fun q st h => (by cases h), fun h => absurd rfl h⟩
  have hput : (∀ q st, run.encoder ≠ .working q st) → run.phase ≠ .first →
      SInv ch pi late (put s r { run with done := true }) ∧
      SameStatus s (put s r { run with done := true }) ∧
      (put s r { run with done := true }).runs.length = s.runs.length ∧
      (put s r { run with done := true }).current = s.current ∧
      (put s r { run with done := true }).closed = s.closed ∧
      ∃ run', (put s r { run with done := true }).runs[r]? = some run' ∧ run'.done = true ∧
        (∀ q st, run'.encoder ≠ .working q st) ∧ (run'.encoder ≠ .closed → run.encoder ≠ .closed) := by
    intro hw hf
    refine ⟨?_, fun k t hk => ⟨t, hk, rfl⟩, by simp [put], rfl, rfl, { run with done := true },
      List.getElem?_set_self hlt, rfl, hw, id⟩
    refine i.setRun hr (s' := put s r { run with done := true }) rfl rfl rfl rfl (fun _ _ => Iff.rfl)
      (i.current r) id (fun _ _ => rfl) (fun _ _ => rfl) ?_
    intro t gs ls ht x
    have c := x.run
    refine ⟨c.len, c.flat, c.heads, c.tails, c.lost, c.whole, c.last, c.mine, ?_, fun h => (by cases h),
      c.order, c.small⟩
    have hp := c.phase
    cases he : run.encoder with
    | unconfigured =>
      rw [he] at hp
      exact ⟨hp.1, hp.2.1, fun h => absurd h hf⟩
    | working q st => exact absurd he (hw q st)
    | closed =>
      rw [he] at hp
      exact hp
  unfold Capture.exhaust
  split
  · exact hfin
  · exact hfin
  · next h1 h2 =>
    refine hput (fun q st he => ?_) (fun h => h1 h)
    rw [he] at hp
    exact h2 hp.1

theorem cleanup_inv {ch : Nat → List Input} {pi : Nat → List Int} {late : Prop} {s : State}
    (i : SInv ch pi late s) : SInv ch pi late (cleanup s) ∧ (cleanup s).current = none ∧
    (cleanup s).runs.length = s.runs.length ∧ (cleanup s).closed = s.closed := by
  unfold cleanup
  cases hc : s.current with
  | none => exact ⟨i, hc, rfl, rfl⟩
  | some r =>
    have hr1 := i.current r hc
    obtain ⟨run, hr⟩ : ∃ run, s.runs[r]? = some run := ⟨_, List.getElem?_eq_getElem (by omega)⟩
    obtain ⟨t, gs, ls, ht, x⟩ := i.both hr
    dsimp only
    rw [hr]
    dsimp only
    have ho := act_only ht .close
    have ha := act_eq ht .close
    have i1 : SInv ch pi late (act s r .close) := by
      refine i.onTrack hr ht ho (by rw [ha]) (by rw [ha]) (fun k _ => by rw [ha]) (by rw [ha]; exact id) ?_
      intro gs p
      rw [ho.trace, show (act s r .close).group = s.group by rw [ha]]
      exact p.close
    obtain ⟨j1, j2, j3, j4, j5, run', k1, k2, k3, -⟩ := i1.exhaust (r := r) (run := run) (by rw [ha]; exact hr)
    have hrl : (act s r .close).runs = s.runs := by rw [ha]
    refine ⟨?_, rfl, by rw [← hrl]; exact j3, by
      rw [show s.closed = (act s r .close).closed by rw [ha]]; exact j5⟩
    refine j1.setRun k1 (run' := run')
      (s' := { Capture.exhaust (act s r .close) r run with current := none }) ?_ rfl rfl rfl ?_
      (fun h => by cases h) id (fun _ _ => rfl) (fun _ _ => rfl) ?_
    · obtain ⟨h1, h2⟩ := List.getElem?_eq_some_iff.1 k1
      dsimp only
      rw [← h2, List.set_getElem_self]
    · intro k hk
      rw [j4, show (act s r .close).current = s.current by rw [ha], hc]
      dsimp only
      constructor
      · intro h
        cases h
      · intro h
        cases h
        exact absurd rfl hk
    · intro t gs ls ht x
      have c := x.run
      refine ⟨c.len, c.flat, c.heads, c.tails, c.lost, c.whole, c.last, c.mine, ?_,
        fun h => (by rw [k2] at h; cases h), c.order, c.small⟩
      have hp := c.phase
      cases he : run'.encoder with
      | working q st => exact absurd he (k3 q st)
      | unconfigured =>
        rw [he] at hp
        exact hp
      | closed =>
        rw [he] at hp
        exact hp

/-- No encoder works without a current run. -/
theorem SInv.idle {ch : Nat → List Input} {pi : Nat → List Int} {late : Prop} {s : State}
    (i : SInv ch pi late s) {r : Nat} {run : Run} {q : List Request} {st : Bool}
    (hr : s.runs[r]? = some run) (he : run.encoder = .working q st) : s.current = some r := by
  obtain ⟨t, gs, ls, -, x⟩ := i.both hr
  have := x.run.phase
  rw [he] at this
  exact this.2.2.1

/-! ## Chunks -/

theorem zip_snoc {gs ls : List (List Input)} (h : gs.length = ls.length) (g l : List Input) :
    (List.zipWith (· ++ ·) (gs ++ [g]) (ls ++ [l])).flatten =
      (List.zipWith (· ++ ·) gs ls).flatten ++ (g ++ l) := by
  rw [List.zipWith_append h]
  simp

theorem pending_working (run : Run) (q : List Request) (st : Bool) :
    pending { run with encoder := .working q st } = q.map (·.timestamp) := by
  unfold pending
  rfl

section

variable {cs : List Input} {ps : List Int} {late late' : Prop} {s s' : State} {r : Nat} {run : Run}
  {gs ls : List (List Input)} {q : Request} {qs : List Request} {st : Bool} {c : Input}

theorem CPart.order' (h : CPart cs ps late s r run gs ls) (he : run.encoder = .working (q :: qs) st)
    (ht : c.timestamp = q.timestamp) :
    ∃ rest, ps = (cs ++ [c]).map (·.timestamp) ++
      pending { run with encoder := .working qs true } ++ rest ∧
      (Encoder.working qs true ≠ .closed → rest = []) := by
  obtain ⟨rest, h1, h2⟩ := h.order
  refine ⟨rest, ?_, fun _ => h2 (by rw [he]; simp)⟩
  rw [h1, pending_working]
  unfold pending
  rw [he]
  simp [ht]

theorem CPart.small' (h : CPart cs ps late s r run gs ls) (he : run.encoder = .working (q :: qs) st)
    (ht : c.timestamp = q.timestamp) : c.timestamp ≤ Container.MAX_U53 := by
  refine h.small _ ?_
  obtain ⟨rest, h1, -⟩ := h.order
  rw [h1]
  unfold pending
  rw [he]
  simp [ht]

/-- A key frame begins a group. -/
theorem CPart.key (h : CPart cs ps late s r run gs ls) (he : run.encoder = .working (q :: qs) st)
    (ht : c.timestamp = q.timestamp) (hk : c.keyframe = true) (hl : late → late')
    (hc : s'.current = s.current) :
    CPart (cs ++ [c]) ps late' s' r { run with encoder := .working qs true } (gs ++ [[c]]) (ls ++ [[]]) := by
  have hp := h.phase
  rw [he] at hp
  refine ⟨by simp [h.len], by rw [zip_snoc h.len, ← h.flat]; simp, ?_, ?_, ?_, ?_, fun _ => by simp,
    fun _ => ⟨qs, rfl⟩, ⟨hp.1, hp.2.1, by rw [hc]; exact hp.2.2.1, by simp⟩,
    fun hd => by rw [hc]; exact h.going hd, h.order' he ht, h.small⟩
  · intro g hg
    rcases List.mem_append.1 hg with hg | hg
    · exact h.heads g hg
    · rw [List.mem_singleton] at hg
      exact ⟨c, by rw [hg]; rfl, hk⟩
  · intro g hg
    rcases List.mem_append.1 hg with hg | hg
    · exact h.tails g hg
    · rw [List.mem_singleton] at hg
      rw [hg]
      intro x hx
      cases hx
  · intro l hm
    rcases List.mem_append.1 hm with hm | hm
    · exact h.lost l hm
    · rw [List.mem_singleton] at hm
      rw [hm]
      intro x hx
      cases hx
  · intro hn l hm
    rcases List.mem_append.1 hm with hm | hm
    · exact h.whole (fun x => hn (hl x)) l hm
    · exact List.mem_singleton.1 hm

/-- Another frame of the group. -/
theorem CPart.delta (h : CPart cs ps late s r run gs ls) (he : run.encoder = .working (q :: qs) st)
    (ht : c.timestamp = q.timestamp) (hk : c.keyframe = false) (hl : late → late')
    (hc : s'.current = s.current) (hs : st = true) (hown : own s.group r ≠ none) :
    CPart (cs ++ [c]) ps late' s' r { run with encoder := .working qs true } (addLast gs c) ls := by
  have hp := h.phase
  rw [he] at hp
  obtain ⟨gs0, g, rfl⟩ := Frames.snoc_of_ne (hp.2.2.2.1 hs)
  have hlast := h.last hown
  obtain ⟨ls0, rfl⟩ := List.getLast?_eq_some_iff.1 hlast
  have hlen : gs0.length = ls0.length := by simpa using h.len
  rw [addLast_snoc]
  refine ⟨by simp [hlen], ?_, ?_, ?_, h.lost, fun hn => h.whole fun x => hn (hl x), fun _ => hlast,
    fun _ => ⟨qs, rfl⟩, ⟨hp.1, hp.2.1, by rw [hc]; exact hp.2.2.1, by simp⟩,
    fun hd => by rw [hc]; exact h.going hd, h.order' he ht, h.small⟩
  · rw [h.flat, zip_snoc hlen, zip_snoc hlen]
    simp
  · intro x hx
    rcases List.mem_append.1 hx with hx | hx
    · exact h.heads x (List.mem_append_left _ hx)
    · rw [List.mem_singleton] at hx
      obtain ⟨a, h1, h2⟩ := h.heads g (by simp)
      refine ⟨a, ?_, h2⟩
      rw [hx, List.head?_append, h1]
      rfl
  · intro x hx
    rcases List.mem_append.1 hx with hx | hx
    · exact h.tails x (List.mem_append_left _ hx)
    · rw [List.mem_singleton] at hx
      rw [hx]
      obtain ⟨a, h1, -⟩ := h.heads g (by simp)
      cases g with
      | nil => cases h1
      | cons b g =>
        intro y hy
        rw [List.cons_append, List.tail_cons] at hy
        rcases List.mem_append.1 hy with hy | hy
        · exact h.tails (b :: g) (by simp) y hy
        · rw [List.mem_singleton] at hy
          rw [hy]
          exact hk

/-- A chunk is lost. -/
theorem CPart.lose (h : CPart cs ps late s r run gs ls) (he : run.encoder = .working (q :: qs) st)
    (ht : c.timestamp = q.timestamp) (hk : c.keyframe = false) (hl : late')
    (hc : s'.current = s.current) (hs : st = true) (hg : s'.group = none) :
    ∃ ls', CPart (cs ++ [c]) ps late' s' r { run with encoder := .working qs true } gs ls' := by
  have hp := h.phase
  rw [he] at hp
  obtain ⟨gs0, g, rfl⟩ := Frames.snoc_of_ne (hp.2.2.2.1 hs)
  have hne : ls ≠ [] := by
    intro h0
    have := h.len
    rw [h0] at this
    simp at this
  obtain ⟨ls0, l, rfl⟩ := Frames.snoc_of_ne hne
  have hlen : gs0.length = ls0.length := by simpa using h.len
  refine ⟨ls0 ++ [l ++ [c]], by simp [hlen], ?_, h.heads, h.tails, ?_, fun hn => absurd hl hn,
    fun hn => absurd (by rw [hg]; rfl) hn, fun hn => absurd (by rw [hg]; rfl) hn,
    ⟨hp.1, hp.2.1, by rw [hc]; exact hp.2.2.1, by simp⟩, fun hd => by rw [hc]; exact h.going hd,
    h.order' he ht, h.small⟩
  · rw [h.flat, zip_snoc hlen, zip_snoc hlen]
    simp
  · intro x hx
    rcases List.mem_append.1 hx with hx | hx
    · exact h.lost x (List.mem_append_left _ hx)
    · rw [List.mem_singleton] at hx
      rw [hx]
      intro y hy
      rcases List.mem_append.1 hy with hy | hy
      · exact h.lost l (by simp) y hy
      · rw [List.mem_singleton] at hy
        rw [hy]
        exact hk

end

theorem Only.trans {s s1 s2 : State} {r : Nat} {a b : Track.Trace} {t1 t2 : Track.State}
    (h1 : Only s s1 r a t1) (h2 : Only s1 s2 r b t2) : Only s s2 r (a ++ b) t2 :=
  ⟨h2.len.trans h1.len, h2.this, fun k hk => (h2.other k hk).trans (h1.other k hk),
    by rw [h2.trace, h1.trace, List.append_assoc], fun k hk => (h2.traces k hk).trans (h1.traces k hk)⟩

theorem finish_put {s : State} {r : Nat} {run w : Run} (h : run.encoder ≠ .closed) :
    finish (put s r w) r run = finish s r run := by
  rw [finish_eq h, finish_eq h]
  have : drop (put s r w) = { drop s with runs := s.runs.set r w } := by
    unfold drop closeGroup act put
    dsimp only
    split
    · split <;> rfl
    · rfl
  rw [this]
  unfold put
  simp

/-- What `output` does. -/
structure Emitted (tr : Trace) (s : State) (r : Nat) (c : Input) (run' : Run) (e : Out × State) : Prop where
  state : ∀ ch', ch' r = chunks tr r ++ [c] → (∀ k, k ≠ r → ch' k = chunks tr k) →
    SInv ch' (pictures tr) (Late tr) e.2
  runs : e.2.runs = s.runs.set r run'
  current : e.2.current = s.current
  closed : e.2.closed = s.closed
  status : SameStatus s e.2
  out : (∃ g, e.1 = .wrote g ∧ e.2.group = some (r, g)) ∨
    (e.1 = .noKeyframe ∧ c.keyframe = false ∧ Late tr ∧ e.2.group = none)

theorem SameStatus.trans {a b c : State} (h1 : SameStatus a b) (h2 : SameStatus b c) : SameStatus a c := by
  intro k t hk
  obtain ⟨t1, h, e⟩ := h2 k t hk
  obtain ⟨t2, h', e'⟩ := h1 k t1 h
  exact ⟨t2, h', e.trans e'⟩

theorem write_eq {s : State} {k g : Nat} {c : Input} {t : Track.State}
    (hs : c.timestamp ≤ Container.MAX_U53) (ht : s.tracks[k]? = some t)
    (ho : (Track.step t (.write g (bytes c))).1 = .ok) :
    write s k g c = (.wrote g, act s k (.write g (bytes c))) := by
  unfold write
  rw [Container.encodeFrame_eq _ _ hs]
  dsimp only
  rw [ht]
  dsimp only
  rw [show Container.header c.timestamp ++ c.data = bytes c from rfl, if_pos ho]

theorem act_status {s : State} {r : Nat} {op : Track.Op} {t : Track.State} (h : s.tracks[r]? = some t)
    (hs : (Track.step t op).2.status = t.status) : SameStatus s (act s r op) := by
  have ho := act_only h op
  intro k t' hk
  by_cases hkr : k = r
  · subst hkr
    rw [ho.this] at hk
    cases hk
    exact ⟨t, h, hs⟩
  · rw [ho.other k hkr] at hk
    exact ⟨t', hk, rfl⟩

theorem Inv.emit {tr : Trace} {s : State} (i : Inv tr s) {r : Nat} {run : Run} {q : Request}
    {qs : List Request} {st : Bool} {c : Input} (hr : s.runs[r]? = some run)
    (he : run.encoder = .working (q :: qs) st) (ht : c.timestamp = q.timestamp)
    (hkey : (q.key = true ∨ st = false) → c.keyframe = true) (d : Option Nat) :
    Emitted tr s r c { run with encoder := .working qs true }
      (emit { put s r { run with encoder := .working qs true } with decoderConfig := d } r c) := by
  have hlt := (List.getElem?_eq_some_iff.1 hr).1
  obtain ⟨t, gs, ls, htk, x⟩ := i.state.both hr
  have hcur := i.state.idle hr he
  have hlive := i.live r run t hcur hr htk (by rw [he]; simp)
  have hsmall := x.run.small' he ht
  have hnext := i.state.current r hcur
  have hown : ∀ k, k ≠ r → own s.group k = none := by
    intro k hk
    cases hg : own s.group k with
    | none => rfl
    | some g =>
      obtain ⟨_, _, _, _, h⟩ := i.state.owner (own_eq.1 hg)
      rw [hcur] at h
      exact absurd (Option.some.inj h).symm hk
  generalize hs0 : ({ put s r { run with encoder := .working qs true } with decoderConfig := d } : State) = s0
  have e0 : s0.tracks = s.tracks ∧ s0.group = s.group ∧ s0.calls = s.calls ∧ s0.current = s.current ∧
      s0.closed = s.closed ∧ s0.runs = s.runs.set r { run with encoder := .working qs true } := by
    rw [← hs0]
    exact ⟨rfl, rfl, rfl, rfl, rfl, rfl⟩
  obtain ⟨e1, e2, e3, e4, e5, e6⟩ := e0
  have htt : ∀ k, trackTrace s0 k = trackTrace s k := fun k => by unfold trackTrace; rw [e3]
  unfold Capture.emit
  by_cases hk : c.keyframe = true
  · rw [if_pos hk]
    dsimp only
    -- the group is closed
    have hclose : ∀ w : State, w.tracks = s.tracks → w.group = s.group → w.calls = s.calls →
        ∃ a t1, Only s (closeGroup w) r a t1 ∧
        TPart (trackTrace s r ++ a) t1 gs none ∧ t1.status = .live ∧
        (closeGroup w).runs = w.runs ∧ (closeGroup w).current = w.current ∧
        (closeGroup w).closed = w.closed := by
      intro w w1 w2 w3
      have htt : ∀ k, trackTrace w k = trackTrace s k := fun k => by unfold trackTrace; rw [w3]
      cases hg : s.group with
      | none =>
        have hw : closeGroup w = w := by
          unfold closeGroup
          rw [w2, hg]
        rw [hw]
        refine ⟨[], t, ⟨by rw [w1], by rw [w1]; exact htk, fun k _ => by rw [w1],
          by rw [List.append_nil]; exact htt r, fun k _ => htt k⟩, ?_, hlive, rfl, rfl, rfl⟩
        have := x.track
        rw [hg] at this
        rw [List.append_nil]
        exact this
      | some p =>
        obtain ⟨k, g⟩ := p
        have hkr : k = r := by
          obtain ⟨_, _, _, _, h⟩ := i.state.owner hg
          rw [hcur] at h
          exact (Option.some.inj h).symm
        subst hkr
        have hw : closeGroup w = act w k (.closeGroup g) := by
          unfold closeGroup
          rw [w2, hg]
        rw [hw]
        have htk' : w.tracks[k]? = some t := by
          rw [w1]
          exact htk
        have ho := act_only htk' (.closeGroup g)
        have p := x.track
        rw [hg, own_self] at p
        obtain ⟨p1, p2⟩ := p.closeGroup
        have ha := act_eq htk' (.closeGroup g)
        exact ⟨_, _, ⟨ho.len.trans (by rw [w1]), ho.this, fun j hj => (ho.other j hj).trans (by rw [w1]),
          ho.trace.trans (congrArg (· ++ _) (htt k)), fun j hj => (ho.traces j hj).trans (htt j)⟩, p1,
          p2.trans hlive, by rw [ha], by rw [ha], by rw [ha]⟩
    replace hclose := hclose { s0 with timestamp := c.timestamp } e1 e2 e3
    dsimp only at hclose
    generalize closeGroup { s0 with timestamp := c.timestamp } = s1 at hclose ⊢
    obtain ⟨a, t1, ho1, p1, l1, f1, f2, f3⟩ := hclose
    rw [ho1.this]
    dsimp only
    obtain ⟨o2, p2, l2⟩ := p1.append l1
    rw [o2]
    dsimp only
    have ho2 := act_only ho1.this .append
    have ha2 := act_eq ho1.this .append
    have ht2 : ({ act s1 r .append with group := some (r, gs.length) } : State).tracks[r]? =
        some (Track.step t1 .append).2 := ho2.this
    obtain ⟨o3, p3, l3⟩ := p2.write c
    rw [write_eq hsmall ht2 o3]
    have ho3 := act_only ht2 (.write gs.length (bytes c))
    have ha3 := act_eq ht2 (.write gs.length (bytes c))
    have ho : Only s _ r _ _ := (ho1.trans ⟨ho2.1, ho2.2, ho2.3, ho2.4, ho2.5⟩ :
      Only s { act s1 r .append with group := some (r, gs.length) } r _ _).trans ho3
    generalize hs3 : act { act s1 r .append with group := some (r, gs.length) } r
      (.write gs.length (bytes c)) = s3 at ho ha3 ⊢
    have g1 : s3.runs = s.runs.set r { run with encoder := .working qs true } := by
      rw [ha3, ha2]
      exact f1.trans e6
    have g2 : s3.current = s.current := by
      rw [ha3, ha2]
      exact f2.trans e4
    have g3 : s3.closed = s.closed := by
      rw [ha3, ha2]
      exact f3.trans e5
    have g4 : s3.group = some (r, gs.length) := by
      rw [ha3]
    refine ⟨?_, g1, g2, g3, ?_, .inl ⟨_, rfl, g4⟩⟩
    · intro ch' hch hch'
      refine i.state.update r (gs := gs ++ [[c]]) (ls := ls ++ [[]]) (by rw [g1, List.length_set]) hlt
        (fun k hk => by rw [g1, List.getElem?_set_ne (Ne.symm hk)])
        (by rw [g1, List.getElem?_set_self hlt]) ho.len ho.other ho.this ho.traces
        (fun k hk => by rw [g4, hown k hk, own_other _ (Ne.symm hk)]) (fun k _ => by rw [g2])
        (fun _ => hnext) id hch' (fun _ _ => rfl) ⟨?_, ?_⟩
      · rw [g4, own_self, ho.trace]
        rw [addLast_snoc] at p3
        simpa using p3
      · rw [hch]
        exact x.run.key he ht hk id g2
    · intro k t' hk
      by_cases hkr : k = r
      · subst hkr
        rw [ho.this] at hk
        cases hk
        exact ⟨t, htk, (l3.trans l2).trans hlive.symm⟩
      · rw [ho.other k hkr] at hk
        exact ⟨t', hk, rfl⟩
  · rw [if_neg hk]
    have hst : st = true := by
      cases st with
      | true => rfl
      | false => exact absurd (hkey (.inr rfl)) hk
    have hkf : c.keyframe = false := by simpa using hk
    rw [e2]
    cases hg : s.group with
    | none =>
      dsimp only
      have hlate : Late tr := by
        refine Classical.byContradiction fun hn => ?_
        obtain ⟨g, h⟩ := i.keeps hn r run (q :: qs) hr (by rw [he, hst])
        rw [hg] at h
        cases h
      refine ⟨?_, e6, e4, e5, fun k t' hk => ⟨t', by rw [← e1]; exact hk, rfl⟩,
        .inr ⟨rfl, hkf, hlate, e2.trans hg⟩⟩
      intro ch' hch hch'
      obtain ⟨ls', h⟩ := x.run.lose (s' := s0) he ht hkf hlate e4 hst (e2.trans hg)
      refine i.state.update r (gs := gs) (ls := ls') (run' := { run with encoder := .working qs true })
        (t' := t) (by rw [e6, List.length_set]) hlt
        (fun k hk => by rw [e6, List.getElem?_set_ne (Ne.symm hk)])
        (by rw [e6, List.getElem?_set_self hlt]) (by rw [e1]) (fun k _ => by rw [e1])
        (by rw [e1]; exact htk) (fun k _ => htt k)
        (fun k hk => by rw [e2]) (fun k _ => by rw [e4])
        (fun _ => hnext) id hch' (fun _ _ => rfl) ⟨?_, ?_⟩
      · rw [htt, e2]
        exact x.track
      · rw [hch]
        exact h
    | some p =>
      obtain ⟨k, g⟩ := p
      have hkr : k = r := by
        obtain ⟨_, _, _, _, h⟩ := i.state.owner hg
        rw [hcur] at h
        exact (Option.some.inj h).symm
      subst hkr
      dsimp only
      have htk' : s0.tracks[k]? = some t := by
        rw [e1]
        exact htk
      have p := x.track
      rw [hg, own_self] at p
      obtain ⟨o3, p3, l3⟩ := p.write c
      rw [write_eq hsmall htk' o3]
      have ho' := act_only htk' (.write g (bytes c))
      have ha := act_eq htk' (.write g (bytes c))
      have ho : Only s (act s0 k (.write g (bytes c))) k _ _ :=
        ⟨ho'.len.trans (by rw [← e1]), ho'.this, fun j hj => (ho'.other j hj).trans (by rw [← e1]),
          ho'.trace.trans (congrArg (· ++ _) (htt k)), fun j hj => (ho'.traces j hj).trans (htt j)⟩
      generalize act s0 k (.write g (bytes c)) = s3 at ho ha ⊢
      have g1 : s3.runs = s.runs.set k { run with encoder := .working qs true } := by
        rw [ha]
        exact e6
      have g2 : s3.current = s.current := by
        rw [ha]
        exact e4
      have g3 : s3.closed = s.closed := by
        rw [ha]
        exact e5
      have g4 : s3.group = some (k, g) := by
        rw [ha]
        exact e2.trans hg
      refine ⟨?_, g1, g2, g3, ?_, .inl ⟨_, rfl, g4⟩⟩
      · intro ch' hch hch'
        refine i.state.update k (gs := addLast gs c) (ls := ls) (by rw [g1, List.length_set]) hlt
          (fun k hk => by rw [g1, List.getElem?_set_ne (Ne.symm hk)])
          (by rw [g1, List.getElem?_set_self hlt]) ho.len ho.other ho.this ho.traces
          (fun j hj => by rw [g4, hown j hj, own_other _ (Ne.symm hj)]) (fun k _ => by rw [g2])
          (fun _ => hnext) id hch' (fun _ _ => rfl) ⟨?_, ?_⟩
        · rw [g4, own_self, ho.trace]
          exact p3
        · rw [hch]
          exact x.run.delta he ht hkf id g2 hst (by rw [hg, own_self]; simp)
      · intro j t' hj
        by_cases hjk : j = k
        · subst hjk
          rw [ho.this] at hj
          cases hj
          exact ⟨t, htk, l3⟩
        · rw [ho.other j hjk] at hj
          exact ⟨t', hj, rfl⟩

/-! ## Steps -/

theorem chunks_same (tr : Trace) (op : Op) (o : Out) (h : ∀ r c, op = .output r c → o = .invalid) :
    chunks (tr ++ [(op, o)]) = chunks tr := by
  funext r
  rw [chunks_snoc]
  cases op with
  | output r' c =>
    have := h r' c rfl
    subst this
    simp
  | _ => simp

theorem pictures_same (tr : Trace) (op : Op) (o : Out) (h : ∀ r ts, op = .picture r ts → o = .invalid) :
    pictures (tr ++ [(op, o)]) = pictures tr := by
  funext r
  rw [pictures_snoc]
  cases op with
  | picture r' ts =>
    have := h r' ts rfl
    subst this
    simp
  | _ => simp

theorem late_mono (tr : Trace) (e : Op × Out) (h : Late tr) : Late (tr ++ [e]) :=
  (late_snoc tr e).2 (.inl h)

theorem Inv.assemble {tr : Trace} {s s' : State} (i : Inv tr s) (e : Op × Out)
    (hs : SInv (chunks (tr ++ [e])) (pictures (tr ++ [e])) (Late (tr ++ [e])) s')
    (hstart : ∀ r, e ≠ (.start, .run r)) (hclose : e ≠ (.close, .ok))
    (hlen : s'.runs.length = s.runs.length) (hclosed : s'.closed = s.closed)
    (hcur : s'.current = s.current)
    (keeps : ¬ Late (tr ++ [e]) → ∀ r run q, s'.runs[r]? = some run → run.encoder = .working q true →
      ∃ g, s'.group = some (r, g))
    (live : ∀ r run t, s.current = some r → s'.runs[r]? = some run → s'.tracks[r]? = some t →
      run.encoder ≠ .closed → t.status = .live) : Inv (tr ++ [e]) s' := by
  refine ⟨hs, fun r => ?_, ?_, ?_, keeps, ?_⟩
  · rw [started_snoc, i.started, hlen]
    simp [hstart r]
  · rw [closed_snoc, ← i.closed, hclosed]
    simp [hclose]
  · rw [hclosed, hcur]
    exact i.shut
  · rw [hcur]
    exact live

theorem Inv.invalid {tr : Trace} {s : State} (i : Inv tr s) (op : Op) : Inv (tr ++ [(op, .invalid)]) s := by
  refine i.assemble _ ?_ (fun r => by simp) (by simp) rfl rfl rfl ?_ i.live
  · rw [chunks_same _ _ _ (fun _ _ _ => rfl), pictures_same _ _ _ (fun _ _ _ => rfl)]
    exact i.state.same rfl rfl rfl rfl rfl (late_mono tr _)
  · exact fun hn => i.keeps fun h => hn (late_mono tr _ h)

theorem start_tpart : TPart [] Track.init [] none := by
  refine ⟨⟨.init, rfl, fun i => by simp [Track.content], fun _ => rfl⟩, fun g => ?_, fun g h => by cases h⟩
  simp [Alive, Track.find, Track.init]

/-- A run is started. -/
theorem SInv.started {ch : Nat → List Input} {pi : Nat → List Int} {late : Prop} {s s' : State}
    (i : SInv ch pi late s) (hc : s.current = none)
    (hruns : s'.runs = s.runs ++ [⟨.first, .unconfigured, false⟩])
    (htracks : s'.tracks = s.tracks ++ [Track.init]) (hcalls : s'.calls = s.calls)
    (hgroup : s'.group = s.group) (hcur : s'.current = some s.runs.length) : SInv ch pi late s' := by
  have htt : ∀ k, trackTrace s' k = trackTrace s k := fun k => by unfold trackTrace; rw [hcalls]
  have hg : s.group = none := by
    cases hg : s.group with
    | none => rfl
    | some p =>
      obtain ⟨_, _, _, _, h⟩ := i.owner (k := p.1) (g := p.2) hg
      rw [hc] at h
      cases h
  refine ⟨by rw [hruns, htracks]; simp [i.len], ?_, by rw [hgroup, hg]; simp, ?_, ?_⟩
  · intro r run t h1 h2
    rw [hruns] at h1
    rw [htracks] at h2
    rcases Nat.lt_or_ge r s.runs.length with hlt | hge
    · rw [List.getElem?_append_left hlt] at h1
      rw [List.getElem?_append_left (by rw [i.len]; exact hlt)] at h2
      obtain ⟨gs, ls, x⟩ := i.run r run t h1 h2
      refine ⟨gs, ls, x.other (htt r) (by rw [hgroup]) ?_ id⟩
      rw [hcur, hc]
      simp
      omega
    · have hr := (List.getElem?_eq_some_iff.1 h1).1
      have hr' : r = s.runs.length := by
        simp at hr
        omega
      subst hr'
      rw [List.getElem?_append_right (Nat.le_refl _), Nat.sub_self] at h1
      rw [List.getElem?_append_right (Nat.le_of_eq i.len), i.len, Nat.sub_self] at h2
      cases h1
      cases h2
      obtain ⟨f1, f2, f3⟩ := i.fresh s.runs.length (Nat.le_refl _)
      have hn : own s'.group s.runs.length = none := by rw [hgroup, hg]; rfl
      refine ⟨[], [], ?_, ?_⟩
      · rw [htt, f3, hn]
        exact start_tpart
      · rw [f1, f2]
        exact ⟨rfl, rfl, by simp, by simp, by simp, by simp, fun h => absurd hn h, fun h => absurd hn h,
          ⟨.inl rfl, rfl, fun _ => rfl⟩, fun _ => hcur, ⟨[], rfl, fun _ => rfl⟩, by simp⟩
  · intro r hr
    rw [hcur] at hr
    cases hr
    rw [hruns]
    simp
  · intro r hr
    rw [hruns] at hr
    rw [htt]
    exact i.fresh r (by simp at hr; omega)

theorem SInv.noGroup {ch : Nat → List Input} {pi : Nat → List Int} {late : Prop} {s : State}
    (i : SInv ch pi late s) (hc : s.current = none) : s.group = none := by
  cases hg : s.group with
  | none => rfl
  | some p =>
    obtain ⟨_, _, _, _, h⟩ := i.owner (k := p.1) (g := p.2) hg
    rw [hc] at h
    cases h

theorem Inv.start {tr : Trace} {s : State} (i : Inv tr s) :
    Inv (tr ++ [(.start, (step s .start).1)]) (step s .start).2 := by
  rw [step]
  by_cases hcl : s.closed = true
  · rw [if_pos hcl]
    exact i.invalid _
  · rw [if_neg hcl]
    dsimp only
    obtain ⟨j, hc, hlen, hclosed⟩ := cleanup_inv i.state
    have k : SInv (chunks tr) (pictures tr) (Late tr) { cleanup s with
        encoderConfig := none
        decoderConfig := none
        runs := (cleanup s).runs ++ [⟨.first, .unconfigured, false⟩]
        tracks := (cleanup s).tracks ++ [Track.init]
        current := some (cleanup s).runs.length } := j.started hc rfl rfl rfl rfl rfl
    refine ⟨?_, fun r => ?_, ?_, ?_, ?_, ?_⟩
    · rw [chunks_same _ _ _ (fun _ _ h => by cases h), pictures_same _ _ _ (fun _ _ h => by cases h)]
      exact k.same rfl rfl rfl rfl rfl (late_mono tr _)
    · rw [started_snoc, i.started]
      simp only [Prod.mk.injEq, true_and, Out.run.injEq, List.length_append, List.length_singleton, hlen]
      omega
    · rw [closed_snoc, ← i.closed]
      simp [hclosed]
    · intro h
      rw [hclosed] at h
      exact absurd h hcl
    · intro hn r run q hr he
      have := k.idle hr he
      cases this
      rw [List.getElem?_append_right (Nat.le_refl _), Nat.sub_self] at hr
      cases hr
      cases he
    · intro r run t hr h1 h2 he
      cases hr
      rw [List.getElem?_append_right (Nat.le_of_eq j.len), j.len, Nat.sub_self] at h2
      cases h2
      rfl

theorem Inv.stop {tr : Trace} {s : State} (i : Inv tr s) :
    Inv (tr ++ [(.stop, (step s .stop).1)]) (step s .stop).2 := by
  rw [step]
  by_cases hcl : s.closed = true
  · rw [if_pos hcl]
    exact i.invalid _
  · rw [if_neg hcl]
    dsimp only
    obtain ⟨j, hc, hlen, hclosed⟩ := cleanup_inv i.state
    refine ⟨?_, fun r => ?_, ?_, fun _ => hc, ?_, ?_⟩
    · rw [chunks_same _ _ _ (fun _ _ h => by cases h), pictures_same _ _ _ (fun _ _ h => by cases h)]
      exact j.same rfl rfl rfl rfl rfl (late_mono tr _)
    · rw [started_snoc, i.started, hlen]
      simp
    · rw [closed_snoc, ← i.closed, hclosed]
      simp
    · intro hn r run q hr he
      have := j.idle hr he
      rw [hc] at this
      cases this
    · intro r run t hr h1 h2 he
      rw [hc] at hr
      cases hr

theorem Inv.close {tr : Trace} {s : State} (i : Inv tr s) :
    Inv (tr ++ [(.close, (step s .close).1)]) (step s .close).2 := by
  rw [step]
  by_cases hcl : s.closed = true
  · rw [if_pos hcl]
    exact i.invalid _
  · rw [if_neg hcl]
    dsimp only
    have i' : SInv (chunks tr) (pictures tr) (Late tr) { s with shut := s.shut ++ s.latest.toList } :=
      i.state.same rfl rfl rfl rfl rfl id
    obtain ⟨j, hc, hlen, -⟩ := cleanup_inv i'
    refine ⟨?_, fun r => ?_, ?_, fun _ => hc, ?_, ?_⟩
    · rw [chunks_same _ _ _ (fun _ _ h => by cases h), pictures_same _ _ _ (fun _ _ h => by cases h)]
      exact j.same rfl rfl rfl rfl rfl (late_mono tr _)
    · rw [started_snoc, i.started]
      dsimp only
      rw [hlen]
      simp
    · rw [closed_snoc]
      simp
    · intro hn r run q hr he
      have := j.idle hr he
      rw [hc] at this
      cases this
    · intro r run t hr h1 h2 he
      dsimp only at hr
      rw [hc] at hr
      cases hr

/-- No encoder works unless it is that of the current run. -/
theorem Inv.late_of {tr : Trace} {s : State} (i : Inv tr s) {r k : Nat} {run : Run}
    (hr : s.runs[r]? = some run) (hk : s.current = some k) (hne : k ≠ r) :
    Started tr k ∧ r < k := by
  have h1 := i.state.current k hk
  have h2 := (List.getElem?_eq_some_iff.1 hr).1
  exact ⟨(i.started k).2 (by omega), by omega⟩

/-- After `finally`. -/
theorem Inv.finished {tr : Trace} {s s1 : State} (i : Inv tr s) {r : Nat} {run run' : Run} (e : Op × Out)
    (hr : s.runs[r]? = some run)
    (hruns : s1.runs = s.runs) (htracks : s1.tracks = s.tracks) (hgroup : s1.group = s.group)
    (hcur : s1.current = s.current) (hclosed : s1.closed = s.closed)
    (hs : SInv (chunks (tr ++ [e])) (pictures (tr ++ [e])) (Late (tr ++ [e])) s1)
    (he : run'.encoder = .closed ↔ run.encoder = .closed) (hdone : run'.done = false → s.current = some r)
    (hstart : ∀ r, e ≠ (.start, .run r)) (hclose : e ≠ (.close, .ok))
    (hlate : run.encoder = .closed ∨ s.current = some r ∨ ∀ k, Started tr k → r < k → Late (tr ++ [e])) :
    Inv (tr ++ [e]) (finish s1 r run') := by
  have hlt := (List.getElem?_eq_some_iff.1 hr).1
  obtain ⟨j1, j2⟩ := hs.finish (run := run) (run' := run') (by rw [hruns]; exact hr) he
    (by rw [hcur]; exact hdone)
  obtain ⟨f1, f2, f3, f4, f5⟩ := finish_get (s := s1) (run := run') (r := r) (by rw [hruns]; exact hlt)
  refine i.assemble _ j1 hstart hclose (by rw [f2, hruns]) (by rw [f5, hclosed]) (by rw [f4, hcur]) ?_ ?_
  · intro hn k rk q hk hw
    have hkr : k ≠ r := by
      intro h
      subst h
      rw [f1] at hk
      cases hk
      cases hw
    have hk' := hk
    rw [f3 k hkr, hruns] at hk'
    have hck := i.state.idle hk' hw
    rcases hlate with h | h | h
    · obtain ⟨g, hg⟩ := i.keeps (fun h => hn (late_mono tr _ h)) k rk q hk' hw
      refine ⟨g, ?_⟩
      unfold finish
      rw [if_pos (he.2 h)]
      exact hgroup.trans hg
    · rw [h] at hck
      exact absurd (Option.some.inj hck).symm hkr
    · obtain ⟨a, b⟩ := i.late_of hr hck hkr
      exact absurd (h k a b) hn
  · intro k rk t hk h1 h2 h3
    have hkr : k ≠ r := by
      intro h
      subst h
      rw [f1] at h1
      cases h1
      exact h3 rfl
    rw [f3 k hkr, hruns] at h1
    obtain ⟨t', h4, h5⟩ := j2 k t h2
    rw [htracks] at h4
    rw [h5]
    exact i.live k rk t' hk h1 h4 h3

theorem Inv.ended {tr : Trace} {s : State} (i : Inv tr s) (r : Nat) :
    Inv (tr ++ [(.ended r, (step s (.ended r)).1)]) (step s (.ended r)).2 := by
  rw [step, onRun]
  cases hr : s.runs[r]? with
  | none => exact i.invalid _
  | some run =>
    dsimp only
    by_cases hd : run.done = true
    · rw [if_pos hd]
      exact i.invalid _
    rw [if_neg hd]
    have hlt := (List.getElem?_eq_some_iff.1 hr).1
    obtain ⟨t, gs, ls, ht, x⟩ := i.state.both hr
    have hcur := x.run.going (by simpa using hd)
    obtain ⟨j1, j2, j3, j4, j5, run', k1, k2, k3, k4⟩ := i.state.exhaust hr
    refine i.assemble _ ?_ (fun _ => by simp) (by simp) j3 j5 j4 ?_ ?_
    · rw [chunks_same _ _ _ (fun _ _ h => by cases h), pictures_same _ _ _ (fun _ _ h => by cases h)]
      exact j1.same rfl rfl rfl rfl rfl (late_mono tr _)
    · intro hn k rk q hk hw
      have := j1.idle hk hw
      rw [j4, hcur] at this
      cases this
      dsimp only at hk
      rw [k1] at hk
      cases hk
      exact absurd hw (k3 _ _)
    · intro k rk t' hk h1 h2 h3
      rw [hcur] at hk
      cases hk
      dsimp only at h1 h2
      rw [k1] at h1
      cases h1
      obtain ⟨t2, h4, h5⟩ := j2 _ t' h2
      rw [h5]
      exact i.live _ run t2 hcur hr h4 (k4 h3)

/-- The state in which `encode` is called. -/
def given (s : State) (r : Nat) (pic : Nat) (ts : Int) : State := { s with
  encoderConfig := some r
  timestamp := if s.timestamp + GOP < ts then ts else s.timestamp
  latest := some pic
  shut := s.shut ++ s.latest.toList }

theorem config_eq (s : State) (r : Nat) (run : Run) (ok : Bool) (hr : s.runs[r]? = some run) (pic : Nat)
    (ts : Int) (hp : run.phase = .config pic ts) :
    config s r run ok =
      if ok then (.encoded pic (decide (s.timestamp + GOP < ts)),
        if run.done then finish (given s r pic ts) r
          { run with
            phase := .loop
            encoder := .working [⟨ts, decide (s.timestamp + GOP < ts)⟩] false }
        else put (given s r pic ts) r
          { run with
            phase := .loop
            encoder := .working [⟨ts, decide (s.timestamp + GOP < ts)⟩] false })
      else (.failed pic, finish s r run) := by
  have hlt := (List.getElem?_eq_some_iff.1 hr).1
  unfold config
  rw [hp]
  dsimp only
  cases ok with
  | false => rfl
  | true =>
    rw [if_pos rfl, if_pos rfl]
    simp only [encode, decide_eq_true_eq, List.nil_append]
    congr 1
    unfold next
    have hget : ∀ (w : State) (x : Run), w.runs = s.runs → (put w r x).runs[r]? = some x := by
      intro w x hw
      unfold put
      dsimp only
      rw [hw, List.getElem?_set_self hlt]
    rw [hget]
    · dsimp only
      cases hd : run.done with
      | false => rfl
      | true =>
        rw [if_pos rfl, if_pos rfl, finish_put (by simp)]
        rfl
    · rfl

theorem Inv.config {tr : Trace} {s : State} (i : Inv tr s) (r : Nat) (ok : Bool) :
    Inv (tr ++ [(.config r ok, (step s (.config r ok)).1)]) (step s (.config r ok)).2 := by
  rw [step, onRun]
  cases hr : s.runs[r]? with
  | none => exact i.invalid _
  | some run =>
    dsimp only
    obtain ⟨t, gs, ls, ht, x⟩ := i.state.both hr
    have hlt := (List.getElem?_eq_some_iff.1 hr).1
    have hinv : (∀ pic ts, run.phase ≠ .config pic ts) → Capture.config s r run ok = (.invalid, s) := by
      intro h
      unfold Capture.config
      split
      · next pic ts hp => exact absurd hp (h pic ts)
      · rfl
    cases hph : run.phase with
    | first =>
      rw [hinv (by simp [hph])]
      exact i.invalid _
    | loop =>
      rw [hinv (by simp [hph])]
      exact i.invalid _
    | over =>
      rw [hinv (by simp [hph])]
      exact i.invalid _
    | config pic ts =>
      have hp := x.run.phase
      have henc : run.encoder = .unconfigured := by
        cases he : run.encoder with
        | unconfigured => rfl
        | working q st => simp [he, hph] at hp
        | closed => simp [he, hph] at hp
      have hgs : gs = [] := by
        rw [henc] at hp
        exact hp.2.1
      have hn : own s.group r = none := by
        cases ho : own s.group r with
        | none => rfl
        | some g =>
          obtain ⟨q, hq⟩ := x.run.mine (by rw [ho]; simp)
          rw [henc] at hq
          cases hq
      rw [config_eq s r run ok hr pic ts hph]
      cases ok with
      | false =>
        rw [if_neg (by simp)]
        refine i.finished _ hr rfl rfl rfl rfl rfl ?_ Iff.rfl x.run.going (fun _ => by simp) (by simp) ?_
        · rw [chunks_same _ _ _ (fun _ _ h => by cases h), pictures_same _ _ _ (fun _ _ h => by cases h)]
          exact i.state.same rfl rfl rfl rfl rfl (late_mono tr _)
        · exact .inr (.inr fun k h1 h2 => (late_snoc _ _).2 (.inr ⟨_, _, _, k, rfl, by simp, h1, h2⟩))
      | true =>
        rw [if_pos rfl]
        by_cases hd : run.done = true
        · rw [if_pos hd]
          refine i.finished (s1 := given s r pic ts)
            (run' := ⟨.loop, .working [⟨ts, decide (s.timestamp + GOP < ts)⟩] false, run.done⟩)
            _ hr rfl rfl rfl rfl rfl ?_ (by simp [henc]) x.run.going ?_ ?_ ?_
          · rw [chunks_same _ _ _ (fun _ _ h => by cases h), pictures_same _ _ _ (fun _ _ h => by cases h)]
            exact i.state.same rfl rfl rfl rfl rfl (late_mono tr _)
          · simp
          · simp
          · exact .inr (.inr fun k h1 h2 => (late_snoc _ _).2 (.inr ⟨_, _, _, k, rfl, by simp, h1, h2⟩))
        · rw [if_neg hd]
          have hd' : run.done = false := by simpa using hd
          have hcur := x.run.going hd'
          have hset : ∀ x : Run, (put (given s r pic ts) r x).runs[r]? = some x :=
            fun x => List.getElem?_set_self hlt
          have hset' : ∀ (x : Run) (k : Nat), k ≠ r → (put (given s r pic ts) r x).runs[k]? = s.runs[k]? :=
            fun x k hk => List.getElem?_set_ne (Ne.symm hk)
          refine i.assemble _ ?_ (fun _ => by simp) (by simp) (List.length_set ..) rfl rfl ?_ ?_
          · rw [chunks_same _ _ _ (fun _ _ h => by cases h), pictures_same _ _ _ (fun _ _ h => by cases h)]
            refine i.state.setRun hr rfl rfl rfl rfl (fun _ _ => Iff.rfl) (i.state.current r)
              (late_mono tr _) (fun _ _ => rfl) (fun _ _ => rfl) ?_
            intro t' gs' ls' ht' x'
            have c := x'.run
            have hp' := c.phase
            rw [henc] at hp'
            refine ⟨c.len, c.flat, c.heads, c.tails, c.lost, fun h => c.whole fun h' => h (late_mono tr _ h'),
              fun h => absurd hn h, fun h => absurd hn h, ⟨rfl, hd', hcur, by simp [hp'.2.1]⟩,
              fun _ => hcur, ?_, c.small⟩
            obtain ⟨rest, h1, h2⟩ := c.order
            refine ⟨rest, ?_, fun _ => h2 (by rw [henc]; simp)⟩
            rw [h1]
            unfold pending
            rw [henc, hph]
            rfl
          · intro hl k rk q hk hw
            by_cases hkr : k = r
            · subst hkr
              dsimp only at hk
              rw [hset] at hk
              cases hk
              simp at hw
            · dsimp only at hk
              rw [hset' _ _ hkr] at hk
              have := i.state.idle hk hw
              rw [hcur] at this
              exact absurd (Option.some.inj this).symm hkr
          · intro k rk t' hk h1 h2 h3
            rw [hcur] at hk
            cases hk
            exact i.live _ run t' hcur hr h2 (by rw [henc]; simp)

theorem Inv.picture {tr : Trace} {s : State} (i : Inv tr s) (r : Nat) (ts : Int) :
    Inv (tr ++ [(.picture r ts, (step s (.picture r ts)).1)]) (step s (.picture r ts)).2 := by
  rw [step, onRun]
  cases hr : s.runs[r]? with
  | none => exact i.invalid _
  | some run =>
    dsimp only
    obtain ⟨t, gs, ls, ht, x⟩ := i.state.both hr
    have hlt := (List.getElem?_eq_some_iff.1 hr).1
    unfold Capture.picture
    by_cases hd : run.done = true ∨ Container.MAX_U53 < ts
    · rw [if_pos hd]
      exact i.invalid _
    rw [if_neg hd]
    have hd' : run.done = false := by
      cases h : run.done with
      | false => rfl
      | true => exact absurd (.inl h) hd
    have hts : ts ≤ Container.MAX_U53 := by
      by_cases h : Container.MAX_U53 < ts
      · exact absurd (.inr h) hd
      · omega
    have hcur := x.run.going hd'
    have hp := x.run.phase
    have hpic : ∀ o, o ≠ Out.invalid → pictures (tr ++ [(.picture r ts, o)]) r = pictures tr r ++ [ts] := by
      intro o ho
      rw [pictures_snoc]
      simp [ho]
    have hpic' : ∀ o k, k ≠ r → pictures (tr ++ [(.picture r ts, o)]) k = pictures tr k := by
      intro o k hk
      rw [pictures_snoc]
      simp [Ne.symm hk]
    have hsm : ∀ v ∈ pictures tr r ++ [ts], v ≤ Container.MAX_U53 := by
      intro v hv
      rcases List.mem_append.1 hv with h | h
      · exact x.run.small v h
      · rw [List.mem_singleton.1 h]
        exact hts
    -- a run that is set
    have hset : ∀ (w : State) (run' : Run) (o : Out), w.runs = s.runs → w.tracks = s.tracks →
        w.calls = s.calls → w.group = s.group → w.current = s.current → w.closed = s.closed →
        o ≠ .invalid →
        (∀ gs ls, RInv (chunks tr r) (pictures tr r) (Late tr) s r run t gs ls →
          CPart (chunks tr r) (pictures tr r ++ [ts]) (Late (tr ++ [(.picture r ts, o)])) (put w r run') r run'
            gs ls) →
        (∀ q, run'.encoder = .working q true → ∃ q, run.encoder = .working q true) →
        (run'.encoder ≠ .closed → run.encoder ≠ .closed) →
        Inv (tr ++ [(.picture r ts, o)]) (put w r run') := by
      intro w run' o w1 w2 w3 w4 w5 w6 ho hc hk hcl
      have hg : (put w r run').runs[r]? = some run' := by
        unfold put
        dsimp only
        rw [w1]
        exact List.getElem?_set_self hlt
      have hg' : ∀ k, k ≠ r → (put w r run').runs[k]? = s.runs[k]? := by
        intro k hk
        unfold put
        dsimp only
        rw [w1]
        exact List.getElem?_set_ne (Ne.symm hk)
      refine i.assemble _ ?_ (fun _ => by simp) (by simp) (by simp [put, w1]) w6 w5 ?_ ?_
      · rw [chunks_same _ _ _ (fun _ _ h => by cases h)]
        refine i.state.setRun (run' := run') hr (by unfold put; rw [w1]) w2 w3 w4 (fun _ _ => by
          unfold put; dsimp only; rw [w5]) (fun h => i.state.current r (by rw [← w5]; exact h))
          (late_mono tr _) (fun _ _ => rfl) (fun k hk => hpic' _ k hk) ?_
        intro t' gs' ls' ht' x'
        rw [hpic o ho]
        rw [ht] at ht'
        cases ht'
        exact hc gs' ls' x'
      · intro hn k rk q hk2 hw
        by_cases hkr : k = r
        · subst hkr
          rw [hg] at hk2
          cases hk2
          obtain ⟨q', hq'⟩ := hk q hw
          obtain ⟨g, h⟩ := i.keeps (fun h => hn (late_mono tr _ h)) k run q' hr hq'
          exact ⟨g, w4.trans h⟩
        · rw [hg' k hkr] at hk2
          obtain ⟨g, h⟩ := i.keeps (fun h => hn (late_mono tr _ h)) k rk q hk2 hw
          exact ⟨g, w4.trans h⟩
      · intro k rk t' hk2 h1 h2 h3
        rw [hcur] at hk2
        cases hk2
        rw [hg] at h1
        cases h1
        exact i.live _ run t' hcur hr (by rw [← w2]; exact h2) (hcl h3)
    cases hph : run.phase with
    | over => exact i.invalid _
    | config pic ts' => exact i.invalid _
    | first =>
      dsimp only
      have henc : run.encoder = .unconfigured := by
        cases he : run.encoder with
        | unconfigured => rfl
        | working q st => simp [he, hph] at hp
        | closed => simp [he, hph] at hp
      refine hset { s with active := true, captured := s.captured + 1 } { run with phase := .config s.captured ts }
        _ rfl rfl rfl rfl rfl rfl (by simp) ?_ (fun q h => ⟨q, h⟩) id
      intro gs ls x
      have c := x.run
      refine ⟨c.len, c.flat, c.heads, c.tails, c.lost, fun h => c.whole fun h' => h (late_mono tr _ h'),
        c.last, c.mine, ?_, c.going, ?_, hsm⟩
      · have hp := c.phase
        rw [henc] at hp
        dsimp only
        rw [henc]
        exact ⟨.inr ⟨_, _, rfl⟩, hp.2.1, fun h => by cases h⟩
      · obtain ⟨rest, h1, h2⟩ := c.order
        refine ⟨[], ?_, fun _ => rfl⟩
        rw [h1, h2 (by rw [henc]; simp)]
        unfold pending
        rw [henc, hph]
        simp
    | loop =>
      dsimp only
      unfold encode
      cases he : run.encoder with
      | unconfigured => simp [he, hph] at hp
      | working q st =>
        dsimp only
        refine hset _ _ _ rfl rfl rfl rfl rfl rfl (by simp) ?_ ?_ (by simp [he])
        · intro gs ls x
          have c := x.run
          refine ⟨c.len, c.flat, c.heads, c.tails, c.lost, fun h => c.whole fun h' => h (late_mono tr _ h'),
            c.last, ?_, ?_, c.going, ?_, hsm⟩
          · intro h
            obtain ⟨q', hq'⟩ := c.mine h
            rw [he] at hq'
            cases hq'
            exact ⟨_, rfl⟩
          · have hp := c.phase
            rw [he] at hp
            exact ⟨rfl, hp.2⟩
          · obtain ⟨rest, h1, h2⟩ := c.order
            refine ⟨[], ?_, fun _ => rfl⟩
            rw [h1, h2 (by rw [he]; simp)]
            unfold pending
            rw [he]
            simp
        · intro q' h
          cases h
          exact ⟨q, he⟩
      | closed =>
        dsimp only
        refine i.finished _ hr rfl rfl rfl rfl rfl ?_ (by simp) x.run.going (fun _ => by simp)
          (by simp) (.inl he)
        rw [chunks_same _ _ _ (fun _ _ h => by cases h)]
        refine i.state.setRun (run' := run) hr ?_ rfl rfl rfl (fun _ _ => Iff.rfl) (i.state.current r)
          (late_mono tr _) (fun _ _ => rfl) (fun k hk => hpic' _ k hk) ?_
        · obtain ⟨h1, h2⟩ := List.getElem?_eq_some_iff.1 hr
          dsimp only
          rw [← h2, List.set_getElem_self]
        · intro t' gs' ls' ht' x'
          have c := x'.run
          rw [hpic _ (by simp)]
          refine ⟨c.len, c.flat, c.heads, c.tails, c.lost, fun h => c.whole fun h' => h (late_mono tr _ h'),
            c.last, c.mine, c.phase, c.going, ?_, hsm⟩
          obtain ⟨rest, h1, h2⟩ := c.order
          exact ⟨rest ++ [ts], by rw [h1]; simp, fun h => absurd he h⟩

theorem Inv.output {tr : Trace} {s : State} (i : Inv tr s) (r : Nat) (c : Input) :
    Inv (tr ++ [(.output r c, (step s (.output r c)).1)]) (step s (.output r c)).2 := by
  rw [step, onRun]
  cases hr : s.runs[r]? with
  | none => exact i.invalid _
  | some run =>
    dsimp only
    unfold Capture.output
    split
    · next q qs st he =>
      split
      · next h =>
        have hlt := (List.getElem?_eq_some_iff.1 hr).1
        have hcur := i.state.idle hr he
        have e := i.emit hr he h.1 h.2 (if st = true then s.decoderConfig else some r)
        generalize Capture.emit _ r c = w at e ⊢
        obtain ⟨o, s'⟩ := w
        have ho : o ≠ .invalid := by
          rcases e.out with ⟨g, h, -⟩ | ⟨h, -⟩ <;> (dsimp only at h; rw [h]; simp)
        have hs := e.state (chunks (tr ++ [(.output r c, o)])) (by rw [chunks_snoc]; simp [ho])
          (fun k hk => by rw [chunks_snoc]; simp [Ne.symm hk])
        dsimp only at hs ⊢
        refine i.assemble _ ?_ (fun _ => by simp) (by simp) (by rw [e.runs, List.length_set]) e.closed
          e.current ?_ ?_
        · rw [pictures_same _ _ _ (fun _ _ h => by cases h)]
          exact hs.same rfl rfl rfl rfl rfl (late_mono tr _)
        · intro hn k rk q' hk hw
          have h1 := hs.idle hk hw
          rw [e.current, hcur] at h1
          cases h1
          rcases e.out with ⟨g, -, h⟩ | ⟨-, -, h, -⟩
          · exact ⟨g, h⟩
          · exact absurd (late_mono tr _ h) hn
        · intro k rk t hk h1 h2 h3
          rw [hcur] at hk
          cases hk
          obtain ⟨t', h4, h5⟩ := e.status _ t h2
          rw [h5]
          exact i.live _ run t' hcur hr h4 (by rw [he]; simp)
      · exact i.invalid _
    · exact i.invalid _

theorem Inv.error {tr : Trace} {s : State} (i : Inv tr s) (r : Nat) :
    Inv (tr ++ [(.error r, (step s (.error r)).1)]) (step s (.error r)).2 := by
  rw [step, onRun]
  cases hr : s.runs[r]? with
  | none => exact i.invalid _
  | some run =>
    dsimp only
    unfold Capture.error
    split
    · next q st he =>
      dsimp only
      have hlt := (List.getElem?_eq_some_iff.1 hr).1
      have hcur := i.state.idle hr he
      obtain ⟨t, gs, ls, htk, x⟩ := i.state.both hr
      have hnext := i.state.current r hcur
      have hown : ∀ k, k ≠ r → own s.group k = none := by
        intro k hk
        cases hg : own s.group k with
        | none => rfl
        | some g =>
          obtain ⟨_, _, _, _, h⟩ := i.state.owner (own_eq.1 hg)
          rw [hcur] at h
          exact absurd (Option.some.inj h).symm hk
      have hmid : ∃ a t1 s1, abortGroup (put s r { run with encoder := .closed }) = s1 ∧ Only s s1 r a t1 ∧
          TPart (trackTrace s r ++ a) t1 gs none ∧ s1.runs = s.runs.set r { run with encoder := .closed } ∧
          s1.current = s.current ∧ s1.closed = s.closed := by
        unfold Capture.abortGroup
        have hgp : (put s r { run with encoder := .closed }).group = s.group := rfl
        rw [hgp]
        cases hg : s.group with
        | none =>
          refine ⟨[], t, _, rfl, ⟨rfl, htk, fun _ _ => rfl, by rw [List.append_nil]; rfl, fun _ _ => rfl⟩, ?_,
            rfl, rfl, rfl⟩
          have := x.track
          rw [hg] at this
          rw [List.append_nil]
          exact this
        | some p =>
          obtain ⟨k, g⟩ := p
          have hkr : k = r := by
            obtain ⟨_, _, _, _, h⟩ := i.state.owner hg
            rw [hcur] at h
            exact (Option.some.inj h).symm
          subst hkr
          have htk' : (put s k { run with encoder := .closed }).tracks[k]? = some t := htk
          have ho := act_only htk' (.abortGroup g)
          have ha := act_eq htk' (.abortGroup g)
          have p := x.track
          rw [hg, own_self] at p
          exact ⟨_, _, _, rfl, ⟨ho.len, ho.this, ho.other, ho.trace, ho.traces⟩, p.abortGroup.1,
            by dsimp only; rw [ha]; rfl, by dsimp only; rw [ha]; rfl, by dsimp only; rw [ha]; rfl⟩
      obtain ⟨a, t1, s1, h1, ho1, p1, f1, f2, f3⟩ := hmid
      rw [h1]
      have ht1 : ({ s1 with group := none } : State).tracks[r]? = some t1 := ho1.this
      have ho2 := act_only ht1 .abort
      have ha := act_eq ht1 .abort
      have ho : Only s _ r _ _ := (⟨ho1.1, ho1.2, ho1.3, ho1.4, ho1.5⟩ :
        Only s { s1 with group := none } r a t1).trans ho2
      have p2 := p1.abort
      generalize act { s1 with group := none } r .abort = s2 at ha ho ⊢
      have g1 : s2.runs = s.runs.set r { run with encoder := .closed } := by
        rw [ha]
        exact f1
      have g2 : s2.current = s.current := by
        rw [ha]
        exact f2
      have g3 : s2.closed = s.closed := by
        rw [ha]
        exact f3
      have g4 : s2.group = none := by
        rw [ha]
      have hset : s2.runs[r]? = some { run with encoder := .closed } := by
        rw [g1, List.getElem?_set_self hlt]
      refine i.assemble _ ?_ (fun _ => by simp) (by simp) (by rw [g1, List.length_set]) g3 g2 ?_ ?_
      · rw [chunks_same _ _ _ (fun _ _ h => by cases h), pictures_same _ _ _ (fun _ _ h => by cases h)]
        refine i.state.update r (gs := gs) (ls := ls) (by rw [g1, List.length_set]) hlt
          (fun k hk => by rw [g1, List.getElem?_set_ne (Ne.symm hk)]) hset ho.len ho.other ho.this ho.traces
          (fun k hk => by rw [g4, hown k hk]; rfl) (fun k _ => by rw [g2]) (fun _ => hnext) (late_mono tr _)
          (fun _ _ => rfl) (fun _ _ => rfl) ⟨?_, ?_⟩
        · rw [g4, ho.trace, ← List.append_assoc]
          exact p2
        · have c := x.run
          have hn : own s2.group r = none := by rw [g4]; rfl
          have hp := c.phase
          rw [he] at hp
          refine ⟨c.len, c.flat, c.heads, c.tails, c.lost, fun h => c.whole fun h' => h (late_mono tr _ h'),
            fun h => absurd hn h, fun h => absurd hn h, .inr hp.1, by rw [g2]; exact c.going, ?_, c.small⟩
          obtain ⟨rest, h1, h2⟩ := c.order
          exact ⟨pending run ++ rest, by rw [h1]; simp [pending], fun h => absurd rfl h⟩
      · intro hn k rk q' hk hw
        by_cases hkr : k = r
        · subst hkr
          rw [hset] at hk
          cases hk
          cases hw
        · rw [g1, List.getElem?_set_ne (Ne.symm hkr)] at hk
          have := i.state.idle hk hw
          rw [hcur] at this
          exact absurd (Option.some.inj this).symm hkr
      · intro k rk t' hk h1 h2 h3
        rw [hcur] at hk
        cases hk
        rw [hset] at h1
        cases h1
        exact absurd rfl h3
    · exact i.invalid _

theorem Inv.track {tr : Trace} {s : State} (i : Inv tr s) (r : Nat) (op : Track.Op) :
    Inv (tr ++ [(.track r op, (step s (.track r op)).1)]) (step s (.track r op)).2 := by
  rw [step]
  cases ht : s.tracks[r]? with
  | none => exact i.invalid _
  | some t =>
    dsimp only
    by_cases hop : Receive.reads op = true
    · rw [if_pos hop]
      have hlt := (List.getElem?_eq_some_iff.1 ht).1
      obtain ⟨run, hr⟩ : ∃ run, s.runs[r]? = some run :=
        ⟨_, List.getElem?_eq_getElem (by rw [← i.state.len]; exact hlt)⟩
      have ho := act_only ht op
      have ha := act_eq ht op
      have hst : SameStatus s (act s r op) := act_status ht (Receive.reads_keeps hop t).2.1
      have g1 : (act s r op).runs = s.runs := by rw [ha]
      have g2 : (act s r op).current = s.current := by rw [ha]
      have g3 : (act s r op).group = s.group := by rw [ha]
      refine i.assemble _ ?_ (fun _ => by simp) (by simp) (by rw [g1]) (by rw [ha]) g2 ?_ ?_
      · rw [chunks_same _ _ _ (fun _ _ h => by cases h), pictures_same _ _ _ (fun _ _ h => by cases h)]
        have j : SInv (chunks tr) (pictures tr) (Late tr) (act s r op) := by
          refine i.state.onTrack hr ht ho g1 g2 (fun k _ => by rw [g3]) (by rw [g3]; exact id) ?_
          intro gs p
          rw [ho.trace, g3]
          exact (p.reads op hop).1
        exact j.same rfl rfl rfl rfl rfl (late_mono tr _)
      · intro hn
        rw [g1, g3]
        exact i.keeps fun h => hn (late_mono tr _ h)
      · intro k rk t' hk h1 h2 h3
        rw [g1] at h1
        obtain ⟨t2, h4, h5⟩ := hst k t' h2
        rw [h5]
        exact i.live k rk t2 hk h1 h4 h3
    · rw [if_neg hop]
      exact i.invalid _

theorem step_inv {tr : Trace} {s : State} (i : Inv tr s) (op : Op) :
    Inv (tr ++ [(op, (step s op).1)]) (step s op).2 := by
  cases op with
  | start => exact i.start
  | stop => exact i.stop
  | close => exact i.close
  | picture r ts => exact i.picture r ts
  | ended r => exact i.ended r
  | config r ok => exact i.config r ok
  | output r c => exact i.output r c
  | error r => exact i.error r
  | track r op => exact i.track r op

theorem inv_reach {tr : Trace} {s : State} (h : machine.Reach tr s) : Inv tr s := by
  refine Machine.Reach.induct (M := machine) (P := fun tr s => Inv tr s) ?_ ?_ h
  · refine ⟨⟨rfl, ?_, ?_, ?_, ?_⟩, ?_, ?_, ?_, ?_, ?_⟩
    · intro r run t h
      simp [init] at h
    · intro k g h
      cases h
    · intro r h
      cases h
    · intro r _
      exact ⟨rfl, rfl, rfl⟩
    · intro r
      simp [Started, init]
    · simp [Closed, init]
    · intro h
      cases h
    · intro _ r run q h
      simp [init] at h
    · intro r run t h
      cases h
  · intro tr s op _ i
    exact step_inv i op

end Verif.Js.Capture
