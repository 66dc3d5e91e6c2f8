import Verif.Hang.MediaLemmas
import Verif.Props.Coding

/-!
# Properties C58 to C61 and C70: media tracks
-/

set_option autoImplicit false

namespace Verif.Props.Media

open Verif Verif.Coding Verif.Hang.Media Verif.Hang.Media.Spec
open Verif.Session (Error)
open Verif.Model (Track.Op Track.Out Track.State Track.Grp Track.step)
open Verif.Model.Track.Spec (ConsumerAlive closing)

/-! ## C58: frames -/

theorem encode_content {f : Input} (hf : Writable f) :
    ∃ b, encode f = .ok b ∧ content b = some (f.nanos / 1000, f.payload) := by
  have hm : f.micros = f.nanos / 1000 := by
    unfold Input.micros Writable at *
    exact Nat.mod_eq_of_lt (by omega)
  obtain ⟨bs, h1, h2⟩ := Verif.Props.Coding.c01_varint_roundtrip f.micros (hm ▸ hf)
  refine ⟨bs ++ f.payload, ?_, ?_⟩
  · simp [encode, h1]
  · simp [content, h2, hm]

/-- What one frame is written as (nothing if it cannot be written). -/
def enc (f : Input) : Bytes :=
  match encode f with
  | .ok b => b
  | .error _ => []

theorem encode_enc {f : Input} (hf : Writable f) : encode f = .ok (enc f) := by
  obtain ⟨b, h, _⟩ := encode_content hf
  simp [enc, h]

theorem content_enc {f : Input} (hf : Writable f) : content (enc f) = some (f.nanos / 1000, f.payload) := by
  obtain ⟨b, h, h2⟩ := encode_content hf
  simp [enc, h, h2]

theorem media_enc {g : List Input} (hg : ∀ f ∈ g, Writable f) : media (g.map enc) = readBack g := by
  have : (g.map enc).filterMap content = g.map fun f => (f.nanos / 1000, f.payload) := by
    induction g with
    | nil => rfl
    | cons f g ih =>
      simp only [List.map_cons, List.filterMap_cons, content_enc (hg f (by simp))]
      rw [ih (fun x hx => hg x (by simp [hx]))]
  unfold media readBack
  rw [this]
  apply List.ext_getElem?
  intro i
  simp only [List.getElem?_mapIdx, List.getElem?_map, Option.map_map]
  rfl

/-- The groups made for the grouping `gs`, the first of them with number `n`; the last is open. -/
def Made (n : Nat) (gs : List (List Input)) (w : Writer) : Prop :=
  (gs = [] ∧ w.groups = [] ∧ w.isOpen = false ∧ w.next = n) ∨
  ∃ gs0 g, gs = gs0 ++ [g] ∧ w.isOpen = true ∧ w.next = n + gs.length ∧
    w.groups = (gs0.mapIdx fun i g => ⟨n + i, g.map enc, true⟩) ++ [⟨n + gs0.length, g.map enc, false⟩]

theorem finishLast_snoc (l : List Written) (x : Written) :
    finishLast (l ++ [x]) = l ++ [{ x with finished := true }] := by
  induction l with
  | nil => rfl
  | cons a l ih =>
    cases l with
    | nil => rfl
    | cons b l => simp only [List.cons_append, finishLast] at ih ⊢; rw [ih]

theorem addLast_snoc (b : Bytes) (l : List Written) (x : Written) :
    addLast b (l ++ [x]) = l ++ [{ x with frames := x.frames ++ [b] }] := by
  induction l with
  | nil => rfl
  | cons a l ih =>
    cases l with
    | nil => rfl
    | cons c l => simp only [List.cons_append, addLast] at ih ⊢; rw [ih]

theorem tail_snoc {α : Type} {l : List α} (h : l ≠ []) (x : α) : (l ++ [x]).tail = l.tail ++ [x] := by
  cases l with
  | nil => exact absurd rfl h
  | cons a l => rfl

theorem write_made {n : Nat} {fs : List Input} {gs : List (List Input)} {w : Writer} {f : Input}
    (hG : Grouping fs gs) (hM : Made n gs w) (hf : Writable f) (hn : n + gs.length < 2 ^ 64) :
    ∃ gs' w', write w f = .ok w' ∧ Grouping (fs ++ [f]) gs' ∧ Made n gs' w' ∧
      gs'.length ≤ gs.length + 1 := by
  have hfresh : (gs ≠ [] → f.keyframe = true) → Grouping (fs ++ [f]) (gs ++ [[f]]) := by
    intro hk
    refine ⟨?_, ?_, ?_, ?_⟩
    · rw [List.flatten_append, hG.all]; rfl
    · intro g hg
      rcases List.mem_append.1 hg with hg | hg
      · exact hG.nonempty g hg
      · rw [List.mem_singleton.1 hg]; exact List.cons_ne_nil _ _
    · intro g hg
      rcases List.mem_append.1 hg with hg | hg
      · exact hG.tail g hg
      · rw [List.mem_singleton.1 hg]; intro x hx; cases hx
    · intro g hg x hx
      by_cases hgs : gs = []
      · subst hgs; cases hg
      · rw [tail_snoc hgs] at hg
        rcases List.mem_append.1 hg with hg | hg
        · exact hG.head g hg x hx
        · rw [List.mem_singleton.1 hg] at hx
          injection hx with hx
          rw [← hx]; exact hk hgs
  rcases hM with ⟨rfl, h1, h2, h3⟩ | ⟨gs0, g, rfl, h1, h2, h3⟩
  · refine ⟨[[f]], ⟨n + 1, [⟨n, [enc f], false⟩], true⟩, ?_, hfresh (fun h => absurd rfl h), ?_, by simp⟩
    · have : ¬ 2 ^ 64 ≤ n := by simp at hn; omega
      simp only [write, encode_enc hf, h1, h2, h3, Bool.and_false, Bool.false_eq_true, if_false, this]
      rfl
    · exact .inr ⟨[], [f], rfl, rfl, rfl, rfl⟩
  · by_cases hk : f.keyframe = true
    · refine ⟨gs0 ++ [g] ++ [[f]], ⟨n + (gs0.length + 1) + 1,
        (gs0 ++ [g]).mapIdx (fun i g => ⟨n + i, g.map enc, true⟩) ++ [⟨n + (gs0.length + 1), [enc f], false⟩],
        true⟩, ?_, hfresh (fun _ => hk), ?_, by simp⟩
      · have : ¬ 2 ^ 64 ≤ n + (gs0.length + 1) := by simp at hn; omega
        simp only [List.length_append, List.length_singleton] at h2
        simp only [write, encode_enc hf, h1, hk, h2, h3, finishLast_snoc, Bool.and_self, if_true,
          Bool.false_eq_true, if_false, this, List.mapIdx_append]
        simp
      · refine .inr ⟨gs0 ++ [g], [f], rfl, rfl, ?_, ?_⟩
        · simp only [List.length_append, List.length_singleton]; omega
        · simp only [List.length_append, List.length_singleton]; rfl
    · have hk : f.keyframe = false := by simpa using hk
      refine ⟨gs0 ++ [g ++ [f]], ⟨w.next, gs0.mapIdx (fun i g => ⟨n + i, g.map enc, true⟩) ++
        [⟨n + gs0.length, (g ++ [f]).map enc, false⟩], true⟩, ?_, ?_, ?_, by simp⟩
      · simp only [write, encode_enc hf, h1, hk, h3, addLast_snoc, Bool.false_and, if_false,
          Bool.false_eq_true, if_true]
        simp
      · refine ⟨?_, ?_, ?_, ?_⟩
        · rw [← hG.all]; simp
        · intro x hx
          rcases List.mem_append.1 hx with hx | hx
          · exact hG.nonempty x (List.mem_append_left _ hx)
          · rw [List.mem_singleton.1 hx]; simp
        · intro x hx
          rcases List.mem_append.1 hx with hx | hx
          · exact hG.tail x (List.mem_append_left _ hx)
          · rw [List.mem_singleton.1 hx]
            have hne := hG.nonempty g (by simp)
            rw [tail_snoc hne]
            intro y hy
            rcases List.mem_append.1 hy with hy | hy
            · exact hG.tail g (by simp) y hy
            · rw [List.mem_singleton.1 hy]; exact hk
        · intro x hx y hy
          cases gs0 with
          | nil => cases hx
          | cons a l =>
            simp only [List.cons_append, List.tail_cons] at hx
            rcases List.mem_append.1 hx with hx | hx
            · exact hG.head x (by simp [hx]) y hy
            · rw [List.mem_singleton.1 hx] at hy
              have hne := hG.nonempty g (by simp)
              refine hG.head g (by simp) y ?_
              cases g with
              | nil => exact absurd rfl hne
              | cons b g => simpa using hy
      · refine .inr ⟨gs0, g ++ [f], rfl, rfl, ?_, rfl⟩
        simp only [List.length_append, List.length_singleton] at h2 ⊢; omega

theorem writeAll_made {n : Nat} (fs : List Input) : ∀ {fs0 : List Input} {gs : List (List Input)}
    {w : Writer}, Grouping fs0 gs → Made n gs w → (∀ f ∈ fs, Writable f) →
    n + gs.length + fs.length ≤ 2 ^ 64 →
    ∃ gs' w', writeAll w fs = .ok w' ∧ Grouping (fs0 ++ fs) gs' ∧ Made n gs' w' := by
  induction fs with
  | nil => intro fs0 gs w hG hM _ _; exact ⟨gs, w, rfl, by simpa using hG, hM⟩
  | cons f fs ih =>
    intro fs0 gs w hG hM hf hn
    simp only [List.length_cons] at hn
    obtain ⟨gs1, w1, h1, h2, h3, h4⟩ := write_made hG hM (hf f (by simp)) (by omega)
    obtain ⟨gs2, w2, k1, k2, k3⟩ := ih h2 h3 (fun x hx => hf x (by simp [hx])) (by omega)
    refine ⟨gs2, w2, ?_, by simpa using k2, k3⟩
    simp only [writeAll, h1]; exact k1

/-- A grouping is unique: the frames determine it. -/
theorem grouping_unique {fs : List Input} {gs hs : List (List Input)} (hg : Grouping fs gs)
    (hh : Grouping fs hs) : gs = hs := by
  have key : ∀ {fs : List Input} {gs hs : List (List Input)} {g h : List Input},
      Grouping fs (g :: gs) → Grouping fs (h :: hs) → g.length ≤ h.length := by
    intro fs gs hs g h hg hh
    refine Classical.byContradiction fun hlt => ?_
    have hlt : h.length < g.length := by omega
    have e1 : g ++ gs.flatten = fs := by simpa using hg.all
    have e2 : h ++ hs.flatten = fs := by simpa using hh.all
    have hget1 : fs[h.length]? = g[h.length]? := by rw [← e1, List.getElem?_append_left hlt]
    have hget2 : fs[h.length]? = hs.flatten[0]? := by
      rw [← e2, List.getElem?_append_right (Nat.le_refl _)]; simp
    have hne : h ≠ [] := hh.nonempty h (by simp)
    have hpos : 0 < h.length := List.length_pos_iff.2 hne
    have hsome : g[h.length]? = some g[h.length] := List.getElem?_eq_getElem hlt
    have hkf : (g[h.length]).keyframe = false := by
      refine hg.tail g (by simp) _ ?_
      cases g with
      | nil => simp at hlt
      | cons a g =>
        obtain ⟨m, hm⟩ : ∃ m, h.length = m + 1 := ⟨h.length - 1, by omega⟩
        rw [List.tail_cons, List.mem_iff_getElem]
        exact ⟨m, by simp at hlt; omega, by simp [hm]⟩
    have hkt : (g[h.length]).keyframe = true := by
      cases hs with
      | nil =>
        rw [hsome] at hget1; rw [hget1] at hget2
        simp at hget2
      | cons k hs =>
        have hkne : k ≠ [] := hh.nonempty k (by simp)
        refine hh.head k (by simp) _ ?_
        rw [← hsome, ← hget1, hget2]
        cases k with
        | nil => exact absurd rfl hkne
        | cons a k => simp
    rw [hkf] at hkt; cases hkt
  induction gs generalizing fs hs with
  | nil =>
    cases hs with
    | nil => rfl
    | cons h hs =>
      have e1 := hg.all
      have e2 := hh.all
      have := hh.nonempty h (by simp)
      rw [← e1] at e2
      simp at e2
      exact absurd e2.1 this
  | cons g gs ih =>
    cases hs with
    | nil =>
      have e1 := hg.all
      have e2 := hh.all
      have := hg.nonempty g (by simp)
      rw [← e2] at e1
      simp at e1
      exact absurd e1.1 this
    | cons h hs =>
      have hlen : g.length = h.length := Nat.le_antisymm (key hg hh) (key hh hg)
      have e1 : g ++ gs.flatten = fs := by simpa using hg.all
      have e2 : h ++ hs.flatten = fs := by simpa using hh.all
      have e := e1.trans e2.symm
      obtain ⟨e3, e4⟩ := List.append_inj e hlen
      subst e3
      have sub : ∀ {l : List (List Input)}, Grouping fs (g :: l) → Grouping l.flatten l := by
        intro l hl
        refine ⟨rfl, fun x hx => hl.nonempty x (by simp [hx]), fun x hx => hl.tail x (by simp [hx]), ?_⟩
        intro x hx
        exact hl.head x (by simpa using List.mem_of_mem_tail hx)
      have hh' := sub hh
      rw [← e4] at hh'
      rw [ih (sub hg) hh']

/-- C59: a sequence of frames is written as the groups of its grouping: numbered consecutively, all
but the last finished; and (C58) what a reader finds in them is the frames written, with the keyframe
flag exactly on the first of each group. -/
theorem c59_groups {n : Nat} {fs : List Input} (hf : ∀ f ∈ fs, Writable f)
    (hn : n + fs.length ≤ 2 ^ 64) :
    ∃ gs w, Grouping fs gs ∧ writeAll ⟨n, [], false⟩ fs = .ok w ∧ w.groups.length = gs.length ∧
      ∀ i g, gs[i]? = some g → ∃ x, w.groups[i]? = some x ∧ x.seq = n + i ∧
        x.finished = decide (i + 1 < gs.length) ∧ media x.frames = readBack g ∧
        x.frames.length = g.length := by
  have hG0 : Grouping [] [] := ⟨rfl, by simp, by simp, by simp⟩
  obtain ⟨gs, w, h1, h2, h3⟩ := writeAll_made (n := n) (w := ⟨n, [], false⟩) fs hG0
    (.inl ⟨rfl, rfl, rfl, rfl⟩) hf (by simpa using hn)
  rw [List.nil_append] at h2
  have hw : ∀ g ∈ gs, media (g.map enc) = readBack g := by
    intro g hg
    refine media_enc fun f hfg => hf f ?_
    rw [← h2.all]
    exact List.mem_flatten.2 ⟨g, hg, hfg⟩
  refine ⟨gs, w, h2, h1, ?_, ?_⟩
  · rcases h3 with ⟨rfl, k1, k2, k3⟩ | ⟨gs0, g, rfl, k1, k2, k3⟩
    · rw [k1]; rfl
    · rw [k3]; simp
  · intro i g hg
    have hmem := List.mem_of_getElem? hg
    rcases h3 with ⟨rfl, k1, k2, k3⟩ | ⟨gs0, g', rfl, k1, k2, k3⟩
    · cases hg
    · rw [k3]
      by_cases hi : i < gs0.length
      · rw [List.getElem?_append_left hi] at hg
        refine ⟨⟨n + i, g.map enc, true⟩, ?_, rfl, ?_, hw g hmem, by simp⟩
        · rw [List.getElem?_append_left (by simpa using hi)]
          simp [hg]
        · simp; omega
      · have hi2 : i = gs0.length := by
          have := (List.getElem?_eq_some_iff.1 hg).1
          simp at this; omega
        subst hi2
        rw [List.getElem?_append_right (Nat.le_refl _)] at hg
        simp at hg
        subst hg
        refine ⟨⟨n + gs0.length, g'.map enc, false⟩, ?_, rfl, ?_, hw g' hmem, by simp⟩
        · simp
        · simp

/-- C58: a frame whose timestamp fits is read back as written. -/
theorem c58_roundtrip_partial {f : Input} (hf : Writable f) :
    ∃ b, encode f = .ok b ∧ media [b] = [⟨f.nanos / 1000, true, f.payload⟩] := by
  obtain ⟨b, h1, h2⟩ := encode_content hf
  exact ⟨b, h1, by simp [media, h2]⟩

/-- C58, the missing part: a frame with a later timestamp panics, or, from `2 ^ 64` microseconds
on, may be written with another timestamp. -/
theorem c58_late (f : Input) :
    (encode f = .error .tooLarge ↔ 2 ^ 62 ≤ f.nanos / 1000 % 2 ^ 64) := by
  have := Verif.Props.Coding.c03_varint_encode_panics f.micros
  show _ ↔ 2 ^ 62 ≤ f.micros
  rw [this]
  unfold encode
  cases h : wire (encodeU64 f.micros) with
  | error p => simp
  | ok b => simp

theorem c58_truncated : ∃ (f : Input) (b : Bytes), encode f = .ok b ∧
    media [b] = [⟨0, true, f.payload⟩] ∧ f.nanos / 1000 = 2 ^ 64 :=
  ⟨⟨2 ^ 64 * 1000, true, [7]⟩, [0, 7], by decide +kernel, by decide +kernel, by decide +kernel⟩

/-- Frames with two keyframes in the middle, after a frame that is none. -/
example : (writeAll ⟨5, [], false⟩ [⟨0, false, [1]⟩, ⟨1000, true, [2]⟩, ⟨2999, false, [3]⟩,
      ⟨3000, true, []⟩]).toOption.map (·.groups) =
    some [⟨5, [[0, 1]], true⟩, ⟨6, [[1, 2], [2, 3]], true⟩, ⟨7, [[3]], false⟩] := by decide +kernel

example : Grouping [⟨0, false, [1]⟩, ⟨1000, true, [2]⟩, ⟨2999, false, [3]⟩, ⟨3000, true, []⟩]
    [[⟨0, false, [1]⟩], [⟨1000, true, [2]⟩, ⟨2999, false, [3]⟩], [⟨3000, true, []⟩]] :=
  ⟨rfl, by decide +kernel, by decide +kernel, by
    intro g hg f hf
    simp only [List.tail_cons, List.mem_cons, List.not_mem_nil, or_false] at hg
    rcases hg with rfl | rfl <;> simp at hf <;> subst hf <;> rfl⟩

/-! ## C60: reading -/

variable {tr0 : Model.Track.Spec.Trace} {c : Nat} {t0 : Track.State} {tr : Trace} {s : State}

/-- The frames returned from a group are its first media frames: in order, complete and without
duplicates. -/
theorem c60_prefix (h0 : Model.Track.machine.Reach tr0 t0) (hc : ConsumerAlive tr0 c)
    (h : (machine t0 c).Reach tr s) (g : Track.Grp) :
    returnedOf tr g <+: media (framesOf tr g.gid) := by
  have hI := inv_reach h0 hc h
  rw [← hI.frames]
  exact hI.live.pre g

/-- The groups of the frames returned are in the order of their numbers. -/
theorem c60_order (h0 : Model.Track.machine.Reach tr0 t0) (hc : ConsumerAlive tr0 c)
    (h : (machine t0 c).Reach tr s) : (returned tr).Pairwise fun a b => a.1.seq ≤ b.1.seq :=
  (inv_reach h0 hc h).live.order

/-- They are groups that the track gave to the reader, whose numbers increase. -/
theorem c60_received (h0 : Model.Track.machine.Reach tr0 t0) (hc : ConsumerAlive tr0 c)
    (h : (machine t0 c).Reach tr s) :
    (∀ x ∈ returned tr, x.1 ∈ received tr) ∧ (received tr).Pairwise (fun a b => a.seq < b.seq) ∧
      Model.Track.Spec.received (tr0 ++ trackTrace c tr) c =
        Model.Track.Spec.received tr0 c ++ received tr := by
  have hI := inv_reach h0 hc h
  exact ⟨hI.live.known, hI.live.inc, hI.recv⟩

/-- No group is ignored as too old: the reader is never given one that is. -/
theorem c60_never_ignored (h0 : Model.Track.machine.Reach tr0 t0) (hc : ConsumerAlive tr0 c)
    (h : (machine t0 c).Reach tr s) (op : Op) (g : Track.Grp) : (op, Out.ignored g) ∉ tr :=
  (inv_reach h0 hc h).ignored op g

/-- The reader leaves a group as ended only if it was finished and all its frames were returned. -/
theorem c60_ended (h0 : Model.Track.machine.Reach tr0 t0) (hc : ConsumerAlive tr0 c)
    (h : (machine t0 c).Reach tr s) {g : Track.Grp} (hg : g ∈ ended tr) :
    Closed tr g.gid (.ok ()) ∧ returnedOf tr g = media (framesOf tr g.gid) := by
  have hI := inv_reach h0 hc h
  obtain ⟨h1, h2⟩ := hI.live.ended g hg
  rw [hI.frames] at h2
  exact ⟨(hI.closed _ _).1 h1, h2⟩

theorem head_current (hI : Inv tr0 c tr s) {g : Track.Grp} (hg : (remaining tr).head? = some g) :
    ∃ r, s.current = some r ∧ r.grp = g := by
  unfold remaining at hg
  rw [← hI.live.live] at hg
  cases hcur : s.current with
  | none =>
    rw [hcur, hI.live.none hcur] at hg
    cases hg
  | some r =>
    rw [hcur] at hg
    simp at hg
    exact ⟨r, rfl, hg⟩

/-- The oldest group that was neither skipped nor left as ended is the one being read: if it has a
media frame that was not returned, the next poll returns that frame or fails at a malformed frame
before it. -/
theorem c60_available (h0 : Model.Track.machine.Reach tr0 t0) (hc : ConsumerAlive tr0 c)
    (h : (machine t0 c).Reach tr s) {g : Track.Grp} (hg : (remaining tr).head? = some g) {f : Frame}
    (hf : returnedOf tr g ++ [f] <+: media (framesOf tr g.gid)) (hs : s.stuck = false)
    (hl : lastMicros tr * 1000 + latencyOf tr < durationBound) (order : List Nat) :
    (step c s (.poll order)).1 = .frame g f ∨
      ∃ e, (step c s (.poll order)).1 = .err (.decode e) ∧ ∃ b ∈ framesOf tr g.gid, content b = none := by
  have hI := inv_reach h0 hc h
  obtain ⟨r, hr, rfl⟩ := head_current hI hg
  have hgood := (hI.live.good r (by rw [hr]; simp)).readFrame
  simp only [step, hs, Bool.false_eq_true, if_false]
  rw [if_neg (by rw [hI.max, hI.latency]; omega)]
  unfold first
  rw [hr]
  simp only []
  have hret : ∀ g, retOf (returned tr) g = returnedOf tr g := fun g => rfl
  rw [hret] at hgood
  have hcomplete : returnedOf tr r.grp ≠ media (s.content r.grp.gid).frames := by
    intro he
    rw [hI.frames] at he
    rw [← he] at hf
    have := hf.length_le
    simp at this
  revert hgood
  generalize readFrame (s.content r.grp.gid) r = x
  intro hgood
  cases hgood with
  | frame good grp =>
    rename_i f' r'
    left
    simp only []
    rw [grp]
    have hp : returnedOf tr r.grp ++ [f'] <+: media (framesOf tr r.grp.gid) := by
      have h1 : returnedOf tr r.grp ++ [f'] <+: media ((s.content r.grp.gid).frames.take r'.pos) := by
        rw [← good.frames]; exact List.prefix_append _ _
      rw [← hI.frames]
      exact h1.trans (media_take _ _)
    have e := List.prefix_of_prefix_length_le hp hf (by simp)
    have e := e.eq_of_length (by simp)
    have := List.append_cancel_left e
    injection this with this
    rw [this]
  | bad good grp empty b hb hn =>
    right
    rw [hI.frames] at hb
    exact ⟨_, rfl, b, List.mem_of_getElem? hb, hn⟩
  | failed _ all => exact absurd all hcomplete
  | ended _ all => exact absurd all hcomplete
  | pending _ all => exact absurd all hcomplete

theorem third_skips {b : Bool} {order : List Nat} {gs : List Track.Grp} {dst : Track.Grp}
    (ho : (third s b order).1 = .skipped gs dst) :
    ∃ i l r, pollPending s.content (s.max * 1000 + s.latency) order s.pending = some (some i, l) ∧
      l[i]? = some r ∧ dst = r.grp ∧ gs = (s.current.toList ++ l.take i).map (·.grp) := by
  unfold third at ho
  split at ho
  · cases ho
  · rename_i i l hp
    split at ho
    · rename_i r hr
      injection ho with h1 h2
      exact ⟨i, l, r, hp, hr, h2.symm, h1.symm⟩
    · cases ho
  · split at ho <;> cases ho

theorem poll_skips {order : List Nat} {gs : List Track.Grp} {dst : Track.Grp}
    (ho : (step c s (.poll order)).1 = .skipped gs dst) :
    ∃ i l r, pollPending s.content (s.max * 1000 + s.latency) order s.pending = some (some i, l) ∧
      l[i]? = some r ∧ dst = r.grp ∧ gs = (s.current.toList ++ l.take i).map (·.grp) := by
  have hsecond : (second c s order).1 = .skipped gs dst →
      ∃ i l r, pollPending s.content (s.max * 1000 + s.latency) order s.pending = some (some i, l) ∧
      l[i]? = some r ∧ dst = r.grp ∧ gs = (s.current.toList ++ l.take i).map (·.grp) := by
    intro ho
    unfold second at ho
    split at ho
    · simp only [] at ho
      split at ho
      · split at ho <;> cases ho
      · cases ho
    · cases ho
    · rename_i t heq; exact third_skips (s := { s with track := t }) ho
    · rename_i t heq; exact third_skips (s := { s with track := t }) ho
    · cases ho
  simp only [step] at ho
  split at ho
  · cases ho
  · split at ho
    · cases ho
    · unfold first at ho
      split at ho
      · exact hsecond ho
      · split at ho
        · cases ho
        · cases ho
        · cases ho
        · exact hsecond ho

/-- When the reader skips groups, they are the ones older than the group it moves on to, and that
group holds a frame that is later than the last one returned by at least the latency. -/
theorem c60_skip (h0 : Model.Track.machine.Reach tr0 t0) (hc : ConsumerAlive tr0 c)
    (h : (machine t0 c).Reach tr s) {order : List Nat} {gs : List Track.Grp} {dst : Track.Grp}
    (ho : (step c s (.poll order)).1 = .skipped gs dst) :
    dst ∈ remaining tr ∧ (∀ g, g ∈ gs ↔ g ∈ remaining tr ∧ g.seq < dst.seq) ∧
      ∃ f ∈ media (framesOf tr dst.gid), lastMicros tr * 1000 + latencyOf tr ≤ f.micros * 1000 := by
  have hI := inv_reach h0 hc h
  obtain ⟨i, l, r, hp, hr, rfl, rfl⟩ := poll_skips ho
  obtain ⟨h1, h2, h3⟩ := pollPending_good (live_pending hI) hp
  have hrem : remaining tr = (s.current.toList ++ l).map (·.grp) := by
    unfold remaining
    rw [← hI.live.live, List.map_append, List.map_append, h1]
  have hinc : (remaining tr).Pairwise fun a b => a.seq < b.seq := by
    unfold remaining; exact hI.live.inc.filter _
  obtain ⟨hi, hri⟩ := List.getElem?_eq_some_iff.1 hr
  have hsplit : s.current.toList ++ l = (s.current.toList ++ l.take i) ++ (r :: l.drop (i + 1)) := by
    rw [List.append_assoc]; congr 1
    rw [← hri, ← List.drop_eq_getElem_cons hi, List.take_append_drop]
  rw [hsplit, List.map_append] at hrem
  refine ⟨?_, ?_, ?_⟩
  · rw [hrem]; simp
  · rw [hrem, List.pairwise_append] at hinc
    intro g
    constructor
    · intro hg
      refine ⟨by rw [hrem]; exact List.mem_append_left _ hg, ?_⟩
      exact hinc.2.2 g hg r.grp (by simp)
    · rintro ⟨hg, hlt⟩
      rw [hrem] at hg
      rcases List.mem_append.1 hg with hg | hg
      · exact hg
      · rw [List.map_cons, List.mem_cons] at hg
        rcases hg with rfl | hg
        · omega
        · have := hinc.2.1
          rw [List.map_cons, List.pairwise_cons] at this
          have := this.1 g hg
          omega
  · obtain ⟨q, hq, hreach⟩ := h3 i rfl
    rw [hr] at hq
    injection hq with hq
    subst hq
    have hgood := h2 r (List.mem_of_getElem? hr)
    unfold RGroup.reached at hreach
    cases hm : r.max with
    | none => rw [hm] at hreach; cases hreach
    | some m =>
      rw [hm] at hreach
      simp only [decide_eq_true_eq] at hreach
      obtain ⟨f, hf1, hf2⟩ := hgood.max m hm
      refine ⟨f, ?_, ?_⟩
      · rw [← hI.frames]
        exact (media_take _ _).subset hf1
      · rw [hf2, ← hI.max, ← hI.latency]; exact hreach

/-- The end is reported only when the track was finished, and no group is left to read. -/
theorem c60_finished (h0 : Model.Track.machine.Reach tr0 t0) (hc : ConsumerAlive tr0 c)
    (h : (machine t0 c).Reach tr s) (hs : s.stuck = false)
    (hl : lastMicros tr * 1000 + latencyOf tr < durationBound) (order : List Nat) :
    (step c s (.poll order)).1 = .finished ↔
      closing (tr0 ++ trackTrace c tr) = some (.ok ()) ∧ remaining tr = [] := by
  have hI := inv_reach h0 hc h
  have hT := Model.Track.inv_reach hI.reach
  obtain ⟨v, hv⟩ := (hT.alive_iff c).1 hI.alive
  have hrem : remaining tr = [] ↔ s.current = none := by
    unfold remaining
    rw [← hI.live.live, List.map_eq_nil_iff]
    constructor
    · intro h; cases hcur : s.current with
      | none => rfl
      | some r => rw [hcur] at h; simp at h
    · intro h; rw [h, hI.live.none h]; rfl
  rw [hT.agrees.closed, hrem]
  simp only [step, hs, Bool.false_eq_true, if_false]
  rw [if_neg (by rw [hI.max, hI.latency]; omega)]
  unfold first
  cases hcur : s.current with
  | some r =>
    simp only [reduceCtorEq, and_false, iff_false]
    have hthird : ∀ (s' : State) (b : Bool), s'.current = some r → (third s' b order).1 ≠ .finished := by
      intro s' b hs' hx
      unfold third at hx
      split at hx
      · cases hx
      · split at hx <;> cases hx
      · rw [hs'] at hx; simp at hx
    have hsecond : (second c s order).1 ≠ .finished := by
      intro hx
      unfold second at hx
      split at hx
      · simp only [] at hx
        split at hx
        · split at hx <;> cases hx
        · cases hx
      · cases hx
      · rename_i t heq; exact hthird { s with track := t } _ hcur hx
      · rename_i t heq; exact hthird { s with track := t } _ hcur hx
      · cases hx
    split
    · simp
    · simp
    · simp
    · exact hsecond
  | none =>
    have hp := hI.live.none hcur
    have hpp : ∀ (content : Nat → Content) (cutoff : Nat) (order : List Nat),
        pollPending content cutoff order [] = some (none, []) := by
      intro content cutoff order
      induction order with
      | nil => rfl
      | cons k order ih => simp [pollPending, ih]
    simp only [and_true]
    unfold second
    simp only [Model.Track.step, hv]
    cases hcl : s.track.closed with
    | some r =>
      simp only [Option.isSome_some, Bool.or_true, if_true]
      cases r with
      | ok u => simp [third, hp, hpp, hcur]
      | error e => simp
    | none =>
      simp only [Option.isSome_none, Bool.or_false]
      by_cases hnw : Model.Track.newer (Option.map (fun x => x.seq) s.track.latest) v = true
      · rw [if_pos hnw]
        cases hl : s.track.latest with
        | none => rw [hl] at hnw; simp [Model.Track.newer] at hnw
        | some g => simp [hcur]
      · rw [if_neg hnw]
        by_cases hz : s.track.senders = 0
        · rw [if_pos hz]; simp
        · rw [if_neg hz]; simp [third, hp, hpp]

/-- C58 with C60: what is returned of a group is what was written, with the flag on the first. -/
theorem c58_read_partial (h0 : Model.Track.machine.Reach tr0 t0) (hc : ConsumerAlive tr0 c)
    (h : (machine t0 c).Reach tr s) {g : Track.Grp} {fs : List Input} (hf : ∀ f ∈ fs, Writable f)
    {bs : List Bytes} (hb : fs.map encode = bs.map .ok) (hw : framesOf tr g.gid <+: bs) :
    returnedOf tr g <+: readBack fs := by
  have : bs = fs.map enc := by
    have : bs.map (Except.ok (ε := Panic)) = (fs.map enc).map .ok := by
      rw [← hb, List.map_map]
      apply List.map_congr_left
      intro f hfm
      exact encode_enc (hf f hfm)
    have inj : ∀ {l m : List Bytes}, l.map (Except.ok (ε := Panic)) = m.map .ok → l = m := by
      intro l
      induction l with
      | nil => intro m hm; cases m with
        | nil => rfl
        | cons => cases hm
      | cons a l ih => intro m hm; cases m with
        | nil => cases hm
        | cons b m =>
          rw [List.map_cons, List.map_cons] at hm
          injection hm with h1 h2
          injection h1 with h1
          rw [h1, ih h2]
    exact inj this
  subst this
  rw [← media_enc hf]
  exact (c60_prefix h0 hc h g).trans (media_prefix hw)

/-! ## C61: buffering -/

variable {ct : Content} {cutoff : Nat} {r : RGroup}

theorem rounds_spin (hr : r.reached cutoff = false) (hb : r.buffered ≠ []) (n : Nat) :
    ∃ r', rounds ct cutoff n r = .again r' := by
  induction n generalizing r with
  | zero => exact ⟨r, rfl⟩
  | succ n ih =>
    cases hbuf : r.buffered with
    | nil => exact absurd hbuf hb
    | cons f rest =>
      have : round ct cutoff r = .again { r with buffered := rest ++ [f] } := by
        simp [round, hr, readFrame, hbuf]
      simp only [rounds, this]
      exact ih (r := { r with buffered := rest ++ [f] }) hr (by simp)

/-- The loop of `buffer_frames_until` stops as `pollBuffer` says. -/
theorem c61_poll : match pollBuffer ct cutoff r with
    | some (true, r') => ∃ n, rounds ct cutoff n r = .ready r'
    | some (false, r') => ∃ n, rounds ct cutoff n r = .wait r'
    | none => ∀ n, ∃ r', rounds ct cutoff n r = .again r' := by
  unfold pollBuffer
  by_cases hr : r.reached cutoff = true
  · simp only [hr, if_true]
    exact ⟨1, by simp [rounds, round, hr]⟩
  · have hr' : r.reached cutoff = false := by simpa using hr
    rw [if_neg hr]
    by_cases hb : r.buffered ≠ []
    · rw [if_pos hb]
      exact rounds_spin hr' hb
    · rw [if_neg hb]
      have hb : r.buffered = [] := Classical.not_not.1 hb
      have hread : readFrame ct r = readUnbuffered ct r := by unfold readFrame; rw [hb]
      have hnil : ∀ p r', readUnbuffered ct r = (p, r') → r'.buffered = [] := by
        intro p r' hx
        unfold readUnbuffered at hx
        split at hx
        · split at hx <;> (injection hx with _ hx; subst hx; exact hb)
        · split at hx <;> (injection hx with _ hx; subst hx; exact hb)
      cases hx : readUnbuffered ct r with
      | mk p r' =>
        have hn := hnil p r' hx
        cases p with
        | frame f =>
          simp only []
          have hround : round ct cutoff r = .again { r' with buffered := [f] } := by
            simp [round, hr', hread, hx, hn]
          by_cases hr2 : r'.reached cutoff = true
          · rw [if_pos hr2]
            refine ⟨2, ?_⟩
            have hr3 : ({ r' with buffered := [f] } : RGroup).reached cutoff = true := hr2
            simp [rounds, hround]
            simp [round, hr3]
          · rw [if_neg hr2]
            have hr2 : r'.reached cutoff = false := by simpa using hr2
            intro n
            cases n with
            | zero => exact ⟨r, rfl⟩
            | succ n =>
              simp only [rounds, hround]
              exact rounds_spin (r := { r' with buffered := [f] }) hr2 (by simp) n
        | ended => exact ⟨1, by simp [rounds, round, hr', hread, hx]⟩
        | err e => exact ⟨1, by simp [rounds, round, hr', hread, hx]⟩
        | pending => exact ⟨1, by simp [rounds, round, hr', hread, hx]⟩

/-- C61 where it holds: the loop stops if the cutoff is reached already, or if nothing is buffered
and the next frame is missing or malformed or reaches the cutoff; in all other cases it never stops. -/
theorem c61_stops_partial : (∃ n, ∀ r', rounds ct cutoff n r ≠ .again r') ↔
    r.reached cutoff = true ∨ r.buffered = [] ∧
      ∀ b x, ct.frames[r.pos]? = some b → content b = some x → cutoff ≤ max (r.max.getD 0) x.1 * 1000 := by
  have key : (∃ n, ∀ r', rounds ct cutoff n r ≠ .again r') ↔ pollBuffer ct cutoff r ≠ none := by
    have := c61_poll (ct := ct) (cutoff := cutoff) (r := r)
    revert this
    cases pollBuffer ct cutoff r with
    | none =>
      intro h
      simp only [ne_eq, not_true, iff_false]
      rintro ⟨n, hn⟩
      obtain ⟨r', hr'⟩ := h n
      exact hn r' hr'
    | some x =>
      obtain ⟨b, r'⟩ := x
      intro h
      simp only [ne_eq, reduceCtorEq, not_false_iff, iff_true]
      cases b with
      | true => obtain ⟨n, hn⟩ := h; exact ⟨n, fun r'' => by rw [hn]; simp⟩
      | false => obtain ⟨n, hn⟩ := h; exact ⟨n, fun r'' => by rw [hn]; simp⟩
  rw [key]
  unfold pollBuffer
  by_cases hr : r.reached cutoff = true
  · simp [hr]
  · rw [if_neg hr]
    by_cases hb : r.buffered ≠ []
    · rw [if_pos hb]; simp [hr, hb]
    · rw [if_neg hb]
      have hb : r.buffered = [] := Classical.not_not.1 hb
      simp only [hr, hb, Bool.false_eq_true, false_or, true_and]
      unfold readUnbuffered
      cases hp : ct.frames[r.pos]? with
      | none =>
        cases ct.closed with
        | none => simp
        | some y => cases y <;> simp
      | some b =>
        simp only []
        cases hd : decodeU64 b with
        | error e =>
          have hcn : content b = none := by simp [content, hd]
          simp only [ne_eq, reduceCtorEq, not_false_iff, true_iff]
          rintro b' x ⟨⟩ hx
          rw [hcn] at hx; cases hx
        | ok x =>
          obtain ⟨m, p⟩ := x
          have hcn : content b = some (m, p) := by simp [content, hd]
          simp only [RGroup.reached, decide_eq_true_eq]
          constructor
          · rintro hx b' x ⟨⟩ hy
            rw [hcn] at hy; cases hy
            by_contra hlt
            rw [if_neg hlt] at hx
            exact hx rfl
          · intro hx
            rw [if_pos (hx b (m, p) rfl hcn)]
            simp

/-- C61 fails: with one frame below the cutoff the loop never stops. -/
theorem c61_spins : ∀ n, ∃ r', rounds ⟨[[10, 1]], none⟩ 100000 n (RGroup.new ⟨1, 1⟩) = .again r' := by
  have h := c61_poll (ct := ⟨[[10, 1]], none⟩) (cutoff := 100000) (r := RGroup.new ⟨1, 1⟩)
  have e : pollBuffer ⟨[[10, 1]], none⟩ 100000 (RGroup.new ⟨1, 1⟩) = none := by
    have h : (pollBuffer ⟨[[10, 1]], none⟩ 100000 (RGroup.new ⟨1, 1⟩)).isNone = true := by decide +kernel
    exact Option.isNone_iff_eq_none.1 h
  rw [e] at h
  exact h

/-- A track with a consumer. -/
def start : List (Track.Op × Track.Out) × Track.State := Model.Track.machine.run [.consume 0]

/-- The hypotheses of the theorems can be met. -/
example : Model.Track.machine.Reach start.1 start.2 ∧ ConsumerAlive start.1 0 :=
  ⟨Model.Track.machine.reach_run _, .inl ⟨0, List.mem_singleton.2 rfl⟩, by
    show (Track.Op.dropConsumer 0, Track.Out.ok) ∉ [(Track.Op.consume 0, Track.Out.handle 0)]
    simp⟩

/-- Groups 4 and 6: the first is read and ends, the second is read; a malformed frame is an error. -/
example : ((machine start.2 0).run [.track (.insert 0 ⟨4, 0⟩), .poll [], .frame 0 [5, 1], .poll [],
    .track (.insert 0 ⟨6, 1⟩), .poll [], .frame 0 [7, 2], .close 0 (.ok ()), .frame 1 [0xff],
    .frame 1 [9, 3], .poll [0], .poll [0], .poll [], .poll [], .close 1 (.ok ()), .poll [],
    .track (.finish 0), .poll []]).1.map (·.2) =
    [.track (.inserted true), .received ⟨4, 0⟩, .ok, .frame ⟨4, 0⟩ ⟨5, true, [1]⟩,
      .track (.inserted true), .received ⟨6, 1⟩, .ok, .ok, .ok, .ok, .frame ⟨4, 0⟩ ⟨7, false, [2]⟩,
      .ended ⟨4, 0⟩, .err (.decode .short), .frame ⟨6, 1⟩ ⟨9, true, [3]⟩, .ok, .ended ⟨6, 1⟩,
      .track .ok, .finished] := by decide +kernel

/-- Two groups are skipped because a later one is far ahead. -/
example : ((machine start.2 0).run [.setLatency 3000, .track (.insert 0 ⟨4, 0⟩), .poll [],
    .track (.insert 0 ⟨6, 1⟩), .poll [], .track (.insert 0 ⟨7, 2⟩), .poll [], .frame 0 [5, 1],
    .poll [0, 1], .poll [0, 1], .frame 2 [8, 2], .poll [0, 1], .poll []]).1.map (·.2) =
    [.ok, .track (.inserted true), .received ⟨4, 0⟩, .track (.inserted true), .received ⟨6, 1⟩,
      .track (.inserted true), .received ⟨7, 2⟩, .ok, .frame ⟨4, 0⟩ ⟨5, true, [1]⟩, .pending, .ok,
      .skipped [⟨4, 0⟩, ⟨6, 1⟩] ⟨7, 2⟩, .frame ⟨7, 2⟩ ⟨8, true, [2]⟩] := by decide +kernel

/-- C61 in a reader: with a latency of 100 ms, the next group starts 10 µs later while the current
one is still open, and `read` never returns, whatever happens. -/
theorem c61_reader_hangs : ∃ ops : List Op,
    ((machine start.2 0).run ops).1.map (·.2) = [.ok, .track (.inserted true), .received ⟨0, 0⟩, .ok,
      .frame ⟨0, 0⟩ ⟨0, true, [1]⟩, .track (.inserted true), .received ⟨1, 1⟩, .ok, .hangs] ∧
    ∀ more order, ((machine start.2 0).step ((machine start.2 0).runFrom
      ((machine start.2 0).run ops).2 more).2 (.poll order)).1 = .hangs := by
  refine ⟨[.setLatency 100000000, .track (.insert 0 ⟨0, 0⟩), .poll [], .frame 0 [0, 1], .poll [],
    .track (.insert 0 ⟨1, 1⟩), .poll [], .frame 1 [10, 1], .poll [0]], by decide +kernel, ?_⟩
  have hst : ∀ (more : List Op) (s : State), s.stuck = true →
      ((machine start.2 0).runFrom s more).2.stuck = true := by
    intro more
    induction more with
    | nil => intro s hs; exact hs
    | cons op more ih =>
      intro s hs
      refine ih _ ?_
      show (step 0 s op).2.stuck = true
      cases op <;> simp only [step]
      · split <;> exact hs
      · split <;> exact hs
      · split <;> exact hs
      · rw [hs]; exact hs
      · rw [if_pos hs]; exact hs
  intro more order
  have := hst more ((machine start.2 0).run [.setLatency 100000000, .track (.insert 0 ⟨0, 0⟩), .poll [],
    .frame 0 [0, 1], .poll [], .track (.insert 0 ⟨1, 1⟩), .poll [], .frame 1 [10, 1], .poll [0]]).2
    (by decide +kernel)
  show (step 0 _ (.poll order)).1 = _
  simp only [step]
  rw [if_pos this]

/-! ## C70: a failed group blocks the reader -/

/-- The group being read has failed and nothing is left of it. -/
def Failed (s : State) : Prop :=
  ∃ r e, s.current = some r ∧ readFrame (s.content r.grp.gid) r = (.err (.moq e), r) ∧
    (s.content r.grp.gid).closed.isSome = true

theorem failed_step (hf : Failed s) (op : Op) :
    Failed (step c s op).2 ∧ ∀ g f, (step c s op).1 ≠ .frame g f := by
  obtain ⟨r, e, h1, h2, h3⟩ := hf
  cases op with
  | track op =>
    simp only [step]
    split
    · exact ⟨⟨r, e, h1, h2, h3⟩, by simp⟩
    · exact ⟨⟨r, e, h1, h2, h3⟩, by simp⟩
  | frame gid b =>
    simp only [step]
    split
    · exact ⟨⟨r, e, h1, h2, h3⟩, by simp⟩
    · rename_i hn
      have hne : r.grp.gid ≠ gid := by rintro rfl; exact hn h3
      refine ⟨⟨r, e, h1, ?_, ?_⟩, by simp⟩
      · simp only [if_neg hne]; exact h2
      · simp only [if_neg hne]; exact h3
  | close gid x =>
    simp only [step]
    split
    · exact ⟨⟨r, e, h1, h2, h3⟩, by simp⟩
    · rename_i hn
      have hne : r.grp.gid ≠ gid := by rintro rfl; exact hn h3
      refine ⟨⟨r, e, h1, ?_, ?_⟩, by simp⟩
      · simp only [if_neg hne]; exact h2
      · simp only [if_neg hne]; exact h3
  | setLatency n =>
    simp only [step]
    split <;> exact ⟨⟨r, e, h1, h2, h3⟩, by simp⟩
  | poll order =>
    simp only [step]
    split
    · exact ⟨⟨r, e, h1, h2, h3⟩, by simp⟩
    · split
      · exact ⟨⟨r, e, h1, h2, h3⟩, by simp⟩
      · simp only [first, h1, h2]
        exact ⟨⟨r, e, rfl, h2, h3⟩, by simp⟩

theorem failed_run (hf : Failed s) (ops : List Op) :
    returned ((machine t0 c).runFrom s ops).1 = [] := by
  induction ops generalizing s with
  | nil => rfl
  | cons op ops ih =>
    obtain ⟨h1, h2⟩ := failed_step (c := c) hf op
    have := ih h1
    show returned ((op, (step c s op).1) :: ((machine t0 c).runFrom (step c s op).2 ops).1) = []
    unfold returned at this ⊢
    rw [List.filterMap_cons]
    split
    · exact this
    · rename_i x hx
      exfalso
      generalize (step c s op).1 = o at hx h2
      cases o <;> simp at hx
      exact h2 _ _ rfl

/-- C70 fails: once the group being read has failed and its frames have been returned, the reader
returns no frame any more, whatever happens: it does not move on to later groups. -/
theorem c70_blocked (h0 : Model.Track.machine.Reach tr0 t0) (hc : ConsumerAlive tr0 c)
    (h : (machine t0 c).Reach tr s) {g : Track.Grp} (hg : (remaining tr).head? = some g) {e : Error}
    (hcl : Closed tr g.gid (.error e)) (hall : returnedOf tr g = media (framesOf tr g.gid))
    (hw : ∀ b ∈ framesOf tr g.gid, content b ≠ none) (ops : List Op) :
    returned (tr ++ ((machine t0 c).runFrom s ops).1) = returned tr := by
  have hI := inv_reach h0 hc h
  obtain ⟨r, hr, rfl⟩ := head_current hI hg
  have hgood := (hI.live.good r (by rw [hr]; simp)).readFrame
  have hret : ∀ g, retOf (returned tr) g = returnedOf tr g := fun g => rfl
  rw [hret] at hgood
  have hcl' := (hI.closed _ _).2 hcl
  have hF : Failed s := by
    refine ⟨r, e, hr, ?_, by rw [hcl']; rfl⟩
    revert hgood
    generalize readFrame (s.content r.grp.gid) r = x
    intro hgood
    cases hgood with
    | frame good grp =>
      rename_i f' r'
      have h1 : (returnedOf tr r.grp ++ [f']).length ≤ (media ((s.content r.grp.gid).frames)).length := by
        refine (List.IsPrefix.trans ?_ (media_take _ r'.pos)).length_le
        rw [← good.frames]; exact List.prefix_append _ _
      rw [hI.frames, hall] at h1
      simp at h1
    | bad good grp empty b hb hn =>
      rw [hI.frames] at hb
      exact absurd hn (hw b (List.mem_of_getElem? hb))
    | failed c1 _ => rw [hcl'] at c1; injection c1 with c1; injection c1 with c1; rw [c1]
    | ended c1 _ => rw [hcl'] at c1; cases c1
    | pending c1 _ => rw [hcl'] at c1; cases c1
  have := failed_run (t0 := t0) (c := c) hF ops
  unfold returned at this ⊢
  rw [List.filterMap_append, this, List.append_nil]

/-- C70 where it holds: a group that was finished and whose frames have been returned is left at the
next poll, for the next group if there is one. -/
theorem c70_moves_on_partial (h0 : Model.Track.machine.Reach tr0 t0) (hc : ConsumerAlive tr0 c)
    (h : (machine t0 c).Reach tr s) {g : Track.Grp} (hg : (remaining tr).head? = some g)
    (hcl : Closed tr g.gid (.ok ())) (hall : returnedOf tr g = media (framesOf tr g.gid))
    (hw : ∀ b ∈ framesOf tr g.gid, content b ≠ none) (hs : s.stuck = false)
    (hl : lastMicros tr * 1000 + latencyOf tr < durationBound) (order : List Nat) :
    (step c s (.poll order)).1 = .ended g ∧
      remaining (tr ++ [(.poll order, .ended g)]) = (remaining tr).tail := by
  have hI := inv_reach h0 hc h
  have hR := Machine.Reach.step (M := machine t0 c) (.poll order) h
  obtain ⟨r, hr, rfl⟩ := head_current hI hg
  have hgood := (hI.live.good r (by rw [hr]; simp)).readFrame
  have hret : ∀ g, retOf (returned tr) g = returnedOf tr g := fun g => rfl
  rw [hret] at hgood
  have hcl' := (hI.closed _ _).2 hcl
  have hread : readFrame (s.content r.grp.gid) r = (.ended, r) := by
    revert hgood
    generalize readFrame (s.content r.grp.gid) r = x
    intro hgood
    cases hgood with
    | frame good grp =>
      rename_i f' r'
      have h1 : (returnedOf tr r.grp ++ [f']).length ≤ (media ((s.content r.grp.gid).frames)).length := by
        refine (List.IsPrefix.trans ?_ (media_take _ r'.pos)).length_le
        rw [← good.frames]; exact List.prefix_append _ _
      rw [hI.frames, hall] at h1
      simp at h1
    | bad good grp empty b hb hn =>
      rw [hI.frames] at hb
      exact absurd hn (hw b (List.mem_of_getElem? hb))
    | failed c1 _ => rw [hcl'] at c1; cases c1
    | ended c1 _ => rfl
    | pending c1 _ => rw [hcl'] at c1; cases c1
  have hstep : step c s (.poll order) =
      (.ended r.grp, { s with current := s.pending.head?, pending := s.pending.tail }) := by
    simp only [step, hs, Bool.false_eq_true, if_false]
    rw [if_neg (by rw [hI.max, hI.latency]; omega)]
    simp only [first, hr, hread, hs]
  refine ⟨by rw [hstep], ?_⟩
  have hR' : (machine t0 c).Reach (tr ++ [(.poll order, (step c s (.poll order)).1)])
      (step c s (.poll order)).2 := hR
  rw [hstep] at hR'
  have hI' := inv_reach h0 hc hR'
  have e1 := hI.live.live
  have e2 := hI'.live.live
  rw [hr] at e1
  unfold remaining
  rw [← e1, ← e2]
  cases s.pending <;> simp

/-- A group is aborted while the next one is complete: every read is an error. -/
theorem c70_witness : ((machine start.2 0).run [.track (.insert 0 ⟨0, 0⟩), .poll [], .frame 0 [0, 1],
    .poll [], .track (.insert 0 ⟨1, 1⟩), .poll [], .frame 1 [10, 1], .close 1 (.ok ()),
    .close 0 (.error .cancel), .poll [0], .poll [0], .poll [0]]).1.map (·.2) =
    [.track (.inserted true), .received ⟨0, 0⟩, .ok, .frame ⟨0, 0⟩ ⟨0, true, [1]⟩,
      .track (.inserted true), .received ⟨1, 1⟩, .ok, .ok, .ok, .err (.moq .cancel),
      .err (.moq .cancel), .err (.moq .cancel)] := by decide +kernel

end Verif.Props.Media
