import Verif.Hang.MediaSpec
import Verif.Session.ServeLoopLemmas

/-!
# Lemmas about media tracks
-/

set_option autoImplicit false

namespace Verif.Hang.Media

open Verif Verif.Coding Verif.Hang.Media.Spec
open Verif.Session (Error)
open Verif.Session.ServeLoop (foreign alive_foreign received_foreign next_cases)
open Verif.Model (Track.Op Track.Out Track.State Track.Grp Track.step)
open Verif.Model.Track.Spec (ConsumerAlive)

/-! ## Media frames of a group -/

theorem media_snoc (bs : List Bytes) (b : Bytes) :
    media (bs ++ [b]) = match content b with
      | some x => media bs ++ [⟨x.1, (media bs).length == 0, x.2⟩]
      | none => media bs := by
  unfold media
  rw [List.filterMap_append]
  cases h : content b with
  | none => simp [h]
  | some x => simp [h, List.mapIdx_append]

theorem media_prefix {as bs : List Bytes} (h : as <+: bs) : media as <+: media bs := by
  obtain ⟨cs, rfl⟩ := h
  unfold media
  rw [List.filterMap_append, List.mapIdx_append]
  exact List.prefix_append _ _

theorem media_take (bs : List Bytes) (n : Nat) : media (bs.take n) <+: media bs :=
  media_prefix (List.take_prefix n bs)

/-- The reader of a group with frames `bs` has returned the frames `out`. -/
structure Good (bs : List Bytes) (out : List Frame) (r : RGroup) : Prop where
  frames : out ++ r.buffered = media (bs.take r.pos)
  index : r.index = (media (bs.take r.pos)).length
  pos : r.pos ≤ bs.length
  max : ∀ m, r.max = some m → ∃ f ∈ media (bs.take r.pos), f.micros = m

theorem Good.new (bs : List Bytes) (g : Track.Grp) : Good bs [] (RGroup.new g) :=
  ⟨by simp [RGroup.new, media], by simp [RGroup.new, media], Nat.zero_le _, fun m h => by cases h⟩

theorem Good.grow {bs out r} (h : Good bs out r) (cs : List Bytes) : Good (bs ++ cs) out r := by
  have e : (bs ++ cs).take r.pos = bs.take r.pos := List.take_append_of_le_length h.pos
  refine ⟨?_, ?_, ?_, ?_⟩
  · rw [e]; exact h.frames
  · rw [e]; exact h.index
  · rw [List.length_append]; exact Nat.le_add_right_of_le h.pos
  · rw [e]; exact h.max

/-- What `read_frame_unbuffered` does. -/
inductive Read (bs : List Bytes) (closed : Option (Except Error Unit)) (out : List Frame) (r : RGroup) :
    Poll × RGroup → Prop where
  | frame {f : Frame} {r' : RGroup} (good : Good bs (out ++ [f]) r') (grp : r'.grp = r.grp) :
      Read bs closed out r (.frame f, r')
  | bad {e : DecodeError} {r' : RGroup} (good : Good bs out r') (grp : r'.grp = r.grp)
      (empty : r.buffered = []) (b : Bytes) (at_pos : bs[r.pos]? = some b) (none : content b = none) :
      Read bs closed out r (.err (.decode e), r')
  | failed {e : Error} (c : closed = some (.error e)) (all : out = media bs) : Read bs closed out r (.err (.moq e), r)
  | ended (c : closed = some (.ok ())) (all : out = media bs) : Read bs closed out r (.ended, r)
  | pending (c : closed = none) (all : out = media bs) : Read bs closed out r (.pending, r)

theorem Good.readUnbuffered {c : Content} {out r} (h : Good c.frames out r) (hb : r.buffered = []) :
    Read c.frames c.closed out r (readUnbuffered c r) ∧
      ∀ f r', readUnbuffered c r = (.frame f, r') → r'.buffered = [] := by
  unfold Media.readUnbuffered
  cases hp : c.frames[r.pos]? with
  | some b =>
    have ht : c.frames.take (r.pos + 1) = c.frames.take r.pos ++ [b] := by
      rw [List.take_add_one, hp]; rfl
    have hl : r.pos + 1 ≤ c.frames.length := (List.getElem?_eq_some_iff.1 hp).1
    have hm := media_snoc (c.frames.take r.pos) b
    rw [← ht] at hm
    have hf := h.frames
    rw [hb, List.append_nil] at hf
    cases hd : decodeU64 b with
    | error e =>
      have hn : content b = none := by simp [content, hd]
      rw [hn] at hm
      simp only []
      rw [hd]
      simp only []
      refine ⟨.bad ⟨?_, ?_, hl, ?_⟩ rfl hb b hp hn, by rintro f r' ⟨⟩⟩
      · show out ++ r.buffered = _
        rw [hm]; exact h.frames
      · show r.index = _
        rw [hm]; exact h.index
      · intro m hmax
        show ∃ f ∈ media (c.frames.take (r.pos + 1)), _
        rw [hm]; exact h.max m hmax
    | ok x =>
      obtain ⟨micros, payload⟩ := x
      have hn : content b = some (micros, payload) := by simp [content, hd]
      rw [hn] at hm
      simp only [] at hm
      simp only []
      rw [hd]
      simp only []
      refine ⟨.frame ⟨?_, ?_, hl, ?_⟩ rfl, ?_⟩
      · show out ++ [_] ++ r.buffered = media (c.frames.take (r.pos + 1))
        rw [hm, hb, List.append_nil, hf, h.index]
      · show r.index + 1 = (media (c.frames.take (r.pos + 1))).length
        rw [hm, List.length_append, h.index]; rfl
      · intro m hmax
        show ∃ f ∈ media (c.frames.take (r.pos + 1)), _
        rw [hm]
        have hmax : Max.max (r.max.getD 0) micros = m := by injection hmax
        by_cases hle : r.max.getD 0 ≤ micros
        · exact ⟨_, List.mem_append_right _ (List.mem_singleton.2 rfl), by rw [← hmax]; show micros = _; omega⟩
        · cases hr : r.max with
          | none => rw [hr] at hle; simp at hle
          | some k =>
            rw [hr] at hle hmax
            simp only [Option.getD_some] at hle hmax
            obtain ⟨f, hf1, hf2⟩ := h.max k hr
            exact ⟨f, List.mem_append_left _ hf1, by omega⟩
      · rintro f r' ⟨⟩; exact hb
  | none =>
    have hl := List.getElem?_eq_none_iff.1 hp
    have hall : out = media c.frames := by
      have hf := h.frames
      rw [hb, List.append_nil, List.take_of_length_le hl] at hf
      exact hf
    cases hc : c.closed with
    | none => exact ⟨.pending rfl hall, by rintro f r' ⟨⟩⟩
    | some x =>
      cases x with
      | ok u => exact ⟨.ended rfl hall, by rintro f r' ⟨⟩⟩
      | error e => exact ⟨.failed rfl hall, by rintro f r' ⟨⟩⟩

theorem Good.readFrame {c : Content} {out r} (h : Good c.frames out r) :
    Read c.frames c.closed out r (readFrame c r) := by
  unfold Media.readFrame
  cases hb : r.buffered with
  | nil => exact (h.readUnbuffered hb).1
  | cons f rest =>
    refine .frame ⟨?_, h.index, h.pos, h.max⟩ rfl
    have := h.frames
    rw [hb] at this
    show out ++ [f] ++ rest = _
    rw [← this]; simp

theorem Good.pollBuffer {c : Content} {out r b r'} {cutoff : Nat} (h : Good c.frames out r)
    (hp : pollBuffer c cutoff r = some (b, r')) :
    Good c.frames out r' ∧ r'.grp = r.grp ∧ (b = true → r'.reached cutoff = true) := by
  unfold Media.pollBuffer at hp
  split at hp
  · rename_i hr
    injection hp with hp; injection hp with h1 h2
    subst h1; subst h2
    exact ⟨h, rfl, fun _ => hr⟩
  · split at hp
    · cases hp
    · rename_i hb
      have hb : r.buffered = [] := Classical.not_not.1 hb
      have hu := h.readUnbuffered hb
      revert hp hu
      generalize Media.readUnbuffered c r = x
      rintro hp ⟨hu, hnil⟩
      cases hu with
      | frame good grp =>
        simp only [] at hp
        split at hp
        · rename_i hr
          injection hp with hp; injection hp with h1 h2
          subst h1; subst h2
          refine ⟨⟨?_, good.index, good.pos, good.max⟩, grp, fun _ => hr⟩
          have := good.frames
          rw [hnil _ _ rfl, List.append_nil] at this
          exact this
        · cases hp
      | bad good grp _ _ _ _ =>
        simp only [] at hp
        injection hp with hp; injection hp with h1 h2
        subst h1; subst h2
        exact ⟨good, grp, fun h => by cases h⟩
      | failed _ _ =>
        simp only [] at hp
        injection hp with hp; injection hp with h1 h2
        subst h1; subst h2
        exact ⟨h, rfl, fun h => by cases h⟩
      | ended _ _ =>
        simp only [] at hp
        injection hp with hp; injection hp with h1 h2
        subst h1; subst h2
        exact ⟨h, rfl, fun h => by cases h⟩
      | pending _ _ =>
        simp only [] at hp
        injection hp with hp; injection hp with h1 h2
        subst h1; subst h2
        exact ⟨h, rfl, fun h => by cases h⟩

theorem map_set_same {l : List RGroup} {i : Nat} {r r' : RGroup} (h : l[i]? = some r)
    (hg : r'.grp = r.grp) : (l.set i r').map (·.grp) = l.map (·.grp) := by
  apply List.ext_getElem?
  intro j
  simp only [List.getElem?_map, List.getElem?_set]
  split
  · rename_i hij; subst hij
    rw [h]
    split <;> simp_all
  · rfl

/-- Polling pending groups keeps them; if one is ready it has reached the cutoff. -/
theorem pollPending_good {content : Nat → Content} {cutoff : Nat} {order : List Nat} :
    ∀ {l : List RGroup} {i : Option Nat} {l' : List RGroup},
      (∀ r ∈ l, Good (content r.grp.gid).frames [] r) →
      pollPending content cutoff order l = some (i, l') →
      l'.map (·.grp) = l.map (·.grp) ∧ (∀ r ∈ l', Good (content r.grp.gid).frames [] r) ∧
      ∀ j, i = some j → ∃ r, l'[j]? = some r ∧ r.reached cutoff = true := by
  induction order with
  | nil =>
    intro l i l' hg h
    simp only [pollPending] at h
    injection h with h; injection h with h1 h2
    subst h1; subst h2
    exact ⟨rfl, hg, fun j hj => by cases hj⟩
  | cons k order ih =>
    intro l i l' hg h
    simp only [pollPending] at h
    split at h
    · exact ih hg h
    · rename_i r hr
      have hmem : r ∈ l := List.mem_of_getElem? hr
      split at h
      · cases h
      · rename_i r' hp
        obtain ⟨h1, h2, h3⟩ := (hg r hmem).pollBuffer hp
        injection h with h; injection h with e1 e2
        subst e1; subst e2
        refine ⟨map_set_same hr h2, ?_, ?_⟩
        · intro x hx
          rcases List.mem_or_eq_of_mem_set hx with hx | hx
          · exact hg x hx
          · subst hx; rw [h2]; exact h1
        · intro j hj
          injection hj with hj; subst hj
          have := (List.getElem?_eq_some_iff.1 hr).1
          exact ⟨r', by rw [List.getElem?_set_self this], h3 rfl⟩
      · rename_i r' hp
        obtain ⟨h1, h2, _⟩ := (hg r hmem).pollBuffer hp
        have := ih (l := l.set k r') ?_ h
        · rw [map_set_same hr h2] at this
          exact this
        · intro x hx
          rcases List.mem_or_eq_of_mem_set hx with hx | hx
          · exact hg x hx
          · subst hx; rw [h2]; exact h1

/-! ## The groups of the reader -/

/-- The frames of one group among those returned. -/
def retOf (ret : List (Track.Grp × Frame)) (g : Track.Grp) : List Frame :=
  ret.filterMap fun x => if x.1 = g then some x.2 else none

theorem retOf_snoc (ret : List (Track.Grp × Frame)) (h : Track.Grp) (f : Frame) (g : Track.Grp) :
    retOf (ret ++ [(h, f)]) g = if h = g then retOf ret g ++ [f] else retOf ret g := by
  unfold retOf
  rw [List.filterMap_append]
  split
  · simp_all
  · simp_all

theorem retOf_nil {ret : List (Track.Grp × Frame)} {g : Track.Grp} (h : ∀ x ∈ ret, x.1 ≠ g) :
    retOf ret g = [] := by
  unfold retOf
  rw [List.filterMap_eq_nil_iff]
  intro x hx
  rw [if_neg (h x hx)]

/-- The groups received `rec`, the frames returned `ret`, the groups ended `en` and skipped `sk`
and the groups held by the reader. -/
structure Live (rec : List Track.Grp) (ret : List (Track.Grp × Frame)) (en sk : List Track.Grp)
    (content : Nat → Content) (cur : Option RGroup) (pend : List RGroup) : Prop where
  inc : rec.Pairwise fun a b => a.seq < b.seq
  order : ret.Pairwise fun a b => a.1.seq ≤ b.1.seq
  known : ∀ x ∈ ret, x.1 ∈ rec
  live : (cur.toList ++ pend).map (·.grp) = rec.filter fun g => g ∉ en ∧ g ∉ sk
  goneRec : ∀ g ∈ en ++ sk, g ∈ rec
  gone : ∀ g ∈ en ++ sk, ∀ r ∈ cur.toList ++ pend, g.seq < r.grp.seq
  front : ∀ x ∈ ret, ∀ r ∈ cur.toList ++ pend, x.1.seq ≤ r.grp.seq
  none : cur = none → pend = []
  good : ∀ r ∈ cur.toList ++ pend, Good (content r.grp.gid).frames (retOf ret r.grp) r
  pre : ∀ g, retOf ret g <+: media (content g.gid).frames
  ended : ∀ g ∈ en, (content g.gid).closed = some (.ok ()) ∧ retOf ret g = media (content g.gid).frames

namespace Live
variable {rec : List Track.Grp} {ret : List (Track.Grp × Frame)} {en sk : List Track.Grp}
  {content : Nat → Content} {cur : Option RGroup} {pend : List RGroup}

theorem init : Live [] [] [] [] (fun _ => ⟨[], Option.none⟩) Option.none [] :=
  ⟨.nil, .nil, by simp, by simp, by simp, by simp, by simp, fun _ => rfl, by simp,
    fun g => List.nil_prefix, by simp⟩

theorem sorted (h : Live rec ret en sk content cur pend) :
    (cur.toList ++ pend).Pairwise fun a b => a.grp.seq < b.grp.seq := by
  have := h.inc.filter (fun g => g ∉ en ∧ g ∉ sk)
  rw [← h.live] at this
  exact (List.pairwise_map (R := fun a b : Track.Grp => a.seq < b.seq)).1 this

theorem mem_rec (h : Live rec ret en sk content cur pend) {r : RGroup} (hr : r ∈ cur.toList ++ pend) :
    r.grp ∈ rec := by
  have : r.grp ∈ (cur.toList ++ pend).map (·.grp) := List.mem_map_of_mem hr
  rw [h.live] at this
  exact (List.mem_filter.1 this).1

theorem eq_of_seq {rec : List Track.Grp} (h : rec.Pairwise fun a b => a.seq < b.seq) {a b : Track.Grp}
    (ha : a ∈ rec) (hb : b ∈ rec) (hs : a.seq = b.seq) : a = b := by
  obtain ⟨i, hi, rfl⟩ := List.mem_iff_getElem.1 ha
  obtain ⟨j, hj, rfl⟩ := List.mem_iff_getElem.1 hb
  rw [List.pairwise_iff_getElem] at h
  rcases Nat.lt_trichotomy i j with hij | hij | hij
  · have := h i j hi hj hij; omega
  · subst hij; rfl
  · have := h j i hj hi hij; omega

theorem pend_nil (h : Live rec ret en sk content cur pend) {r : RGroup} (hr : r ∈ pend) :
    retOf ret r.grp = [] := by
  cases cur with
  | none => rw [h.none rfl] at hr; cases hr
  | some q =>
    apply retOf_nil
    intro x hx hxr
    have h1 := h.front x hx q (by simp)
    have h2 := h.sorted
    simp only [Option.toList_some, List.singleton_append, List.pairwise_cons] at h2
    have h3 := h2.1 r hr
    rw [hxr] at h1
    omega

/-- A frame is added to an open group. -/
theorem addFrame (h : Live rec ret en sk content cur pend) {gid : Nat} {b : Bytes}
    (ho : (content gid).closed = Option.none) :
    Live rec ret en sk (fun g => if g = gid then { content gid with frames := (content gid).frames ++ [b] }
      else content g) cur pend := by
  have hf : ∀ g : Nat, ∃ cs, ((fun g => if g = gid then
      ({ content gid with frames := (content gid).frames ++ [b] } : Content) else content g) g).frames
        = (content g).frames ++ cs := by
    intro g
    by_cases hg : g = gid
    · subst hg; exact ⟨[b], by simp⟩
    · exact ⟨[], by simp [hg]⟩
  refine ⟨h.inc, h.order, h.known, h.live, h.goneRec, h.gone, h.front, h.none, ?_, ?_, ?_⟩
  · intro r hr
    obtain ⟨cs, hcs⟩ := hf r.grp.gid
    rw [hcs]
    exact (h.good r hr).grow cs
  · intro g
    obtain ⟨cs, hcs⟩ := hf g.gid
    rw [hcs]
    exact (h.pre g).trans (media_prefix (List.prefix_append _ _))
  · intro g hg
    obtain ⟨h1, h2⟩ := h.ended g hg
    have hne : g.gid ≠ gid := by rintro rfl; rw [ho] at h1; cases h1
    simp only [if_neg hne]
    exact ⟨h1, h2⟩

/-- An open group is closed. -/
theorem close (h : Live rec ret en sk content cur pend) {gid : Nat} {r : Except Error Unit}
    (ho : (content gid).closed = Option.none) :
    Live rec ret en sk (fun g => if g = gid then { content gid with closed := some r } else content g)
      cur pend := by
  have hf : ∀ g : Nat, ((fun g => if g = gid then
      ({ content gid with closed := some r } : Content) else content g) g).frames
        = (content g).frames := by
    intro g
    by_cases hg : g = gid
    · subst hg; simp
    · simp [hg]
  refine ⟨h.inc, h.order, h.known, h.live, h.goneRec, h.gone, h.front, h.none, ?_, ?_, ?_⟩
  · intro r hr
    rw [hf]
    exact h.good r hr
  · intro g
    rw [hf]
    exact h.pre g
  · intro g hg
    obtain ⟨h1, h2⟩ := h.ended g hg
    have hne : g.gid ≠ gid := by rintro rfl; rw [ho] at h1; cases h1
    simp only [if_neg hne]
    exact ⟨h1, h2⟩

/-- The groups held change inside only. -/
theorem relive (h : Live rec ret en sk content cur pend) {cur' : Option RGroup} {pend' : List RGroup}
    (hm : (cur'.toList ++ pend').map (·.grp) = (cur.toList ++ pend).map (·.grp))
    (hn : cur' = Option.none → pend' = [])
    (hg : ∀ r ∈ cur'.toList ++ pend', Good (content r.grp.gid).frames (retOf ret r.grp) r) :
    Live rec ret en sk content cur' pend' := by
  have key : ∀ r ∈ cur'.toList ++ pend', ∃ r0 ∈ cur.toList ++ pend, r0.grp = r.grp := by
    intro r hr
    have : r.grp ∈ (cur'.toList ++ pend').map (·.grp) := List.mem_map_of_mem hr
    rw [hm] at this
    exact List.mem_map.1 this
  refine ⟨h.inc, h.order, h.known, hm.trans h.live, h.goneRec, ?_, ?_, hn, hg, h.pre, h.ended⟩
  · intro g hgg r hr
    obtain ⟨r0, h0, he⟩ := key r hr
    rw [← he]; exact h.gone g hgg r0 h0
  · intro x hx r hr
    obtain ⟨r0, h0, he⟩ := key r hr
    rw [← he]; exact h.front x hx r0 h0

/-- The current group gives a frame. -/
theorem give {rec : List Track.Grp} {ret : List (Track.Grp × Frame)} {en sk : List Track.Grp}
    {content : Nat → Content} {pend : List RGroup} {r r' : RGroup}
    (h : Live rec ret en sk content (some r) pend) {f : Frame} (hg : r'.grp = r.grp)
    (hgood : Good (content r.grp.gid).frames (retOf ret r.grp ++ [f]) r') :
    Live rec (ret ++ [(r'.grp, f)]) en sk content (some r') pend := by
  have hr : r ∈ (some r).toList ++ pend := by simp
  have hs := h.sorted
  simp only [Option.toList_some, List.singleton_append, List.pairwise_cons] at hs
  have hrg : r.grp ∉ en := by
    have : r.grp ∈ ((some r).toList ++ pend).map (·.grp) := List.mem_map_of_mem hr
    rw [h.live] at this
    have := (List.mem_filter.1 this).2
    simp only [decide_eq_true_eq] at this
    exact this.1
  rw [hg]
  refine ⟨h.inc, ?_, ?_, ?_, h.goneRec, ?_, ?_, (fun hn => by cases hn), ?_, ?_, ?_⟩
  · rw [List.pairwise_append]
    refine ⟨h.order, List.pairwise_singleton _ _, ?_⟩
    intro x hx y hy
    rw [List.mem_singleton.1 hy]
    exact h.front x hx r hr
  · intro x hx
    rcases List.mem_append.1 hx with hx | hx
    · exact h.known x hx
    · rw [List.mem_singleton.1 hx]; exact h.mem_rec hr
  · rw [← h.live]; simp [hg]
  · intro g hgg q hq
    simp only [Option.toList_some, List.singleton_append, List.mem_cons] at hq
    rcases hq with hq | hq
    · subst hq; rw [hg]; exact h.gone g hgg r hr
    · exact h.gone g hgg q (by simp [hq])
  · intro x hx q hq
    simp only [Option.toList_some, List.singleton_append, List.mem_cons] at hq
    rcases List.mem_append.1 hx with hx | hx
    · rcases hq with hq | hq
      · subst hq; rw [hg]; exact h.front x hx r hr
      · exact h.front x hx q (by simp [hq])
    · rw [List.mem_singleton.1 hx]
      rcases hq with hq | hq
      · subst hq; rw [hg]; exact Nat.le_refl _
      · exact Nat.le_of_lt (hs.1 q hq)
  · intro q hq
    simp only [Option.toList_some, List.singleton_append, List.mem_cons] at hq
    rw [retOf_snoc]
    rcases hq with hq | hq
    · subst hq; rw [hg, if_pos rfl]; exact hgood
    · have hne : r.grp ≠ q.grp := by
        intro he; have := hs.1 q hq; rw [he] at this; omega
      rw [if_neg hne]; exact h.good q (by simp [hq])
  · intro g
    rw [retOf_snoc]
    split
    · rename_i he; subst he
      exact (List.prefix_append _ r'.buffered).trans (hgood.frames ▸ media_take _ _)
    · exact h.pre g
  · intro g hge
    rw [retOf_snoc, if_neg (by rintro rfl; exact hrg hge)]
    exact h.ended g hge

/-- The reader leaves its first groups. -/
theorem leave (h : Live rec ret en sk content cur pend) {a : List RGroup} {cur' : Option RGroup}
    {pend' : List RGroup} {en' sk' : List Track.Grp}
    (hl : cur.toList ++ pend = a ++ (cur'.toList ++ pend'))
    (hn : cur' = Option.none → pend' = [])
    (hgone : ∀ g, (g ∈ en' ∨ g ∈ sk') ↔ (g ∈ en ∨ g ∈ sk ∨ g ∈ a.map (·.grp)))
    (hend : ∀ g ∈ en', (content g.gid).closed = some (.ok ()) ∧
      retOf ret g = media (content g.gid).frames) :
    Live rec ret en' sk' content cur' pend' := by
  have hs := h.sorted
  rw [hl] at hs
  have hs' := List.pairwise_append.1 hs
  have mem : ∀ r ∈ cur'.toList ++ pend', r ∈ cur.toList ++ pend := by
    intro r hr; rw [hl]; exact List.mem_append_right _ hr
  refine ⟨h.inc, h.order, h.known, ?_, ?_, ?_, ?_, hn, ?_, h.pre, hend⟩
  · have e : (rec.filter fun g => g ∉ en' ∧ g ∉ sk') =
        (rec.filter fun g => g ∉ en ∧ g ∉ sk).filter fun g => g ∉ a.map (·.grp) := by
      rw [List.filter_filter]
      apply List.filter_congr
      intro g _
      have := hgone g
      by_cases h1 : g ∈ en <;> by_cases h2 : g ∈ sk <;> by_cases h3 : g ∈ a.map (·.grp) <;>
        by_cases h4 : g ∈ en' <;> by_cases h5 : g ∈ sk' <;> simp only [h1, h2, h3, h4, h5] at this ⊢ <;>
        simp_all
    rw [e, ← h.live, hl, List.map_append (l₁ := a), List.filter_append]
    rw [List.filter_eq_nil_iff.2, List.filter_eq_self.2, List.nil_append]
    · intro g hg
      obtain ⟨r, hr, rfl⟩ := List.mem_map.1 hg
      simp only [decide_eq_true_eq]
      intro hm
      obtain ⟨q, hq, he⟩ := List.mem_map.1 hm
      have := hs'.2.2 q hq r hr
      rw [he] at this
      omega
    · intro g hg
      simp [hg]
  · intro g hg
    rcases (hgone g).1 (List.mem_append.1 hg) with hg | hg | hg
    · exact h.goneRec g (List.mem_append_left _ hg)
    · exact h.goneRec g (List.mem_append_right _ hg)
    · obtain ⟨r, hr, rfl⟩ := List.mem_map.1 hg
      exact h.mem_rec (by rw [hl]; exact List.mem_append_left _ hr)
  · intro g hg r hr
    rcases (hgone g).1 (List.mem_append.1 hg) with hg | hg | hg
    · exact h.gone g (List.mem_append_left _ hg) r (mem r hr)
    · exact h.gone g (List.mem_append_right _ hg) r (mem r hr)
    · obtain ⟨q, hq, rfl⟩ := List.mem_map.1 hg
      exact hs'.2.2 q hq r hr
  · intro x hx r hr; exact h.front x hx r (mem r hr)
  · intro r hr; exact h.good r (mem r hr)

/-- A new group is received. -/
theorem recv (h : Live rec ret en sk content cur pend) {g : Track.Grp} {cur' : Option RGroup}
    {pend' : List RGroup} (hnew : ∀ x ∈ rec, x.seq < g.seq)
    (hl : cur'.toList ++ pend' = cur.toList ++ pend ++ [RGroup.new g])
    (hn : cur' = Option.none → pend' = []) :
    Live (rec ++ [g]) ret en sk content cur' pend' := by
  have hg : g ∉ rec := fun hm => Nat.lt_irrefl _ (hnew g hm)
  have hret : retOf ret g = [] := retOf_nil fun x hx he => hg (he ▸ h.known x hx)
  have mem : ∀ r ∈ cur'.toList ++ pend', r ∈ cur.toList ++ pend ∨ r = RGroup.new g := by
    intro r hr; rw [hl] at hr
    rcases List.mem_append.1 hr with hr | hr
    · exact .inl hr
    · exact .inr (List.mem_singleton.1 hr)
  refine ⟨?_, h.order, ?_, ?_, ?_, ?_, ?_, hn, ?_, h.pre, h.ended⟩
  · rw [List.pairwise_append]
    refine ⟨h.inc, List.pairwise_singleton _ _, ?_⟩
    intro x hx y hy
    rw [List.mem_singleton.1 hy]; exact hnew x hx
  · intro x hx; exact List.mem_append_left _ (h.known x hx)
  · rw [hl, List.map_append, h.live, List.filter_append]
    congr 1
    have : g ∉ en ∧ g ∉ sk := ⟨fun hm => hg (h.goneRec g (List.mem_append_left _ hm)),
      fun hm => hg (h.goneRec g (List.mem_append_right _ hm))⟩
    simp [this, RGroup.new]
  · intro x hx; exact List.mem_append_left _ (h.goneRec x hx)
  · intro x hx r hr
    rcases mem r hr with hr | hr
    · exact h.gone x hx r hr
    · subst hr; exact hnew x (h.goneRec x hx)
  · intro x hx r hr
    rcases mem r hr with hr | hr
    · exact h.front x hx r hr
    · subst hr; exact Nat.le_of_lt (hnew x.1 (h.known x hx))
  · intro r hr
    rcases mem r hr with hr | hr
    · exact h.good r hr
    · subst hr
      show Good _ (retOf ret g) _
      rw [hret]; exact Good.new _ g

end Live

/-! ## The invariant of the reader -/

theorem framesOf_snoc (tr : Trace) (e : Op × Out) (gid : Nat) :
    framesOf (tr ++ [e]) gid = framesOf tr gid ++ framesOf [e] gid := by
  simp [framesOf]

theorem received_snoc (tr : Trace) (e : Op × Out) :
    received (tr ++ [e]) = received tr ++ received [e] := by
  simp [received]

theorem returned_snoc (tr : Trace) (e : Op × Out) :
    returned (tr ++ [e]) = returned tr ++ returned [e] := by
  simp [returned]

theorem ended_snoc (tr : Trace) (e : Op × Out) : ended (tr ++ [e]) = ended tr ++ ended [e] := by
  simp [ended]

theorem skipped_snoc (tr : Trace) (e : Op × Out) :
    skipped (tr ++ [e]) = skipped tr ++ skippedBy e.2 := by
  simp [skipped]

theorem trackTrace_snoc (c : Nat) (tr : Trace) (e : Op × Out) :
    trackTrace c (tr ++ [e]) = trackTrace c tr ++ trackTrace c [e] := by
  simp [trackTrace]

theorem closed_snoc (tr : Trace) (e : Op × Out) (gid : Nat) (r : Except Error Unit) :
    Closed (tr ++ [e]) gid r ↔ Closed tr gid r ∨ e = (Op.close gid r, Out.ok) := by
  unfold Closed
  rw [List.mem_append, List.mem_singleton]
  exact or_congr Iff.rfl eq_comm

theorem latencyOf_snoc (tr : Trace) (e : Op × Out) :
    latencyOf (tr ++ [e]) = match e with
      | (.setLatency n, .ok) => n
      | _ => latencyOf tr := by
  unfold latencyOf
  rw [List.foldl_append]
  rfl

theorem lastMicros_snoc (tr : Trace) (e : Op × Out) :
    lastMicros (tr ++ [e]) = match e.2 with
      | .frame _ f => f.micros
      | _ => lastMicros tr := by
  unfold lastMicros
  rw [returned_snoc]
  obtain ⟨op, o⟩ := e
  cases o with
  | frame g f => simp only [returned, List.filterMap_cons, List.filterMap_nil, List.getLast?_concat]
  | _ => simp only [returned, List.filterMap_cons, List.filterMap_nil, List.append_nil]

/-- The invariant of the reader with consumer `c` on a track with history `tr0` at its start. -/
structure Inv (tr0 : Model.Track.Spec.Trace) (c : Nat) (tr : Trace) (s : State) : Prop where
  reach : Model.Track.machine.Reach (tr0 ++ trackTrace c tr) s.track
  alive : ConsumerAlive (tr0 ++ trackTrace c tr) c
  recv : Model.Track.Spec.received (tr0 ++ trackTrace c tr) c =
    Model.Track.Spec.received tr0 c ++ received tr
  frames : ∀ gid, (s.content gid).frames = framesOf tr gid
  closed : ∀ gid r, (s.content gid).closed = some r ↔ Closed tr gid r
  live : Live (received tr) (returned tr) (ended tr) (skipped tr) s.content s.current s.pending
  max : s.max = lastMicros tr
  latency : s.latency = latencyOf tr
  ignored : ∀ op g, (op, Out.ignored g) ∉ tr

theorem inv_init {tr0 : Model.Track.Spec.Trace} {c : Nat} {t0 : Track.State}
    (h : Model.Track.machine.Reach tr0 t0) (hc : ConsumerAlive tr0 c) :
    Inv tr0 c [] (machine t0 c).init := by
  refine ⟨?_, ?_, ?_, fun _ => rfl, ?_, Live.init, rfl, rfl, ?_⟩
  · simpa [trackTrace] using h
  · simpa [trackTrace] using hc
  · simp [trackTrace, received]
  · intro gid r
    refine iff_of_false (fun h => by cases h) (fun h => by cases h)
  · intro op g h; cases h

theorem Inv.increasing {tr0 c tr s} (h : Inv tr0 c tr s) :
    (Model.Track.Spec.received tr0 c ++ received tr).Pairwise fun a b => a.seq < b.seq := by
  have hT := Model.Track.inv_reach h.reach
  obtain ⟨v, hv⟩ := (hT.alive_iff c).1 h.alive
  have := hT.ordered.received c v hv
  rw [h.recv] at this
  exact this

/-- Somebody else uses the track. -/
theorem Inv.track {tr0 c tr s} (h : Inv tr0 c tr s) {op : Track.Op} (hf : foreign c op = true) :
    Inv tr0 c (tr ++ [(.track op, .track (Track.step s.track op).1)])
      { s with track := (Track.step s.track op).2 } := by
  have et : trackTrace c (tr ++ [(.track op, .track (Track.step s.track op).1)]) =
      trackTrace c tr ++ [(op, (Track.step s.track op).1)] := by
    rw [trackTrace_snoc]; rfl
  have er : received (tr ++ [(Op.track op, Out.track (Track.step s.track op).1)]) = received tr := by
    rw [received_snoc]; exact List.append_nil _
  have ere : returned (tr ++ [(Op.track op, Out.track (Track.step s.track op).1)]) = returned tr := by
    rw [returned_snoc]; exact List.append_nil _
  refine ⟨?_, ?_, ?_, ?_, ?_, ?_, ?_, ?_, ?_⟩
  · rw [et, ← List.append_assoc]; exact Machine.Reach.step (M := Model.Track.machine) op h.reach
  · rw [et, ← List.append_assoc]; exact alive_foreign h.alive hf
  · rw [et, ← List.append_assoc, received_foreign h.reach h.alive hf, h.recv, er]
  · intro gid; rw [framesOf_snoc]; simpa [framesOf] using h.frames gid
  · intro gid r; rw [closed_snoc]; simpa using h.closed gid r
  · rw [er, ere, ended_snoc, skipped_snoc]
    simpa [Spec.ended, skippedBy] using h.live
  · rw [lastMicros_snoc]; exact h.max
  · rw [latencyOf_snoc]; exact h.latency
  · intro op' g hm
    rcases List.mem_append.1 hm with hm | hm
    · exact h.ignored op' g hm
    · cases List.mem_singleton.1 hm

/-- The reader does something with what it has. -/
theorem Inv.own {tr0 c tr s} (h : Inv tr0 c tr s) {e : Op × Out} {s' : State}
    (ht : s'.track = s.track) (hc : s'.content = s.content)
    (hlat : s'.latency = s.latency)
    (er : received [e] = []) (et : trackTrace c [e] = []) (ef : ∀ gid, framesOf [e] gid = [])
    (ec : ∀ gid r, e ≠ (Op.close gid r, Out.ok)) (el : latencyOf (tr ++ [e]) = latencyOf tr)
    (ei : ∀ g, e.2 ≠ .ignored g)
    (hmax : s'.max = lastMicros (tr ++ [e]))
    (hlive : Live (received tr) (returned tr ++ returned [e]) (Spec.ended tr ++ Spec.ended [e])
      (skipped tr ++ skippedBy e.2) s.content s'.current s'.pending) :
    Inv tr0 c (tr ++ [e]) s' := by
  have et' : trackTrace c (tr ++ [e]) = trackTrace c tr := by
    rw [trackTrace_snoc, et, List.append_nil]
  have er' : received (tr ++ [e]) = received tr := by
    rw [received_snoc, er, List.append_nil]
  refine ⟨?_, ?_, ?_, ?_, ?_, ?_, hmax, ?_, ?_⟩
  · rw [et', ht]; exact h.reach
  · rw [et']; exact h.alive
  · rw [et', er']; exact h.recv
  · intro gid; rw [framesOf_snoc, ef, List.append_nil, hc]; exact h.frames gid
  · intro gid r; rw [closed_snoc, hc, or_iff_left (ec gid r)]; exact h.closed gid r
  · rw [er', returned_snoc, ended_snoc, skipped_snoc, hc]; exact hlive
  · rw [el, hlat]; exact h.latency
  · intro op g hm
    rcases List.mem_append.1 hm with hm | hm
    · exact h.ignored op g hm
    · have := List.mem_singleton.1 hm
      subst this
      exact ei g rfl

/-- A poll with an answer that says nothing. -/
def Silent : Out → Prop
  | .finished | .err _ | .pending | .hangs | .panic | .invalid => True
  | _ => False

theorem Inv.silent {tr0 c tr s} (h : Inv tr0 c tr s) {order : List Nat} {o : Out} (ho : Silent o)
    {s' : State} (ht : s'.track = s.track) (hc : s'.content = s.content)
    (hlat : s'.latency = s.latency) (hmax : s'.max = s.max)
    (hlive : Live (received tr) (returned tr) (Spec.ended tr) (skipped tr) s.content s'.current s'.pending) :
    Inv tr0 c (tr ++ [(.poll order, o)]) s' := by
  have ere : returned [(Op.poll order, o)] = [] := by
    cases o <;> first | rfl | exact ho.elim
  refine h.own ht hc hlat ?_ ?_ ?_ ?_ ?_ ?_ ?_ ?_
  · cases o <;> first | rfl | exact ho.elim
  · cases o <;> first | rfl | exact ho.elim
  · intro gid; rfl
  · intro gid r he; cases he
  · rw [latencyOf_snoc]
  · intro g he; rw [show o = _ from he] at ho; exact ho
  · rw [lastMicros_snoc, hmax, h.max]; cases o <;> first | rfl | exact ho.elim
  · rw [ere, List.append_nil]
    have : Spec.ended [(Op.poll order, o)] = [] := by cases o <;> first | rfl | exact ho.elim
    rw [this, List.append_nil]
    have : skippedBy (Op.poll order, o).2 = [] := by cases o <;> first | rfl | exact ho.elim
    rw [this, List.append_nil]
    exact hlive

theorem live_pending {tr0 c tr s} (h : Inv tr0 c tr s) :
    ∀ r ∈ s.pending, Good (s.content r.grp.gid).frames [] r := by
  intro r hr
  have := h.live.good r (List.mem_append_right _ hr)
  rwa [h.live.pend_nil hr] at this

theorem Inv.third {tr0 c tr s} (h : Inv tr0 c tr s) (b : Bool) (order : List Nat) :
    Inv tr0 c (tr ++ [(.poll order, (third s b order).1)]) (third s b order).2 := by
  unfold Media.third
  cases hp : pollPending s.content (s.max * 1000 + s.latency) order s.pending with
  | none => exact h.silent (by trivial) rfl rfl rfl rfl h.live
  | some x =>
    obtain ⟨i, l⟩ := x
    obtain ⟨h1, h2, h3⟩ := pollPending_good (live_pending h) hp
    have hlive : Live (received tr) (returned tr) (Spec.ended tr) (skipped tr) s.content s.current l := by
      refine h.live.relive ?_ ?_ ?_
      · rw [List.map_append, h1, List.map_append]
      · intro hn
        have := h.live.none hn
        rw [this] at h1
        exact List.map_eq_nil_iff.1 h1
      · intro r hr
        rcases List.mem_append.1 hr with hr | hr
        · exact h.live.good r (List.mem_append_left _ hr)
        · have : r.grp ∈ l.map (·.grp) := List.mem_map_of_mem hr
          rw [h1] at this
          obtain ⟨r0, hr0, he⟩ := List.mem_map.1 this
          rw [← he, h.live.pend_nil hr0, he]
          exact h2 r hr
    cases i with
    | none =>
      simp only []
      split
      · exact h.silent (by trivial) rfl rfl rfl rfl h.live
      · exact h.silent (by trivial) rfl rfl rfl rfl hlive
    | some i =>
      obtain ⟨r, hr, _⟩ := h3 i rfl
      simp only [hr]
      refine h.own rfl rfl rfl rfl rfl (fun _ => rfl) ?_ ?_ ?_ ?_ ?_
      · intro gid r he; cases he
      · rw [latencyOf_snoc]
      · intro g he; cases he
      · rw [lastMicros_snoc]; exact h.max
      · simp only [returned, Spec.ended, List.filterMap_cons, List.filterMap_nil, List.append_nil, skippedBy]
        refine hlive.leave (a := s.current.toList ++ l.take i) ?_ (fun hn => by cases hn) ?_ hlive.ended
        · rw [List.append_assoc]
          congr 1
          have hi := List.getElem?_eq_some_iff.1 hr
          obtain ⟨hi1, hi2⟩ := hi
          simp only [Option.toList_some, List.singleton_append]
          rw [← hi2, ← List.drop_eq_getElem_cons hi1, List.take_append_drop]
        · intro g
          rw [List.mem_append]
          exact Iff.rfl

theorem Inv.next {tr0 c tr s} (h : Inv tr0 c tr s) {g : Track.Grp} {t : Track.State}
    (hg : Track.step s.track (.next c) = (.group g, t)) {order : List Nat} :
    (∀ x ∈ received tr, x.seq < g.seq) ∧
    ∀ s' : State, s'.track = t → s'.content = s.content → s'.latency = s.latency → s'.max = s.max →
      Live (received tr ++ [g]) (returned tr) (Spec.ended tr) (skipped tr) s.content s'.current s'.pending →
      Inv tr0 c (tr ++ [(.poll order, .received g)]) s' := by
  have et : trackTrace c (tr ++ [(Op.poll order, Out.received g)]) =
      trackTrace c tr ++ [(.next c, .group g)] := by
    rw [trackTrace_snoc]; rfl
  have er : received (tr ++ [(Op.poll order, Out.received g)]) = received tr ++ [g] := by
    rw [received_snoc]; rfl
  have hreach : Model.Track.machine.Reach
      (tr0 ++ trackTrace c (tr ++ [(Op.poll order, Out.received g)])) t := by
    have := Machine.Reach.step (M := Model.Track.machine) (.next c) h.reach
    simp only [hg] at this
    rw [et, ← List.append_assoc]
    exact this
  have halive : ConsumerAlive (tr0 ++ trackTrace c (tr ++ [(Op.poll order, Out.received g)])) c := by
    rw [et, ← List.append_assoc]
    refine ⟨?_, ?_⟩
    · rcases h.alive.1 with ⟨p, hp⟩ | ⟨d, hd⟩
      · exact .inl ⟨p, List.mem_append_left _ hp⟩
      · exact .inr ⟨d, List.mem_append_left _ hd⟩
    · intro hm
      rcases List.mem_append.1 hm with hm | hm
      · exact h.alive.2 hm
      · have := List.mem_singleton.1 hm
        injection this with this _
        cases this
  have hrecv : Model.Track.Spec.received (tr0 ++ trackTrace c (tr ++ [(Op.poll order, Out.received g)])) c =
      Model.Track.Spec.received tr0 c ++ received (tr ++ [(Op.poll order, Out.received g)]) := by
    rw [et, ← List.append_assoc, Model.Track.received_snoc]
    simp only [Model.Track.Spec.give, if_true]
    rw [h.recv, er, List.append_assoc]
  refine ⟨?_, ?_⟩
  · have hT := Model.Track.inv_reach hreach
    obtain ⟨v, hv⟩ := (hT.alive_iff c).1 halive
    have := hT.ordered.received c v hv
    rw [hrecv, er] at this
    have := (List.pairwise_append.1 (List.pairwise_append.1 this).2.1).2.2
    intro x hx
    exact this x hx g (List.mem_singleton.2 rfl)
  · intro s' h1 h2 h3 h4 hlive
    refine ⟨?_, halive, hrecv, ?_, ?_, ?_, ?_, ?_, ?_⟩
    · rw [h1]; exact hreach
    · intro gid; rw [framesOf_snoc, h2, h.frames gid]; exact (List.append_nil _).symm
    · intro gid r; rw [closed_snoc, h2, h.closed gid r]; simp
    · rw [er, returned_snoc, ended_snoc, skipped_snoc, h2]
      simpa [Spec.ended, skippedBy, returned] using hlive
    · rw [h4, h.max, lastMicros_snoc]
    · rw [h3, h.latency, latencyOf_snoc]
    · intro op' g hm
      rcases List.mem_append.1 hm with hm | hm
      · exact h.ignored op' g hm
      · cases List.mem_singleton.1 hm

theorem insertSorted_last {r : RGroup} {l : List RGroup} (h : ∀ x ∈ l, x.grp.seq < r.grp.seq) :
    insertSorted r l = l ++ [r] := by
  unfold insertSorted
  have h1 : l.takeWhile (fun x => x.grp.seq < r.grp.seq) = l := by
    induction l with
    | nil => rfl
    | cons a l ih =>
      rw [List.takeWhile_cons, if_pos (by simpa using h a (by simp))]
      rw [ih (fun x hx => h x (by simp [hx]))]
  have h2 : l.dropWhile (fun x => x.grp.seq < r.grp.seq) = [] := by
    have := List.takeWhile_append_dropWhile (p := fun x : RGroup => x.grp.seq < r.grp.seq) (l := l)
    rw [h1] at this
    exact List.append_right_eq_self.1 this
  rw [h1, h2]

theorem Inv.second {tr0 c tr s} (h : Inv tr0 c tr s) (order : List Nat) :
    Inv tr0 c (tr ++ [(.poll order, (second c s order).1)]) (second c s order).2 := by
  unfold Media.second
  rcases next_cases s.track c with ⟨g, t, hg⟩ | ⟨h1, h2⟩
  · rw [hg]
    simp only []
    obtain ⟨hlt, hinv⟩ := h.next hg (order := order)
    cases hc : s.current with
    | none =>
      refine hinv _ rfl rfl rfl rfl ?_
      have hl := h.live
      rw [hc] at hl
      have hp := hl.none rfl
      refine hl.recv hlt ?_ (fun hn => by cases hn)
      simp [hp]
    | some r =>
      have hr : r ∈ s.current.toList ++ s.pending := by rw [hc]; simp
      have hrlt := hlt r.grp (h.live.mem_rec hr)
      simp only []
      rw [if_neg (by omega)]
      refine hinv _ rfl rfl rfl rfl ?_
      have hl := h.live
      refine hl.recv hlt ?_ (fun hn => by cases hn)
      rw [insertSorted_last, hc, List.append_assoc]
      intro x hx
      exact hlt x.grp (hl.mem_rec (List.mem_append_right _ hx))
  · generalize hx : Track.step s.track (.next c) = x at h1 h2 ⊢
    obtain ⟨o, t⟩ := x
    simp only [] at h1
    subst h1
    cases o with
    | group g => exact absurd rfl (h2 g)
    | ended => exact h.third true order
    | pending => exact h.third false order
    | err e => exact h.silent (by trivial) rfl rfl rfl rfl h.live
    | _ => exact h.silent (by trivial) rfl rfl rfl rfl h.live

theorem Inv.first {tr0 c tr s} (h : Inv tr0 c tr s) (order : List Nat) :
    Inv tr0 c (tr ++ [(.poll order, (first c s order).1)]) (first c s order).2 := by
  unfold Media.first
  cases hc : s.current with
  | none => exact h.second order
  | some r =>
    have hlive := h.live
    rw [hc] at hlive
    have hgood := hlive.good r (by simp)
    have hrd := hgood.readFrame
    revert hrd
    simp only []
    generalize readFrame (s.content r.grp.gid) r = x
    intro hrd
    cases hrd with
    | frame good grp =>
      rename_i f r'
      simp only []
      refine h.own rfl rfl rfl rfl rfl (fun _ => rfl) ?_ ?_ ?_ ?_ ?_
      · intro gid r he; cases he
      · rw [latencyOf_snoc]
      · intro g he; cases he
      · rw [lastMicros_snoc]
      · simp only [returned, Spec.ended, List.filterMap_cons, List.filterMap_nil, List.append_nil, skippedBy]
        exact hlive.give grp good
    | bad good grp _ _ _ _ =>
      rename_i e r'
      refine h.silent (by trivial) rfl rfl rfl rfl ?_
      refine hlive.relive ?_ (fun hn => by cases hn) ?_
      · simp [grp]
      · intro q hq
        simp only [Option.toList_some, List.singleton_append, List.mem_cons] at hq
        rcases hq with hq | hq
        · subst hq; rw [grp]; exact good
        · exact hlive.good q (by simp [hq])
    | failed c1 all =>
      refine h.silent (by trivial) rfl rfl rfl rfl ?_
      exact hlive
    | pending c1 all => exact h.second order
    | ended c1 all =>
      simp only []
      refine h.own rfl rfl rfl rfl rfl (fun _ => rfl) ?_ ?_ ?_ ?_ ?_
      · intro gid r he; cases he
      · rw [latencyOf_snoc]
      · intro g he; cases he
      · rw [lastMicros_snoc]; exact h.max
      · simp only [returned, Spec.ended, List.filterMap_cons, List.filterMap_nil, List.append_nil, skippedBy]
        refine hlive.leave (a := [r]) ?_ ?_ ?_ ?_
        · cases s.pending <;> simp
        · cases s.pending <;> simp
        · intro g; simp only [List.mem_append, List.map_cons, List.map_nil]
          constructor
          · rintro ((h | h) | h)
            · exact .inl h
            · exact .inr (.inr h)
            · exact .inr (.inl h)
          · rintro (h | h | h)
            · exact .inl (.inl h)
            · exact .inr h
            · exact .inl (.inr h)
        · intro g hg
          rcases List.mem_append.1 hg with hg | hg
          · exact hlive.ended g hg
          · rw [List.mem_singleton.1 hg]
            exact ⟨c1, all⟩

theorem Inv.step {tr0 c tr s} (h : Inv tr0 c tr s) (op : Op) :
    Inv tr0 c (tr ++ [(op, (step c s op).1)]) (step c s op).2 := by
  cases op with
  | track op =>
    simp only [Media.step]
    split
    · rename_i hf; exact h.track hf
    · refine h.own rfl rfl rfl rfl rfl (fun _ => rfl) (fun _ _ he => by cases he) (by rw [latencyOf_snoc])
        (fun g he => by cases he) ?_ ?_
      · rw [lastMicros_snoc]; exact h.max
      · simpa [returned, Spec.ended, skippedBy] using h.live
  | frame gid b =>
    simp only [Media.step]
    split
    · refine h.own rfl rfl rfl rfl rfl (fun _ => rfl) (fun _ _ he => by cases he) (by rw [latencyOf_snoc])
        (fun g he => by cases he) ?_ ?_
      · rw [lastMicros_snoc]; exact h.max
      · simpa [returned, Spec.ended, skippedBy] using h.live
    · rename_i hcl
      have hcl : (s.content gid).closed = none := by
        cases hx : (s.content gid).closed with
        | none => rfl
        | some y => rw [hx] at hcl; exact absurd rfl hcl
      have et' : trackTrace c (tr ++ [(Op.frame gid b, Out.ok)]) = trackTrace c tr := by
        rw [trackTrace_snoc]; exact List.append_nil _
      have er' : received (tr ++ [(Op.frame gid b, Out.ok)]) = received tr := by
        rw [received_snoc]; exact List.append_nil _
      refine ⟨?_, ?_, ?_, ?_, ?_, ?_, ?_, ?_, ?_⟩
      · rw [et']; exact h.reach
      · rw [et']; exact h.alive
      · rw [et', er']; exact h.recv
      · intro g
        rw [framesOf_snoc]
        by_cases hg : g = gid
        · subst hg
          simp [framesOf, h.frames g]
        · have hg' : ¬ gid = g := fun h => hg h.symm
          simp only [hg, if_false]
          rw [h.frames g]
          simp [framesOf, hg']
      · intro g r
        rw [closed_snoc, or_iff_left (fun he => by cases he), ← h.closed g r]
        by_cases hg : g = gid
        · subst hg; simp
        · simp [hg]
      · rw [er', returned_snoc, ended_snoc, skipped_snoc]
        have := h.live.addFrame (b := b) hcl
        simpa [returned, Spec.ended, skippedBy] using this
      · rw [lastMicros_snoc]; exact h.max
      · rw [latencyOf_snoc]; exact h.latency
      · intro op' g hm
        rcases List.mem_append.1 hm with hm | hm
        · exact h.ignored op' g hm
        · cases List.mem_singleton.1 hm
  | close gid r =>
    simp only [Media.step]
    split
    · refine h.own rfl rfl rfl rfl rfl (fun _ => rfl) (fun _ _ he => by cases he) (by rw [latencyOf_snoc])
        (fun g he => by cases he) ?_ ?_
      · rw [lastMicros_snoc]; exact h.max
      · simpa [returned, Spec.ended, skippedBy] using h.live
    · rename_i hcl
      have hcl : (s.content gid).closed = none := by
        cases hx : (s.content gid).closed with
        | none => rfl
        | some y => rw [hx] at hcl; exact absurd rfl hcl
      have et' : trackTrace c (tr ++ [(Op.close gid r, Out.ok)]) = trackTrace c tr := by
        rw [trackTrace_snoc]; exact List.append_nil _
      have er' : received (tr ++ [(Op.close gid r, Out.ok)]) = received tr := by
        rw [received_snoc]; exact List.append_nil _
      refine ⟨?_, ?_, ?_, ?_, ?_, ?_, ?_, ?_, ?_⟩
      · rw [et']; exact h.reach
      · rw [et']; exact h.alive
      · rw [et', er']; exact h.recv
      · intro g
        rw [framesOf_snoc]
        have : framesOf [(Op.close gid r, Out.ok)] g = [] := rfl
        rw [this, List.append_nil, ← h.frames g]
        by_cases hg : g = gid
        · subst hg; simp
        · simp [hg]
      · intro g r'
        rw [closed_snoc, ← h.closed g r']
        by_cases hg : g = gid
        · subst hg
          simp only [if_true, hcl]
          constructor
          · intro he; injection he with he; subst he; exact .inr rfl
          · rintro (he | he)
            · cases he
            · injection he with he _; injection he with _ he; rw [he]
        · simp only [hg, if_false]
          rw [or_iff_left]
          intro he; injection he with he _; injection he with he _; exact hg he.symm
      · rw [er', returned_snoc, ended_snoc, skipped_snoc]
        have := h.live.close (r := r) hcl
        simpa [returned, Spec.ended, skippedBy] using this
      · rw [lastMicros_snoc]; exact h.max
      · rw [latencyOf_snoc]; exact h.latency
      · intro op' g hm
        rcases List.mem_append.1 hm with hm | hm
        · exact h.ignored op' g hm
        · cases List.mem_singleton.1 hm
  | setLatency n =>
    simp only [Media.step]
    split
    · refine h.own rfl rfl rfl rfl rfl (fun _ => rfl) (fun _ _ he => by cases he) (by rw [latencyOf_snoc])
        (fun g he => by cases he) ?_ ?_
      · rw [lastMicros_snoc]; exact h.max
      · simpa [returned, Spec.ended, skippedBy] using h.live
    · have et' : trackTrace c (tr ++ [(Op.setLatency n, Out.ok)]) = trackTrace c tr := by
        rw [trackTrace_snoc]; exact List.append_nil _
      have er' : received (tr ++ [(Op.setLatency n, Out.ok)]) = received tr := by
        rw [received_snoc]; exact List.append_nil _
      refine ⟨?_, ?_, ?_, ?_, ?_, ?_, ?_, ?_, ?_⟩
      · rw [et']; exact h.reach
      · rw [et']; exact h.alive
      · rw [et', er']; exact h.recv
      · intro g; rw [framesOf_snoc]; simpa [framesOf] using h.frames g
      · intro g r'; rw [closed_snoc]; simpa using h.closed g r'
      · rw [er', returned_snoc, ended_snoc, skipped_snoc]
        simpa [returned, Spec.ended, skippedBy] using h.live
      · rw [lastMicros_snoc]; exact h.max
      · rw [latencyOf_snoc]
      · intro op' g hm
        rcases List.mem_append.1 hm with hm | hm
        · exact h.ignored op' g hm
        · cases List.mem_singleton.1 hm
  | poll order =>
    simp only [Media.step]
    split
    · exact h.silent (by trivial) rfl rfl rfl rfl h.live
    · split
      · exact h.silent (by trivial) rfl rfl rfl rfl h.live
      · exact h.first order

theorem inv_reach {tr0 : Model.Track.Spec.Trace} {t0 : Track.State} {c : Nat}
    (h0 : Model.Track.machine.Reach tr0 t0) (hc : ConsumerAlive tr0 c) {tr : Trace} {s : State}
    (h : (machine t0 c).Reach tr s) : Inv tr0 c tr s := by
  refine Machine.Reach.induct (M := machine t0 c) (P := fun tr s => Inv tr0 c tr s) ?_ ?_ h
  · exact inv_init h0 hc
  · intro tr s op _ ih
    exact ih.step op

end Verif.Hang.Media
