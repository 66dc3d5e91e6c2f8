import Verif.Hang.LatestLemmas
import Verif.Props.Track

/-!
# Properties of the catalog reader and of locations: C84 and C85

The vocabulary (`received`, `reported`, `values`, `Ready`, …) is defined from the history of calls and
answers in `Verif/Hang/LatestSpec.lean`; that of tracks in `Verif/Model/TrackSpec.lean`.
-/

set_option autoImplicit false

namespace Verif.Props.Latest

open Verif Verif.Hang.Latest Verif.Hang.Latest.Spec
open Verif.Session (Error)
open Verif.Model.Track.Spec (ConsumerAlive accepted closing Abandoned NewerThan nextAnswer)
open Verif.Model (Track.Op Track.Out Track.State Track.Grp Track.step)

variable {V : Type} {k : Kind} {parse : Bytes → Option V} {tr0 : Model.Track.Spec.Trace}
  {t0 : Track.State} {c : Nat} {tr : Trace V} {s : State}

/-! ## What both readers return -/

/-- What a reader returns for a group is the first frame of that group; the group was accepted by
the track. -/
theorem returns_first (h0 : Model.Track.machine.Reach tr0 t0) (hc : ConsumerAlive tr0 c)
    (h : (machine k parse t0 c).Reach tr s) {g : Track.Grp} {v : V} (hv : (g, v) ∈ values tr) :
    (∃ b, (framesOf tr g.gid).head? = some b ∧ parse b = some v) ∧
      g ∈ accepted (tr0 ++ trackTrace c tr) := by
  have hI := inv_reach h0 hc h
  refine ⟨hI.value _ hv, ?_⟩
  have hr : g ∈ reported tr := by
    obtain ⟨e, he, hx⟩ := List.mem_filterMap.1 hv
    refine List.mem_filterMap.2 ⟨e, he, ?_⟩
    obtain ⟨op, o⟩ := e
    cases o <;> simp_all
  refine (Track.c23_increasing hI.reach hI.alive).2 g ?_
  rw [hI.recv]
  exact List.mem_append_right _ (hI.sub g hr)

/-- The groups of successive results, whether values or errors, have strictly increasing numbers. -/
theorem returns_increasing (h0 : Model.Track.machine.Reach tr0 t0) (hc : ConsumerAlive tr0 c)
    (h : (machine k parse t0 c).Reach tr s) :
    (reported tr).Pairwise fun a b => a.seq < b.seq := (inv_reach h0 hc h).order

/-- In an increasing list two groups with one number are the same. -/
theorem eq_of_seq {l : List Track.Grp} (h : l.Pairwise fun a b => a.seq < b.seq) {a b : Track.Grp}
    (ha : a ∈ l) (hb : b ∈ l) (he : a.seq = b.seq) : a = b := by
  induction l with
  | nil => cases ha
  | cons x l ih =>
    rw [List.pairwise_cons] at h
    rcases List.mem_cons.1 ha with h1 | h1 <;> rcases List.mem_cons.1 hb with h2 | h2
    · rw [h1, h2]
    · have := h.1 b h2; rw [h1] at he; omega
    · have := h.1 a h1; rw [h2] at he; omega
    · exact ih h.2 h1 h2

theorem le_last {l : List Track.Grp} (h : l.Pairwise fun a b => a.seq < b.seq) {a g : Track.Grp}
    (ha : a ∈ l) (hg : l.getLast? = some g) : a.seq ≤ g.seq := by
  rcases List.eq_nil_or_concat l with rfl | ⟨l', x, rfl⟩
  · cases ha
  · rw [List.concat_eq_append] at h ha hg
    rw [List.getLast?_concat] at hg
    cases hg
    rw [List.pairwise_append] at h
    rcases List.mem_append.1 ha with ha | ha
    · exact Nat.le_of_lt (h.2.2 a ha _ (.head _))
    · rw [List.mem_singleton.1 ha]; exact Nat.le_refl _

theorem accepted_increasing {tr : Model.Track.Spec.Trace} {t : Track.State}
    (h : Model.Track.machine.Reach tr t) :
    (accepted tr).Pairwise fun a b => a.seq < b.seq := (Model.Track.inv_reach h).ordered.accepted

/-- If there is no newer group, the newest accepted one was received (or given to the consumer
before the reader started), and it is the last received. -/
theorem newest_received (hI : Inv parse tr0 c tr s) {g : Track.Grp}
    (hg : (accepted (tr0 ++ trackTrace c tr)).getLast? = some g)
    (hp : (Track.step s.track (.next c)).1 = .pending) :
    g ∈ Model.Track.Spec.received tr0 c ∨ (received tr).getLast? = some g := by
  rw [Track.next_answer hI.reach hI.alive] at hp
  unfold nextAnswer at hp
  rw [hg] at hp
  have hn : ¬ NewerThan g (Model.Track.Spec.received (tr0 ++ trackTrace c tr) c) := by
    intro hn
    cases hcl : closing (tr0 ++ trackTrace c tr) with
    | some r => rw [hcl] at hp; cases r <;> cases hp
    | none => rw [hcl] at hp; simp only [if_pos hn] at hp; cases hp
  have hsub := (Track.c23_increasing hI.reach hI.alive).2
  have hacc := accepted_increasing hI.reach
  obtain ⟨x, hx, hle⟩ : ∃ x ∈ Model.Track.Spec.received (tr0 ++ trackTrace c tr) c,
      g.seq ≤ x.seq := by
    refine Classical.byContradiction fun hne => hn fun x hx => ?_
    exact Nat.lt_of_not_le fun hle => hne ⟨x, hx, hle⟩
  have hxg : x = g := eq_of_seq hacc (hsub x hx) (List.mem_of_getLast? hg)
    (Nat.le_antisymm (le_last hacc (hsub x hx) hg) hle)
  subst hxg
  rw [hI.recv] at hx
  rcases List.mem_append.1 hx with hx | hx
  · exact .inl hx
  · refine .inr ?_
    rcases List.eq_nil_or_concat (received tr) with he | ⟨l, y, he⟩
    · rw [he] at hx; cases hx
    · rw [List.concat_eq_append] at he
      rw [he, List.getLast?_concat]
      have hy : y ∈ received tr := by rw [he]; exact List.mem_append_right _ (.head _)
      have hinc := hI.increasing
      rw [List.pairwise_append] at hinc
      have hya : y ∈ accepted (tr0 ++ trackTrace c tr) := by
        refine hsub y ?_
        rw [hI.recv]; exact List.mem_append_right _ hy
      have h1 := le_last hacc hya hg
      have h2 := le_last hinc.2.1 hx (show (received tr).getLast? = some y by
        rw [he, List.getLast?_concat])
      rw [eq_of_seq hinc.2.1 hy hx (Nat.le_antisymm h1 h2)]

/-! ## C84: the catalog reader -/

/-- **C84.**  A catalog that is returned is the first frame of its group, a group that the track
accepted. -/
theorem c84_first (h0 : Model.Track.machine.Reach tr0 t0) (hc : ConsumerAlive tr0 c)
    (h : (machine .catalog parse t0 c).Reach tr s) {g : Track.Grp} {v : V} (hv : (g, v) ∈ values tr) :
    (∃ b, (framesOf tr g.gid).head? = some b ∧ parse b = some v) ∧
      g ∈ accepted (tr0 ++ trackTrace c tr) := returns_first h0 hc h hv

/-- **C84.**  Catalogs are returned in the order of their groups, each at most once; an error is
also returned at most once per group, so that the reader goes on after it. -/
theorem c84_order (h0 : Model.Track.machine.Reach tr0 t0) (hc : ConsumerAlive tr0 c)
    (h : (machine .catalog parse t0 c).Reach tr s) :
    (reported tr).Pairwise fun a b => a.seq < b.seq := returns_increasing h0 hc h

theorem not_cancelled (h : (machine .catalog parse t0 c).Reach tr s) (g : Track.Grp) :
    (Op.cancel, Out.cancelled (some g)) ∉ tr := by
  refine Machine.Reach.induct (M := machine .catalog parse t0 c)
    (P := fun tr _ => (Op.cancel, Out.cancelled (some g)) ∉ tr) ?_ ?_ h
  · intro hx; cases hx
  · intro tr s op _ ih hm
    rcases List.mem_append.1 hm with hm | hm
    · exact ih hm
    · have hm := List.mem_singleton.1 hm
      injection hm with h1 h2
      subst h1
      cases h2

/-- **C84.**  When the reader waits, it has returned the newest catalog: for the newest group of the
track `next` has returned its result, or there is nothing to say about that group yet, or its
consumer had been given the group before the reader was made. -/
theorem c84_current (h0 : Model.Track.machine.Reach tr0 t0) (hc : ConsumerAlive tr0 c)
    (h : (machine .catalog parse t0 c).Reach tr s) {f : Bool}
    (hp : (step .catalog parse c s (.poll f)).1 = .pending) {g : Track.Grp}
    (hg : (accepted (tr0 ++ trackTrace c tr)).getLast? = some g) :
    g ∈ reported tr ∨ ¬ Ready tr g.gid ∨ g ∈ Model.Track.Spec.received tr0 c := by
  have hI := inv_reach h0 hc h
  have hF : frameBranch .catalog parse s = none := by
    cases hb : frameBranch .catalog parse s with
    | none => rfl
    | some q =>
      exfalso
      have hq : q.1 ≠ .pending := by
        unfold frameBranch at hb
        repeat' split at hb
        all_goals first | cases hb; done | (cases hb; exact fun hx => by cases hx)
      cases hgb : groupBranch (V := V) c s with
      | none => cases f <;> simp [step, poll, hb, hgb] at hp <;> exact hq hp
      | some q' =>
        have hq' : q'.1 ≠ .pending := by
          unfold groupBranch at hgb
          split at hgb <;> cases hgb <;> exact fun hx => by cases hx
        cases f <;> simp [step, poll, hb, hgb] at hp
        · exact hq' hp
        · exact hq hp
  have hG : groupBranch (V := V) c s = none := by
    cases hgb : groupBranch (V := V) c s with
    | none => rfl
    | some q' =>
      exfalso
      have hq' : q'.1 ≠ .pending := by
        unfold groupBranch at hgb
        split at hgb <;> cases hgb <;> exact fun hx => by cases hx
      cases f <;> simp [step, poll, hF, hgb] at hp <;> exact hq' hp
  have hT : (Track.step s.track (.next c)).1 = .pending := by
    unfold groupBranch at hG
    split at hG
    all_goals first | cases hG; done | (rename_i heq; rw [heq])
  rcases newest_received hI hg hT with hr | hr
  · exact .inr (.inr hr)
  · rcases hI.last g hr with hh | hh | hh
    · refine .inr (.inl ?_)
      rintro (hx | ⟨e, hx⟩)
      · rw [← hI.frames] at hx
        unfold frameBranch at hF
        rw [hh] at hF
        cases hf : (s.content g.gid).frames with
        | nil => exact hx hf
        | cons b bs =>
          simp only [hf] at hF
          split at hF <;> cases hF
      · rw [← hI.closed] at hx
        unfold frameBranch at hF
        rw [hh] at hF
        dsimp only at hF
        rw [hx] at hF
        split at hF
        · split at hF <;> cases hF
        · cases hF
    · exact .inl hh
    · exact absurd hh (not_cancelled h g)

/-- **C84.**  The reader says that the catalog has ended, or fails without a group, only if the
track was finished, or was aborted with this error or abandoned. -/
theorem c84_end (h0 : Model.Track.machine.Reach tr0 t0) (hc : ConsumerAlive tr0 c)
    (h : (machine .catalog parse t0 c).Reach tr s) {f : Bool} :
    ((step .catalog parse c s (.poll f)).1 = .ended →
      closing (tr0 ++ trackTrace c tr) = some (.ok ())) ∧
    ∀ e, (step .catalog parse c s (.poll f)).1 = .err e →
      closing (tr0 ++ trackTrace c tr) = some (.error e) ∨
      (e = .cancel ∧ closing (tr0 ++ trackTrace c tr) = none ∧ Abandoned (tr0 ++ trackTrace c tr)) := by
  have hI := inv_reach h0 hc h
  have hans := Track.next_answer hI.reach hI.alive
  have hfb : ∀ q, frameBranch .catalog parse s = some q → q.1 ≠ .ended ∧ ∀ e, q.1 ≠ .err e := by
    intro q hb
    unfold frameBranch at hb
    repeat' split at hb
    all_goals first
      | cases hb; done
      | (cases hb; exact ⟨fun hx => (by cases hx), fun e hx => (by cases hx)⟩)
  have hgb : ∀ q, groupBranch (V := V) c s = some q →
      (q.1 = .ended → (Track.step s.track (.next c)).1 = .ended) ∧
      ∀ e, q.1 = .err e → (Track.step s.track (.next c)).1 = .err e := by
    intro q hb
    unfold groupBranch at hb
    split at hb
    all_goals first
      | cases hb; done
      | (rename_i heq; rw [heq]; cases hb
         exact ⟨fun hx => (by first | rfl | cases hx), fun e hx => (by first | cases hx; rfl | cases hx)⟩)
      | (cases hb; exact ⟨fun hx => (by cases hx), fun e hx => (by cases hx)⟩)
  have key : ((step .catalog parse c s (.poll f)).1 = .ended →
        (Track.step s.track (.next c)).1 = .ended) ∧
      ∀ e, (step .catalog parse c s (.poll f)).1 = .err e →
        (Track.step s.track (.next c)).1 = .err e := by
    cases hb : frameBranch .catalog parse s <;> cases hg : groupBranch (V := V) c s <;> cases f <;>
      simp only [step, poll, hb, hg, if_true, Bool.false_eq_true, if_false, Option.orElse, Option.getD]
    all_goals first
      | exact hgb _ hg
      | exact ⟨fun hx => absurd hx (hfb _ hb).1, fun e hx => absurd hx ((hfb _ hb).2 e)⟩
      | exact ⟨fun hx => (by cases hx), fun e hx => (by cases hx)⟩
  refine ⟨fun hx => ?_, fun e hx => ?_⟩
  · have := key.1 hx
    rw [hans] at this
    unfold nextAnswer at this
    repeat' split at this
    all_goals first | cases this; done | assumption
  · have := key.2 e hx
    rw [hans] at this
    unfold nextAnswer at this
    repeat' split at this
    all_goals first
      | cases this; done
      | (cases this; exact .inl (by assumption))
      | (cases this; exact .inr ⟨rfl, by assumption, by assumption⟩)

/-- A run: a catalog is published and read, the next one is malformed, the third is read. -/
def exampleOps : List Op :=
  [.track (.insert 0 ⟨0, 10⟩), .frame 10 [1], .close 10 (.ok ()), .poll false, .poll false,
   .track (.insert 0 ⟨1, 11⟩), .poll true, .frame 11 [], .poll true, .poll true,
   .track (.insert 0 ⟨2, 12⟩), .track (.insert 0 ⟨3, 13⟩), .frame 13 [7, 8], .poll true, .poll true,
   .poll true]

/-- The parser of the examples: it refuses the empty frame. -/
def exampleParse : Bytes → Option Nat
  | [] => none
  | b :: _ => some b.toNat

/-- A track with a consumer. -/
def exampleTrack : List Model.Track.Op := [.consume 0]

theorem example_alive : ConsumerAlive (Model.Track.machine.run exampleTrack).1 0 :=
  ⟨.inl ⟨0, .head _⟩, fun hm => by
    have := List.mem_singleton.1 hm
    cases this⟩

example :
    let M := machine .catalog exampleParse (Model.Track.machine.run exampleTrack).2 0
    values (M.run exampleOps).1 = [(⟨0, 10⟩, 1), (⟨3, 13⟩, 7)] ∧
    reported (M.run exampleOps).1 = [⟨0, 10⟩, ⟨1, 11⟩, ⟨3, 13⟩] ∧
    ((M.run exampleOps).1.map (·.2)).getLast? = some .pending := by
  decide +kernel

/-- **C84 is violated at the end**: a catalog is published and the track finished; the reader
receives the group, then sees the end of the track first and returns `None`.  It never returned the
catalog. -/
theorem c84_lost : ∃ (tr : Trace Nat) (s : State),
    (machine .catalog exampleParse (Model.Track.machine.run exampleTrack).2 0).Reach tr s ∧
    (∃ f, (step .catalog exampleParse 0 s (.poll f)).1 = .ended) ∧
    (received tr).getLast? = some ⟨0, 10⟩ ∧ framesOf tr 10 = [[1]] ∧
    exampleParse [1] = some 1 ∧ reported tr = [] :=
  ⟨_, _, (machine .catalog exampleParse (Model.Track.machine.run exampleTrack).2 0).reach_run
    [.track (.insert 0 ⟨0, 10⟩), .frame 10 [1], .close 10 (.ok ()), .poll false,
    .track (.finish 0)], ⟨false, by decide +kernel⟩, by decide +kernel, by decide +kernel, rfl,
    by decide +kernel⟩

/-! ## C85: locations -/

/-- **C85.**  A position written is read back, bit by bit. -/
theorem c85_roundtrip (p : Position) : Position.read p.encode = .ok p := by
  obtain ⟨x, y, z⟩ := p
  have key : ∀ n : UInt32, UInt32.ofNat ((UInt8.ofNat (n.toNat / 16777216)).toNat * 16777216 +
      (UInt8.ofNat (n.toNat / 65536)).toNat * 65536 + (UInt8.ofNat (n.toNat / 256)).toNat * 256 +
      (UInt8.ofNat n.toNat).toNat) = n := by
    intro n
    apply UInt32.toNat_inj.1
    have := n.toNat_lt
    simp only [UInt8.toNat_ofNat', UInt32.toNat_ofNat']
    omega
  simp only [Position.read, Position.encode, putF32, List.cons_append, List.nil_append,
    List.length_cons, List.length_nil, getF32, key]
  simp

/-- **C85.**  The frames that are read as a position are those that some position is written as:
exactly the frames of 12 bytes.  Reading never panics. -/
theorem c85_exact (b : Bytes) :
    (∀ p, Position.read b = .ok p ↔ b = p.encode) ∧
    (Position.read b = .invalidFrame ↔ b.length ≠ 12) ∧ Position.read b ≠ .panic := by
  by_cases hl : b.length = 12
  · match b, hl with
    | [a0, a1, a2, a3, b0, b1, b2, b3, c0, c1, c2, c3], _ =>
      have key : ∀ a b c d : UInt8, putF32 (UInt32.ofNat (a.toNat * 16777216 + b.toNat * 65536 +
          c.toNat * 256 + d.toNat)) = [a, b, c, d] := by
        intro a b c d
        have ha := a.toNat_lt
        have hb := b.toNat_lt
        have hc := c.toNat_lt
        have hd := d.toNat_lt
        have hn : (UInt32.ofNat (a.toNat * 16777216 + b.toNat * 65536 + c.toNat * 256 +
            d.toNat)).toNat = a.toNat * 16777216 + b.toNat * 65536 + c.toNat * 256 + d.toNat := by
          rw [UInt32.toNat_ofNat']; omega
        simp only [putF32, hn, List.cons.injEq, and_true]
        refine ⟨?_, ?_, ?_, ?_⟩ <;> apply UInt8.toNat_inj.1 <;> rw [UInt8.toNat_ofNat'] <;> omega
      refine ⟨fun p => ⟨fun hp => ?_, fun hp => hp ▸ c85_roundtrip p⟩, ?_, ?_⟩
      · simp only [Position.read, List.length_cons, List.length_nil, getF32] at hp
        simp only [Nat.reduceAdd, ne_eq, not_true_eq_false, if_false, Read.ok.injEq] at hp
        subst hp
        simp only [Position.encode, key, List.cons_append, List.nil_append]
      · simp [Position.read, getF32]
      · simp [Position.read, getF32]
  · have hr : Position.read b = .invalidFrame := by simp [Position.read, hl]
    refine ⟨fun p => ?_, ?_, ?_⟩
    · rw [hr]
      refine iff_of_false (fun hx => by cases hx) fun hx => hl ?_
      rw [hx]; rfl
    · simp [hr, hl]
    · simp [hr]

example : Position.read (Position.encode ⟨0x3f000000, 0xbf000000, 0x3f800000⟩) =
    .ok ⟨0x3f000000, 0xbf000000, 0x3f800000⟩ := by decide +kernel

example : Position.read (List.replicate 13 0) = .invalidFrame := by decide +kernel

/-- **C85.**  The positions that are returned are those in the first frames of groups of the track,
in increasing order of the groups. -/
theorem c85_returned (h0 : Model.Track.machine.Reach tr0 t0) (hc : ConsumerAlive tr0 c)
    {tr : Trace Position} (h : (machine .location Position.parse t0 c).Reach tr s) :
    (∀ g p, (g, p) ∈ values tr → (framesOf tr g.gid).head? = some p.encode ∧
      g ∈ accepted (tr0 ++ trackTrace c tr)) ∧
    (values tr).Pairwise fun a b => a.1.seq < b.1.seq := by
  refine ⟨fun g p hv => ?_, ?_⟩
  · obtain ⟨⟨b, hb, hp⟩, ha⟩ := returns_first h0 hc h hv
    refine ⟨?_, ha⟩
    have : Position.read b = .ok p := by
      unfold Position.parse at hp
      split at hp
      · cases hp; assumption
      · cases hp
    rw [((c85_exact b).1 p).1 this] at hb
    exact hb
  · have ho := returns_increasing h0 hc h
    have hsub : ((values tr).map (·.1)).Sublist (reported tr) := by
      clear ho h
      induction tr with
      | nil => exact .slnil
      | cons e tr ih =>
        obtain ⟨op, o⟩ := e
        cases o <;> simp only [values, reported, List.filterMap_cons, List.map_cons] <;>
          first | exact ih | exact ih.cons_cons _ | exact ih.cons _
    have := ho.sublist hsub
    rw [List.pairwise_map] at this
    exact this

/-- **C85**, partial.  When the reader of locations waits, either it waits for the first frame of
the last group it received, which has none yet and has not ended, or the newest group was reported,
or lost with a dropped future, or given to its consumer before.

Missing: in the first case, and after a dropped future, the newest position is not delivered; see
`c85_stalls` and `c85_cancelled`. -/
theorem c85_current_partial (h0 : Model.Track.machine.Reach tr0 t0) (hc : ConsumerAlive tr0 c)
    {tr : Trace Position} (h : (machine .location Position.parse t0 c).Reach tr s) {f : Bool}
    (hp : (step .location Position.parse c s (.poll f)).1 = .pending) :
    (∃ x, (received tr).getLast? = some x ∧ x ∉ reported tr ∧ framesOf tr x.gid = [] ∧
      ∀ r, ¬ Closed tr x.gid r) ∨
    ∀ g, (accepted (tr0 ++ trackTrace c tr)).getLast? = some g →
      g ∈ reported tr ∨ (Op.cancel, Out.cancelled (some g)) ∈ tr ∨
      g ∈ Model.Track.Spec.received tr0 c := by
  have hI := inv_reach h0 hc h
  cases hh : s.held with
  | some x =>
    refine .inl ⟨x, (hI.held x hh).1, fun hx => ?_, ?_, ?_⟩
    · exact Nat.lt_irrefl _ ((hI.held x hh).2 x hx)
    all_goals
      simp only [step, poll, hh, Option.isSome_some, if_true] at hp
      unfold frameBranch at hp
      rw [hh] at hp
      dsimp only at hp
    · rw [← hI.frames]
      cases hf : (s.content x.gid).frames with
      | nil => rfl
      | cons b bs =>
        rw [hf] at hp
        dsimp only at hp
        split at hp <;> cases hp
    · intro r hr
      rw [← hI.closed] at hr
      rw [hr] at hp
      cases r <;> repeat' split at hp
      all_goals first | cases hp; done | skip
      all_goals simp_all
  | none =>
    refine .inr fun g hg => ?_
    have hG : groupBranch (V := Position) c s = none := by
      cases hgb : groupBranch (V := Position) c s with
      | none => rfl
      | some q' =>
        exfalso
        have hq' : q'.1 ≠ .pending := by
          unfold groupBranch at hgb
          split at hgb <;> cases hgb <;> exact fun hx => by cases hx
        simp [step, poll, hh, hgb] at hp
        exact hq' hp
    have hT : (Track.step s.track (.next c)).1 = .pending := by
      unfold groupBranch at hG
      split at hG
      all_goals first | cases hG; done | (rename_i heq; rw [heq])
    rcases newest_received hI hg hT with hr | hr
    · exact .inr (.inr hr)
    · rcases hI.last g hr with hx | hx | hx
      · rw [hh] at hx; cases hx
      · exact .inl hx
      · exact .inr (.inl hx)

/-- **C85 is violated by a group that stalls**: the reader waits for the frame of group 0 although
the position in group 1 is there. -/
theorem c85_stalls : ∃ (tr : Trace Position) (s : State),
    (machine .location Position.parse (Model.Track.machine.run exampleTrack).2 0).Reach tr s ∧
    (∀ f, (step .location Position.parse 0 s (.poll f)).1 = .pending) ∧
    (accepted ((Model.Track.machine.run exampleTrack).1 ++ trackTrace 0 tr)).getLast? = some ⟨1, 11⟩ ∧
    framesOf tr 11 = [Position.encode ⟨1, 2, 3⟩] ∧ reported tr = [] :=
  ⟨_, _, (machine .location Position.parse (Model.Track.machine.run exampleTrack).2 0).reach_run
    [.track (.insert 0 ⟨0, 10⟩), .poll true, .track (.insert 0 ⟨1, 11⟩),
    .frame 11 (Position.encode ⟨1, 2, 3⟩), .close 11 (.ok ())],
    fun f => by cases f <;> decide +kernel, by decide +kernel, by decide +kernel, by decide +kernel⟩

/-- **C85 is violated by a dropped future**: the future that had received the newest group is dropped
before its frame is there; the next call waits although the position is there. -/
theorem c85_cancelled : ∃ (tr : Trace Position) (s : State),
    (machine .location Position.parse (Model.Track.machine.run exampleTrack).2 0).Reach tr s ∧
    (∀ f, (step .location Position.parse 0 s (.poll f)).1 = .pending) ∧
    (accepted ((Model.Track.machine.run exampleTrack).1 ++ trackTrace 0 tr)).getLast? = some ⟨0, 10⟩ ∧
    framesOf tr 10 = [Position.encode ⟨1, 2, 3⟩] ∧ reported tr = [] :=
  ⟨_, _, (machine .location Position.parse (Model.Track.machine.run exampleTrack).2 0).reach_run
    [.track (.insert 0 ⟨0, 10⟩), .poll true, .cancel,
    .frame 10 (Position.encode ⟨1, 2, 3⟩), .close 10 (.ok ())],
    fun f => by cases f <;> decide +kernel, by decide +kernel, by decide +kernel, by decide +kernel⟩

example :
    let M := machine .location Position.parse (Model.Track.machine.run exampleTrack).2 0
    let ops : List Op := [.track (.insert 0 ⟨0, 10⟩), .poll true, .frame 10 (Position.encode ⟨1, 2, 3⟩),
      .poll true, .track (.insert 0 ⟨4, 11⟩), .close 11 (.ok ()), .poll true, .poll true, .poll true]
    values (M.run ops).1 = [(⟨0, 10⟩, ⟨1, 2, 3⟩)] ∧ reported (M.run ops).1 = [⟨0, 10⟩, ⟨4, 11⟩] ∧
    ((M.run ops).1.map (·.2)).getLast? = some .pending := by
  decide +kernel

/-! ### The position published last -/

/-- The invariant of the producer. -/
structure PInv (tr : List (POp × POut)) (s : PState) : Prop where
  published : s.published = published tr
  bound : ∀ p n, (POp.publish p, POut.call n) ∈ tr → n < s.calls.length
  open_ : ∀ (n : Nat) p, s.calls[n]? = some (some p) → (∃ p, (POp.publish p, POut.call n) ∈ tr) ∧
    (POp.remember n, POut.ok) ∉ tr
  late : ∀ n, s.calls.length ≤ n → (POp.remember n, POut.ok) ∉ tr
  seq : Sequential tr → (∀ (n : Nat) p, s.calls[n]? = some (some p) → s.published.getLast? = some p) ∧
    ((∀ (n : Nat) p, s.calls[n]? ≠ some (some p)) → s.latest = s.published.getLast?)

theorem sequential_prefix {tr : List (POp × POut)} {e : POp × POut} (h : Sequential (tr ++ [e])) :
    Sequential tr := by
  intro pre p o post he
  exact h pre p o (post ++ [e]) (by rw [he]; simp)

theorem pinv_reach {tr : List (POp × POut)} {s : PState} (h : pmachine.Reach tr s) : PInv tr s := by
  refine Machine.Reach.induct (M := pmachine) (P := fun tr s => PInv tr s) ?_ ?_ h
  · exact ⟨rfl, fun _ _ h => (by cases h), fun _ _ h => (by cases h), fun _ _ h => (by cases h),
      fun _ => ⟨fun _ _ h => (by cases h), fun _ => rfl⟩⟩
  · intro tr s op _ ih
    show PInv (tr ++ [(op, (pstep s op).1)]) (pstep s op).2
    cases op with
    | latest =>
      refine ⟨?_, ?_, ?_, ?_, fun hs => ih.seq (sequential_prefix hs)⟩
      · simpa [pstep, Spec.published] using ih.published
      · intro p n hm
        refine ih.bound p n ?_
        simpa [pstep] using hm
      · intro n p hm
        obtain ⟨⟨p', h1⟩, h2⟩ := ih.open_ n p hm
        exact ⟨⟨p', List.mem_append_left _ h1⟩, by simpa [pstep] using h2⟩
      · intro n hn
        simpa [pstep] using ih.late n hn
    | publish p =>
      refine ⟨?_, ?_, ?_, ?_, fun hs => ⟨?_, ?_⟩⟩
      · simp [pstep, Spec.published, ih.published]
      · intro q n hm
        rcases List.mem_append.1 hm with hm | hm
        · have := ih.bound q n hm
          simp only [pstep, List.length_append, List.length_singleton]; omega
        · have := List.mem_singleton.1 hm
          simp only [pstep, Prod.mk.injEq, POut.call.injEq] at this
          simp only [pstep, List.length_append, List.length_singleton]; omega
      · intro n q hm
        simp only [pstep] at hm ⊢
        rw [List.getElem?_append] at hm
        split at hm
        · obtain ⟨⟨p', h1⟩, h2⟩ := ih.open_ n q hm
          exact ⟨⟨p', List.mem_append_left _ h1⟩, by simpa using h2⟩
        · rename_i hn
          have hn' : n = s.calls.length := by
            rcases Nat.lt_or_ge (n - s.calls.length) 1 with h | h
            · omega
            · rw [List.getElem?_eq_none (by simpa using h)] at hm; cases hm
          subst hn'
          exact ⟨⟨p, List.mem_append_right _ (.head _)⟩, by simpa using ih.late _ (Nat.le_refl _)⟩
      · intro n hn
        simp only [pstep, List.length_append, List.length_singleton] at hn ⊢
        simpa using ih.late n (by omega)
      · intro n q hm
        simp only [pstep] at hm ⊢
        rw [List.getElem?_append] at hm
        split at hm
        · exfalso
          obtain ⟨⟨p', h1⟩, h2⟩ := ih.open_ n q hm
          exact h2 (hs tr p _ [] rfl p' n h1)
        · rename_i hn
          rcases Nat.lt_or_ge (n - s.calls.length) 1 with h | h
          · have : n - s.calls.length = 0 := by omega
            rw [this] at hm
            cases hm
            exact List.getLast?_concat
          · rw [List.getElem?_eq_none (by simpa using h)] at hm; cases hm
      · intro hx
        exfalso
        refine hx s.calls.length p ?_
        simp [pstep]
    | remember m =>
      simp only [pstep]
      split
      · rename_i p hp
        refine ⟨?_, ?_, ?_, ?_, fun hs => ⟨?_, ?_⟩⟩
        · simpa [Spec.published] using ih.published
        · intro q n hm
          rw [List.length_set]
          exact ih.bound q n (by simpa using hm)
        · intro n q hm
          dsimp only at hm
          rw [List.getElem?_set] at hm
          split at hm
          · split at hm <;> cases hm
          · rename_i hne
            obtain ⟨⟨p', h1⟩, h2⟩ := ih.open_ n q hm
            refine ⟨⟨p', List.mem_append_left _ h1⟩, ?_⟩
            intro hmem
            rcases List.mem_append.1 hmem with hmem | hmem
            · exact h2 hmem
            · have := List.mem_singleton.1 hmem
              simp only [Prod.mk.injEq, POp.remember.injEq, and_true] at this
              exact hne this.symm
        · intro n hn
          rw [List.length_set] at hn
          intro hmem
          rcases List.mem_append.1 hmem with hmem | hmem
          · exact ih.late n hn hmem
          · have := List.mem_singleton.1 hmem
            simp only [Prod.mk.injEq, POp.remember.injEq, and_true] at this
            subst this
            rw [List.getElem?_eq_none hn] at hp
            cases hp
        · intro n q hm
          dsimp only at hm ⊢
          rw [List.getElem?_set] at hm
          split at hm
          · split at hm <;> cases hm
          · exact (ih.seq (sequential_prefix hs)).1 n q hm
        · intro _
          exact ((ih.seq (sequential_prefix hs)).1 m p hp).symm
      · refine ⟨?_, ?_, ?_, ?_, fun hs => ih.seq (sequential_prefix hs)⟩
        · simpa [Spec.published] using ih.published
        · intro q n hm
          exact ih.bound q n (by simpa using hm)
        · intro n q hm
          obtain ⟨⟨p', h1⟩, h2⟩ := ih.open_ n q hm
          exact ⟨⟨p', List.mem_append_left _ h1⟩, by simpa using h2⟩
        · intro n hn
          simpa using ih.late n hn

/-- **C85**, partial.  If the calls of `update` come one after the other, then `latest` is the
position published last, whenever no call is under way.

Missing: calls of clones at the same time, see `c85_latest_race`. -/
theorem c85_latest_partial {tr : List (POp × POut)} {s : PState} (h : pmachine.Reach tr s)
    (hs : Sequential tr) (hq : Quiet tr) :
    (pstep s .latest).1 = .latest (published tr).getLast? := by
  have hI := pinv_reach h
  simp only [pstep]
  rw [← hI.published, (hI.seq hs).2]
  intro n p hp
  obtain ⟨⟨p', h1⟩, h2⟩ := hI.open_ n p hp
  exact h2 (hq p' n h1)

example : Sequential [(POp.publish ⟨1, 1, 1⟩, POut.call 0), (.remember 0, .ok),
      (.publish ⟨2, 2, 2⟩, .call 1), (.remember 1, .ok)] ∧
    (pmachine.run [.publish ⟨1, 1, 1⟩, .remember 0, .publish ⟨2, 2, 2⟩, .remember 1]).1 =
      [(POp.publish ⟨1, 1, 1⟩, POut.call 0), (.remember 0, .ok), (.publish ⟨2, 2, 2⟩, .call 1),
        (.remember 1, .ok)] := by
  refine ⟨?_, by decide +kernel⟩
  intro pre p o post he
  match pre, he with
  | [], _ => intro p n hm; cases hm
  | [a], he => simp at he
  | [a, b], he =>
    simp only [List.cons_append, List.nil_append, List.cons.injEq] at he
    obtain ⟨rfl, rfl, -⟩ := he
    intro p n hm
    simp only [List.mem_cons, Prod.mk.injEq, POp.publish.injEq, POut.call.injEq, List.not_mem_nil,
      or_false, reduceCtorEq, false_and] at hm
    obtain ⟨-, rfl⟩ := hm
    decide +kernel
  | [a, b, d], he => simp at he
  | a :: b :: d :: e :: rest, he => simp at he

/-- **C85 is violated by clones**: two calls of `update` overlap; afterwards `latest` is not the
position published last, though no call is under way. -/
theorem c85_latest_race : ∃ (tr : List (POp × POut)) (s : PState), pmachine.Reach tr s ∧ Quiet tr ∧
    published tr = [⟨1, 1, 1⟩, ⟨2, 2, 2⟩] ∧ (pstep s .latest).1 = .latest (some ⟨1, 1, 1⟩) := by
  refine ⟨_, _, pmachine.reach_run [.publish ⟨1, 1, 1⟩, .publish ⟨2, 2, 2⟩, .remember 1, .remember 0],
    ?_, by decide +kernel, by decide +kernel⟩
  have he : (pmachine.run [.publish ⟨1, 1, 1⟩, .publish ⟨2, 2, 2⟩, .remember 1, .remember 0]).1 =
      [(POp.publish ⟨1, 1, 1⟩, POut.call 0), (.publish ⟨2, 2, 2⟩, .call 1), (.remember 1, .ok),
        (.remember 0, .ok)] := by decide +kernel
  rw [he]
  intro p n hm
  simp only [List.mem_cons, Prod.mk.injEq, POp.publish.injEq, POut.call.injEq, List.not_mem_nil,
    or_false, reduceCtorEq, false_and] at hm
  rcases hm with ⟨-, rfl⟩ | ⟨-, rfl⟩ <;> decide +kernel

end Verif.Props.Latest
