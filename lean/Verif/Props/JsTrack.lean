import Verif.Js.TrackLemmas

/-!
# Property C94: tracks in the browser
-/

set_option autoImplicit false

namespace Verif.Props.JsTrack

open Verif Verif.Js.Track

open Verif.Js.Group (Status Settled)

/-! ## Specification -/

/-- Between any two groups the track takes, the fetch of the consumer gets to continue. -/
def Prompt (tr : Trace) (c : Nat) : Prop :=
  ∀ a x mid y b, tr = a ++ x :: mid ++ y :: b → accepted [x] ≠ [] → accepted [y] ≠ [] →
    ∃ o, (.run c, o) ∈ mid

/-- Nothing that is under way will change anything for the consumer: its fetch cannot continue. -/
def Quiet (s : State) (c : Nat) : Prop := (step s (.run c)).1 = .invalid

instance (s : State) (c : Nat) : Decidable (Quiet s c) :=
  inferInstanceAs (Decidable (_ = _))

/-- The calls of the consumer. -/
def Call (op : Op) (c : Nat) : Prop := op = .nextGroup c ∨ ∃ p, op = .nextFrame c p

/-- `nextFrame` has nothing to return, whatever it looks at first. -/
def FrameWaits (s : State) (c : Nat) : Prop := ∀ p, (step s (.nextFrame c p)).1 = .pending

/-! ## Lemmas -/

theorem onSub_out {s : State} {c : Nat} {u : Sub} (hu : s.subs[c]? = some u)
    (f : Sub → Out × Sub) : (onSub s c f).1 = (f u).1 := by
  unfold onSub
  rw [hu]

theorem sub_of {s : State} {c : Nat} {f : Sub → Out × Sub} (h : (onSub s c f).1 ≠ .invalid) :
    ∃ u, s.subs[c]? = some u := by
  cases hu : s.subs[c]? with
  | some u => exact ⟨u, rfl⟩
  | none => simp [onSub, hu] at h

theorem status_of {tr : Trace} {s : State} (h : machine.Reach tr s) {t : Status}
    (ht : s.status = t) : ending tr = endOp t := by
  rw [(inv_reach h).track.status, ht]

theorem nextGroup_out (s : State) (u : Sub) : (nextGroup s u).1 =
    match u.fetch with
    | .done (.value g) => .group g
    | .done .undefined => .undefined
    | .done .rejected => .rejected
    | _ => .pending := by
  unfold nextGroup
  rcases u.fetch with _ | x | ⟨g | _ | _⟩ <;> rfl

theorem quiet_fetch {s : State} {c : Nat} {u : Sub} (hu : s.subs[c]? = some u) (hq : Quiet s c) :
    u.fetch = .waiting ∨ ∃ x, u.fetch = .done x := by
  unfold Quiet at hq
  rw [step, onSub_out hu] at hq
  unfold run at hq
  rcases hf : u.fetch with _ | ⟨⟨_ | g⟩ | _ | _⟩ | x
  · exact .inl rfl
  all_goals first | exact .inr ⟨_, rfl⟩ | (rw [hf] at hq; cases hq)

/-- A waiting fetch. -/
theorem waits_fetch {s : State} {c : Nat} (hp : (step s (.nextGroup c)).1 = .pending)
    (hq : Quiet s c) : ∃ u, s.subs[c]? = some u ∧ u.fetch = .waiting := by
  obtain ⟨u, hu⟩ := sub_of (s := s) (c := c) (f := nextGroup s)
    (fun h => by rw [step] at hp; rw [h] at hp; cases hp)
  refine ⟨u, hu, ?_⟩
  rcases quiet_fetch hu hq with h | ⟨x, h⟩
  · exact h
  · rw [step, onSub_out hu, nextGroup_out, h] at hp
    rcases x with g | _ | _ <;> cases hp

/-- `nextFrame` that waits, too. -/
theorem frameWaits_fetch {s : State} {c : Nat} (hp : FrameWaits s c) (hq : Quiet s c)
    (hsk : ∀ u g g', s.subs[c]? = some u → u.fetch = .done (.value g) → u.current = some g' →
      g' < g) :
    ∃ u, s.subs[c]? = some u ∧ ((u.fetch = .waiting ∧ ∀ b, frameNow s u ≠ .data b) ∨
      (u.fetch = .done .undefined ∧ frameNow s u = .notYet)) := by
  obtain ⟨u, hu⟩ := sub_of (s := s) (c := c) (f := fun u => nextFrame s u .frame)
    (fun h => by have := hp .frame; rw [step] at this; rw [h] at this; cases this)
  refine ⟨u, hu, ?_⟩
  have h1 := hp .frame
  have h2 := hp .group
  rw [step, onSub_out hu] at h1 h2
  have hnd : ∀ b, frameNow s u ≠ .data b := by
    intro b hb
    have hc : u.current ≠ none := fun hc => by simp [frameNow, hc] at hb
    unfold nextFrame at h1
    rw [hb] at h1
    cases hcur : u.current with
    | none => exact hc hcur
    | some g =>
      simp only [hcur] at h1
      cases h1
  rcases quiet_fetch hu hq with h | ⟨x, h⟩
  · exact .inl ⟨h, hnd⟩
  · rcases x with g | _ | _
    · unfold nextFrame at h2
      rw [h] at h2
      have hd : stale u g = false := by
        unfold stale
        cases hcur : u.current with
        | none => rfl
        | some g' =>
          have := hsk u g g' hu h hcur
          simp
          omega
      cases hn : frameNow s u <;> rw [hn] at h2 <;> dsimp only at h2 <;> rw [hd] at h2 <;> cases h2
    · refine .inr ⟨h, ?_⟩
      cases hn : frameNow s u with
      | data b => exact absurd hn (hnd b)
      | notYet => rfl
      | over =>
        unfold nextFrame at h2
        rw [h, hn] at h2
        cases h2
    · unfold nextFrame at h2
      rw [h] at h2
      cases hn : frameNow s u <;> rw [hn] at h2 <;> cases h2

/-! ## Order and contents -/

/-- **C94.**  The groups of a track have increasing numbers: an old one is dropped. -/
theorem c94_accepted {tr : Trace} {s : State} (h : machine.Reach tr s) :
    (accepted tr).Pairwise (· < ·) := (inv_reach h).track.sorted

/-- A consumer is given groups of the track, with increasing numbers: each at most once. -/
theorem c94_groups {tr : Trace} {s : State} (h : machine.Reach tr s) (c : Nat) :
    (seen tr c).Sublist (accepted tr) ∧ (seen tr c).Pairwise (· < ·) := by
  have i := inv_reach h
  by_cases hc : c < s.subs.length
  · have hs := i.sub c _ (List.getElem?_eq_getElem hc)
    refine ⟨?_, hs.sorted⟩
    have hacc := hs.acc
    rw [i.track.ids] at hacc
    have key : ∀ (l m : List Nat), l.Pairwise (· < ·) → m.Pairwise (· < ·) → (∀ x ∈ l, x ∈ m) →
        l.Sublist m := by
      intro l m
      induction m generalizing l with
      | nil =>
        intro _ _ h
        cases l with
        | nil => exact .slnil
        | cons x l => exact absurd (h x (by simp)) (by simp)
      | cons y m ih =>
        intro hl hm h
        cases l with
        | nil => exact List.nil_sublist _
        | cons x l =>
          rw [List.pairwise_cons] at hl hm
          by_cases hxy : x = y
          · subst hxy
            refine .cons_cons _ (ih l hl.2 hm.2 fun z hz => ?_)
            have := h z (by simp [hz])
            rcases List.mem_cons.mp this with e | e
            · have := hl.1 z hz
              omega
            · exact e
          · have hx : x ∈ m := (List.mem_cons.mp (h x (by simp))).resolve_left hxy
            have hyx := hm.1 x hx
            refine .cons _ (ih (x :: l) (List.pairwise_cons.mpr hl) hm.2 fun z hz => ?_)
            have := h z hz
            rcases List.mem_cons.mp this with e | e
            · rcases List.mem_cons.mp hz with e' | e'
              · omega
              · have := hl.1 z e'
                omega
            · exact e
    exact key _ _ hs.sorted i.track.sorted hacc
  · rw [(i.fresh c (by omega)).1]
    exact ⟨List.nil_sublist _, .nil⟩

/-- The frames that `nextFrame` returns come in order, group by group; each is the frame of that
group with that index; and of every group they are the first ones, none left out. -/
theorem c94_frames {tr : Trace} {s : State} (h : machine.Reach tr s) (c : Nat) :
    (delivered tr c).Pairwise (fun d e => d.1 < e.1 ∨ (d.1 = e.1 ∧ d.2.1 < e.2.1)) ∧
    (∀ g k b, (g, k, b) ∈ delivered tr c → (content tr g)[k]? = some b ∧ g ∈ seen tr c) ∧
    (∀ g k b, (g, k, b) ∈ delivered tr c → ∀ j < k, ∃ b', (g, j, b') ∈ delivered tr c) := by
  have i := inv_reach h
  by_cases hc : c < s.subs.length
  · have hs := (i.sub c _ (List.getElem?_eq_getElem hc)).frames
    refine ⟨hs.order, fun g k b hd => ?_, fun g k b hd j hj => hs.whole _ hd j hj⟩
    obtain ⟨x, h1, h2, h3⟩ := hs.data _ hd
    refine ⟨?_, hs.seen _ hd⟩
    rw [i.track.content x h1, h2] at h3
    exact h3
  · rw [(i.fresh c (by omega)).2.1]
    exact ⟨.nil, fun _ _ _ h => (by cases h), fun _ _ _ h => (by cases h)⟩

/-- A list sorted by a key is the concatenation of its parts. -/
theorem flatMap_filter {α : Type} (f : α → Nat) (K : List Nat) : ∀ (L : List α),
    L.Pairwise (fun a b => f a ≤ f b) → K.Pairwise (· < ·) → (∀ a ∈ L, f a ∈ K) →
    L = K.flatMap fun k => L.filter fun a => f a = k := by
  induction K with
  | nil =>
    intro L _ _ h
    cases L with
    | nil => rfl
    | cons a L => exact absurd (h a (by simp)) (by simp)
  | cons k K ih =>
    intro L hL hK h
    rw [List.pairwise_cons] at hK
    have hsplit : ∀ M : List α, M.Pairwise (fun a b => f a ≤ f b) → (∀ a ∈ M, f a ∈ k :: K) →
        M = (M.filter fun a => f a = k) ++ M.filter fun a => f a ≠ k := by
      intro M
      induction M with
      | nil => intro _ _; rfl
      | cons a M ihM =>
        intro hp hm
        rw [List.pairwise_cons] at hp
        have := ihM hp.2 fun x hx => hm x (by simp [hx])
        by_cases ha : f a = k
        · rw [List.filter_cons_of_pos (by simp [ha]), List.filter_cons_of_neg (by simp [ha]),
            List.cons_append, ← this]
        · have hnone : (M.filter fun a => f a = k) = [] := by
            rw [List.filter_eq_nil_iff]
            intro x hx hxk
            have h1 := hp.1 x hx
            have h2 := (List.mem_cons.mp (hm a (by simp))).resolve_left ha
            have h3 := hK.1 _ h2
            simp at hxk
            omega
          rw [List.filter_cons_of_neg (by simp [ha]), List.filter_cons_of_pos (by simp [ha]), hnone,
            List.nil_append]
          rw [hnone, List.nil_append] at this
          rw [← this]
    have hrest := ih (L.filter fun a => f a ≠ k) (hL.filter _) hK.2 fun a ha => by
      rw [List.mem_filter] at ha
      have := h a ha.1
      simp at ha
      exact (List.mem_cons.mp this).resolve_left ha.2
    rw [List.flatMap_cons]
    conv => lhs; rw [hsplit L hL h, hrest]
    congr 1
    rw [List.flatMap_def, List.flatMap_def]
    congr 1
    apply List.map_congr_left
    intro k' hk'
    rw [List.filter_filter]
    apply List.filter_congr
    intro a _
    have := hK.1 k' hk'
    by_cases e : f a = k' <;> simp [e]
    omega

/-- Numbers that increase, each with all smaller ones, count up from 0. -/
theorem counts_up : ∀ (l : List Nat), l.Pairwise (· < ·) → (∀ k ∈ l, ∀ j < k, j ∈ l) →
    ∀ (i k : Nat), l[i]? = some k → i = k := by
  intro l hp hw i
  induction i using Nat.strongRecOn with
  | ind i ih =>
    intro k hk
    have hi := (List.getElem?_eq_some_iff.mp hk).1
    have hget := (List.getElem?_eq_some_iff.mp hk).2
    rw [List.pairwise_iff_getElem] at hp
    rcases Nat.lt_trichotomy i k with hlt | heq | hgt
    · have hm := hw k (List.mem_of_getElem? hk) i hlt
      obtain ⟨j, hj, hjv⟩ := List.getElem_of_mem hm
      rcases Nat.lt_trichotomy j i with h | h | h
      · have := ih j h i (by rw [List.getElem?_eq_getElem hj, hjv])
        omega
      · subst h
        omega
      · have := hp i j hi hj h
        omega
    · exact heq
    · have h1 : l[k]? = some (l[k]'(by omega)) := List.getElem?_eq_getElem (by omega)
      have h2 := ih k hgt _ h1
      have := hp k i (by omega) hi hgt
      omega

/-- All that `nextFrame` returned to a consumer: of every group of the track, in order, the first
frames (of skipped groups, none). -/
theorem c94_concat {tr : Trace} {s : State} (h : machine.Reach tr s) (c : Nat) :
    ∃ n : Nat → Nat, delivered tr c = (accepted tr).flatMap fun g =>
      ((content tr g).take (n g)).mapIdx fun k b => (g, k, b) := by
  obtain ⟨h1, h2, h3⟩ := c94_frames h c
  obtain ⟨g1, -⟩ := c94_groups h c
  refine ⟨fun g => ((delivered tr c).filter fun d => d.1 = g).length, ?_⟩
  have e := flatMap_filter (fun d : Nat × Nat × Bytes => d.1) (accepted tr) (delivered tr c)
    (h1.imp fun {a b} hab => by omega) (c94_accepted h)
    fun ⟨g, k, b⟩ hd => g1.subset (h2 g k b hd).2
  conv => lhs; rw [e]
  rw [List.flatMap_def, List.flatMap_def]
  congr 1
  apply List.map_congr_left
  intro g hg
  have hk : ∀ (i : Nat) (d : Nat × Nat × Bytes), ((delivered tr c).filter fun d => d.1 = g)[i]? = some d →
      d.1 = g ∧ i = d.2.1 ∧ (content tr g)[i]? = some d.2.2 := by
    intro i d hd
    have hmem := List.mem_of_getElem? hd
    rw [List.mem_filter] at hmem
    obtain ⟨hm, hdg⟩ := hmem
    have hdg : d.1 = g := by simpa using hdg
    have hi : i = d.2.1 := by
      refine counts_up (((delivered tr c).filter fun d => d.1 = g).map (·.2.1)) ?_ ?_ i _ ?_
      · rw [List.pairwise_map]
        refine List.Pairwise.imp_of_mem ?_ (h1.filter _)
        intro a b ha hb hab
        rw [List.mem_filter] at ha hb
        have := ha.2
        have := hb.2
        simp at *
        omega
      · intro k hk j hj
        rw [List.mem_map] at hk ⊢
        obtain ⟨x, hx, rfl⟩ := hk
        rw [List.mem_filter] at hx
        obtain ⟨b', hb'⟩ := h3 x.1 x.2.1 x.2.2 hx.1 j hj
        exact ⟨_, List.mem_filter.mpr ⟨hb', hx.2⟩, rfl⟩
      · rw [List.getElem?_map, hd]
        rfl
    refine ⟨hdg, hi, ?_⟩
    have := (h2 d.1 d.2.1 d.2.2 hm).1
    rwa [hdg, ← hi] at this
  apply List.ext_getElem?
  intro i
  rw [List.getElem?_mapIdx]
  cases hd : ((delivered tr c).filter fun d => d.1 = g)[i]? with
  | some d =>
    obtain ⟨k1, k2, k3⟩ := hk i d hd
    have hi := (List.getElem?_eq_some_iff.mp hd).1
    rw [List.getElem?_take_of_lt hi, k3]
    rw [Option.map_some, Option.some.injEq]
    rcases d with ⟨d1, d2, d3⟩
    simp only at k1 k2 ⊢
    rw [k1, k2]
  | none =>
    have hi := List.getElem?_eq_none_iff.mp hd
    rw [List.getElem?_eq_none_iff.mpr (by rw [List.length_take]; dsimp only; omega)]
    rfl

/-! ## The end -/

/-- The end is not reported before the track was closed, or the consumer; an exception means that
the track was aborted. -/
theorem c94_end {tr : Trace} {s : State} (h : machine.Reach tr s) (c : Nat) (op : Op)
    (hop : Call op c) :
    ((step s op).1 = .undefined → Closed tr c ∨ ending tr = some .close) ∧
    ((step s op).1 = .rejected → ending tr = some .abort) := by
  have key : ∀ u, s.subs[c]? = some u →
      (u.fetch = .done .undefined → Closed tr c ∨ ending tr = some .close) ∧
      (u.fetch = .done .rejected → ending tr = some .abort) := by
    intro u hu
    have hs := (inv_reach h).sub c u hu
    have hf := hs.fetch
    unfold FetchOk at hf
    constructor
    · intro e
      rw [e] at hf
      exact hf.imp hs.closed.mp fun x => (status_of h x : ending tr = endOp .closed)
    · intro e
      rw [e] at hf
      exact status_of h hf
  rcases hop with rfl | ⟨p, rfl⟩
  · rw [step]
    cases hu : s.subs[c]? with
    | none => simp [onSub, hu]
    | some u =>
      rw [onSub_out hu, nextGroup_out]
      obtain ⟨k1, k2⟩ := key u hu
      rcases hf : u.fetch with _ | x | ⟨g | _ | _⟩ <;> simp_all
  · rw [step]
    cases hu : s.subs[c]? with
    | none => simp [onSub, hu]
    | some u =>
      rw [onSub_out hu]
      obtain ⟨k1, k2⟩ := key u hu
      unfold nextFrame
      split
      · cases u.current <;> simp
      · split <;> simp
      · next hf => exact ⟨fun h => (by cases h), fun _ => k2 hf⟩
      · next hf => exact ⟨fun _ => k1 hf, fun h => (by cases h)⟩
      · simp

/-- A closed reader is given nothing more. -/
theorem c94_closed {tr : Trace} {s : State} (h : machine.Reach tr s) (c : Nat) (op : Op)
    (hop : Call op c) (hcl : Closed tr c) : (step s op).1 = .undefined := by
  have hlt : c < s.subs.length := Classical.byContradiction fun hn =>
    ((inv_reach h).fresh c (by omega)).2.2 hcl
  obtain ⟨u, hu⟩ : ∃ u, s.subs[c]? = some u := ⟨_, List.getElem?_eq_getElem hlt⟩
  have hs := (inv_reach h).sub c u hu
  obtain ⟨h1, h2⟩ := hs.shut (hs.closed.mpr hcl)
  rcases hop with rfl | ⟨p, rfl⟩
  · rw [step, onSub_out hu, nextGroup_out, h1]
  · rw [step, onSub_out hu]
    unfold nextFrame frameNow
    rw [h1, h2]
    cases p <;> rfl

/-- The current group is the last one the consumer was given. -/
theorem current_last {tr : Trace} {s : State} (h : machine.Reach tr s) (c : Nat) :
    (.nextGroup c, .undefined) ∉ tr → ∀ u, s.subs[c]? = some u → u.closed = false →
      u.current = (seen tr c).getLast? := by
  refine Machine.Reach.induct (M := machine) (P := fun tr s => (.nextGroup c, .undefined) ∉ tr →
    ∀ u, s.subs[c]? = some u → u.closed = false → u.current = (seen tr c).getLast?) ?_ ?_ h
  · intro _ u hu
    simp [init] at hu
  · intro tr s op hr ih hno u hu hcl
    have hno' : (.nextGroup c, .undefined) ∉ tr := fun h => hno (List.mem_append_left _ h)
    have hno2 : (op, (step s op).1) ≠ (.nextGroup c, .undefined) := fun h =>
      hno (List.mem_append_right _ (by rw [← h]; simp))
    have ih := ih hno'
    rw [seen_snoc]
    have hu : (step s op).2.subs[c]? = some u := hu
    have hmap : ∀ f : Sub → Sub, (∀ x, (f x).current = x.current ∧ (f x).closed = x.closed) →
        (s.subs.map f)[c]? = some u → u.current = (seen tr c).getLast? := by
      intro f hf hm
      obtain ⟨u', hu', rfl⟩ := map_get hm
      rw [(hf u').1]
      exact ih u' hu' ((hf u').2 ▸ hcl)
    have hadd : ∀ g o, (add s g o).2.subs[c]? = some u → u.current = (seen tr c).getLast? := by
      intro g o hm
      unfold add at hm
      split at hm
      · exact hmap (fun u => { u with fetch := u.fetch.settle (.value (some g.id)) })
          (fun _ => ⟨rfl, rfl⟩) hm
      · exact ih u hm hcl
    have hgrp : ∀ id f, (onGroup s id f).2.subs[c]? = some u →
        u.current = (seen tr c).getLast? := by
      intro id f hm
      unfold onGroup at hm
      split at hm
      · split at hm <;> exact ih u hm hcl
      · exact ih u hm hcl
    have hon : ∀ (d : Nat) (f : Sub → Out × Sub), (onSub s d f).2.subs[c]? = some u →
        d ≠ c → u.current = (seen tr c).getLast? := by
      intro d f hm hd
      unfold onSub at hm
      split at hm
      · dsimp only at hm
        rw [List.getElem?_set_ne hd] at hm
        exact ih u hm hcl
      · exact ih u hm hcl
    have hself : ∀ (f : Sub → Out × Sub), (onSub s c f).2.subs[c]? = some u →
        ∃ u', s.subs[c]? = some u' ∧ u = (f u').2 := by
      intro f hm
      unfold onSub at hm
      cases hx : s.subs[c]? with
      | none => rw [hx] at hm; dsimp only at hm; rw [hx] at hm; cases hm
      | some u' =>
        rw [hx] at hm
        dsimp only at hm
        rw [List.getElem?_set_self (List.getElem?_eq_some_iff.mp hx).1] at hm
        exact ⟨u', rfl, (Option.some.inj hm).symm⟩
    have hq : ∀ (d : Nat), d ≠ c → ∀ o, arrival c (.nextGroup d, o) = none ∧
        (∀ p, arrival c (.nextFrame d p, o) = none) := by
      intro d hd o
      cases o <;> simp [arrival, hd]
    have hcases : arrival c (op, (step s op).1) = none → u.current = (seen tr c).getLast? →
        u.current = (seen tr c ++ (arrival c (op, (step s op).1)).toList).getLast? := by
      intro h1 h2
      rw [h1]
      simpa using h2
    cases op with
    | append => exact hcases rfl (hadd _ _ hu)
    | insert id fs st =>
      refine hcases rfl ?_
      rw [step] at hu
      split at hu
      · exact ih u hu hcl
      · exact hadd _ _ hu
    | write id b => exact hcases rfl (hgrp _ _ hu)
    | closeGroup id => exact hcases rfl (hgrp _ _ hu)
    | abortGroup id => exact hcases rfl (hgrp _ _ hu)
    | close =>
      refine hcases rfl ?_
      rw [step] at hu
      split at hu
      · exact hmap (fun u => { u with fetch := u.fetch.settle (.value none) })
          (fun _ => ⟨rfl, rfl⟩) hu
      · exact ih u hu hcl
    | abort =>
      refine hcases rfl ?_
      rw [step] at hu
      split at hu
      · exact hmap (fun u => { u with fetch := u.fetch.settle (.value none) })
          (fun _ => ⟨rfl, rfl⟩) hu
      · exact ih u hu hcl
    | consume =>
      refine hcases rfl ?_
      rw [step] at hu
      dsimp only at hu
      rcases Nat.lt_trichotomy c s.subs.length with hlt | he | hgt
      · rw [List.getElem?_append_left hlt] at hu
        exact ih u hu hcl
      · subst he
        simp only [List.getElem?_concat_length, Option.some.injEq] at hu
        rw [← hu, (startFetch_same s _).2.1, ((inv_reach hr).fresh _ (Nat.le_refl _)).1]
        rfl
      · rw [List.getElem?_eq_none (by simp; omega)] at hu
        cases hu
    | run d =>
      refine hcases rfl ?_
      by_cases hd : d = c
      · subst hd
        obtain ⟨u', hu', rfl⟩ := hself _ hu
        have : (run s u').2.current = u'.current ∧ (run s u').2.closed = u'.closed := by
          unfold run
          split <;> exact ⟨rfl, rfl⟩
        rw [this.1]
        exact ih u' hu' (this.2 ▸ hcl)
      · exact hon _ _ hu hd
    | nextGroup d =>
      by_cases hd : d = c
      · subst hd
        obtain ⟨u', hu', rfl⟩ := hself _ hu
        have ho : (step s (.nextGroup d)).1 = (nextGroup s u').1 := by rw [step, onSub_out hu']
        rw [ho] at hno2 ⊢
        have := nextGroup_out s u'
        unfold nextGroup at hcl hno2 ⊢
        rcases hf : u'.fetch with _ | x | ⟨g | _ | _⟩ <;> rw [hf] at hcl hno2 <;> dsimp only at hcl ⊢
        · simpa [arrival] using ih u' hu' hcl
        · simpa [arrival] using ih u' hu' hcl
        · simp [arrival]
        · exact absurd rfl hno2
        · simpa [arrival] using ih u' hu' hcl
      · exact hcases (hq d hd _).1 (hon _ _ hu hd)
    | nextFrame d p =>
      by_cases hd : d = c
      · subst hd
        obtain ⟨u', hu', rfl⟩ := hself _ hu
        have ho : (step s (.nextFrame d p)).1 = (nextFrame s u' p).1 := by rw [step, onSub_out hu']
        rw [ho]
        have i := (inv_reach hr).sub d u' hu'
        revert hcl
        unfold nextFrame
        split
        · cases hc : u'.current with
          | none => intro hcl; simpa [arrival, hc] using ih u' hu' hcl
          | some g =>
            intro hcl
            have := ih u' hu' hcl
            rw [hc] at this
            simpa [arrival] using this
        · split
          · intro hcl
            have hsf := startFetch_same s u'
            dsimp only at hcl ⊢
            rw [hsf.1] at hcl
            rw [hsf.2.1]
            simpa [arrival] using ih u' hu' hcl
          · intro _
            simp [arrival]
        all_goals
          intro hcl
          simpa [arrival] using ih u' hu' hcl
      · exact hcases ((hq d hd _).2 p) (hon _ _ hu hd)
    | closeSub d =>
      refine hcases rfl ?_
      by_cases hd : d = c
      · subst hd
        obtain ⟨u', hu', rfl⟩ := hself _ hu
        cases hcl
      · exact hon _ _ hu hd

/-- All frames of the current group were delivered. -/
theorem all_delivered {tr : Trace} {s : State} (h : machine.Reach tr s) {c g : Nat} {u : Sub}
    (hu : s.subs[c]? = some u) (hc : u.current = some g) (hn : ∀ b, frameNow s u ≠ .data b) :
    (∀ k b, (content tr g)[k]? = some b → (g, k, b) ∈ delivered tr c) ∧
    (frameNow s u = .over → GroupEnded tr g) := by
  have i := inv_reach h
  have hs := i.sub c u hu
  have hmem := hs.acc g (List.mem_of_getLast? (hs.current g hc))
  obtain ⟨x, hx⟩ := find_of_mem hmem
  obtain ⟨hxm, hxi⟩ := find_mem hx
  have hfr := i.track.content x hxm
  rw [hxi] at hfr
  have hnone : x.frames[u.frame]? = none := by
    cases hb : x.frames[u.frame]? with
    | none => rfl
    | some b => exact absurd (by simp [frameNow, hc, hx, hb]) (hn b)
  constructor
  · intro k b hk
    have hlt : k < u.frame := by
      have h1 := (List.getElem?_eq_some_iff.mp hk).1
      have h2 := List.getElem?_eq_none_iff.mp hnone
      rw [hfr] at h2
      omega
    obtain ⟨b', hb'⟩ := hs.frames.full g hc k hlt
    have := ((c94_frames h c).2.1 g k b' hb').1
    rw [hk] at this
    cases this
    exact hb'
  · intro ho
    have : x.status ≠ .live := fun hl => by simp [frameNow, hc, hx, hnone, hl] at ho
    have := i.track.ended x hxm this
    rwa [hxi] at this

/-- When `nextFrame` reports the end, all frames of the last group the consumer came to were
returned, and that group has ended. -/
theorem c94_frames_end {tr : Trace} {s : State} (h : machine.Reach tr s) (c : Nat) (p : Pick)
    (hcl : ¬ Closed tr c) (hng : (.nextGroup c, .undefined) ∉ tr)
    (ho : (step s (.nextFrame c p)).1 = .undefined) (g : Nat)
    (hg : (seen tr c).getLast? = some g) :
    (∀ k b, (content tr g)[k]? = some b → (g, k, b) ∈ delivered tr c) ∧ GroupEnded tr g := by
  obtain ⟨u, hu⟩ := sub_of (s := s) (c := c) (f := fun u => nextFrame s u p)
    (fun h => by rw [step] at ho; rw [h] at ho; cases ho)
  have hs := (inv_reach h).sub c u hu
  have hcl' : u.closed = false := by
    cases hx : u.closed with
    | false => rfl
    | true => exact absurd (hs.closed.mp hx) hcl
  have hcur := current_last h c hng u hu hcl'
  rw [hg] at hcur
  have hover : frameNow s u = .over := by
    rw [step, onSub_out hu] at ho
    unfold nextFrame at ho
    split at ho
    · rw [hcur] at ho
      cases ho
    · split at ho <;> cases ho
    · cases ho
    · next hn _ => exact hn
    · cases ho
  have := all_delivered h hu hcur (by rw [hover]; simp)
  exact ⟨this.1, this.2 hover⟩

/-! ## The newest group -/

/-- A call of `nextGroup` that waits is not forgotten: neither the track nor the consumer has
ended. -/
theorem c94_waiting {tr : Trace} {s : State} (h : machine.Reach tr s) (c : Nat)
    (hp : (step s (.nextGroup c)).1 = .pending) (hq : Quiet s c) :
    ending tr = none ∧ ¬ Closed tr c := by
  obtain ⟨u, hu, hf⟩ := waits_fetch hp hq
  have hs := (inv_reach h).sub c u hu
  have hfo := hs.fetch
  unfold FetchOk at hfo
  rw [hf] at hfo
  refine ⟨status_of h hfo.2, fun hcl => ?_⟩
  have := (hs.shut (hs.closed.mpr hcl)).1
  rw [hf] at this
  cases this

/-- A group was taken since the fetch of the consumer last continued. -/
def dirty (c : Nat) (tr : Trace) : Bool :=
  tr.foldl (fun d e => if e.1 = .run c then false else if taken e = none then d else true) false

theorem dirty_snoc (c : Nat) (tr : Trace) (e : Op × Out) : dirty c (tr ++ [e]) =
    if e.1 = .run c then false else if taken e = none then dirty c tr else true := by
  unfold dirty
  rw [List.foldl_append]
  rfl

theorem accepted_one (e : Op × Out) : accepted [e] ≠ [] ↔ taken e ≠ none := by
  have := accepted_snoc [] e
  rw [List.nil_append] at this
  rw [this]
  cases taken e <;> simp [accepted]

theorem dirty_split {c : Nat} {tr : Trace} (hd : dirty c tr = true) :
    ∃ a x mid, tr = a ++ x :: mid ∧ accepted [x] ≠ [] ∧ ∀ o, (.run c, o) ∉ mid := by
  have key : ∀ l : Trace, dirty c l.reverse = true →
      ∃ a x mid, l.reverse = a ++ x :: mid ∧ accepted [x] ≠ [] ∧ ∀ o, (.run c, o) ∉ mid := by
    intro l
    induction l with
    | nil => intro h; cases h
    | cons e l ih =>
      intro h
      rw [List.reverse_cons, dirty_snoc] at h
      rw [List.reverse_cons]
      by_cases he : e.1 = .run c
      · simp [he] at h
      · rw [if_neg he] at h
        by_cases ht : taken e = none
        · rw [if_pos ht] at h
          obtain ⟨a, x, mid, h1, h2, h3⟩ := ih h
          refine ⟨a, x, mid ++ [e], by rw [h1]; simp, h2, fun o ho => ?_⟩
          rcases List.mem_append.mp ho with ho | ho
          · exact h3 o ho
          · simp only [List.mem_singleton] at ho
            rw [← ho] at he
            exact he rfl
        · exact ⟨l.reverse, e, [], rfl, (accepted_one e).mpr ht, fun o ho => (by cases ho)⟩
  have := key tr.reverse
  rw [List.reverse_reverse] at this
  exact this hd

theorem Prompt.init {tr : Trace} {e : Op × Out} {c : Nat} (h : Prompt (tr ++ [e]) c) :
    Prompt tr c := by
  intro a x mid y b ht h1 h2
  exact h a x mid y (b ++ [e]) (by rw [ht]; simp) h1 h2

theorem Prompt.clean {tr : Trace} {e : Op × Out} {c : Nat} (h : Prompt (tr ++ [e]) c)
    (he : taken e ≠ none) : dirty c tr = false := by
  cases hd : dirty c tr with
  | false => rfl
  | true =>
    obtain ⟨a, x, mid, h1, h2, h3⟩ := dirty_split hd
    obtain ⟨o, ho⟩ := h a x mid e [] (by rw [h1]) h2 ((accepted_one e).mpr he)
    exact absurd ho (h3 o)

/-- What a prompt consumer has. -/
def Newest (d : Bool) (epoch : Nat) (acc sn : List Nat) (u : Sub) : Prop :=
  match u.fetch with
  | .waiting => sn.getLast? = acc.getLast?
  | .ready (.value (some g)) => d = true ∧ acc.getLast? = some g
  | .done (.value g) => u.epoch = epoch + 1 → acc.getLast? = some g
  | _ => True

theorem newest_start {tr : Trace} {s : State} (i : GInv tr s) (d : Bool) (sn : List Nat) (u : Sub)
    (h1 : u.epoch ≤ s.epoch + 1)
    (h2 : u.epoch = s.epoch + 1 → s.status = .live → sn.getLast? = (accepted tr).getLast?)
    (h3 : s.latest = none → s.status = .live → sn = []) :
    Newest d s.epoch (accepted tr) sn (startFetch s u) := by
  have hw : ∀ v : Sub, (s.status = .live → sn.getLast? = (accepted tr).getLast?) →
      Newest d s.epoch (accepted tr) sn { v with fetch := wait s.status v.closed } := by
    intro v hv
    unfold Newest wait
    cases v.closed <;> cases hs : s.status <;> simp only [] <;> first | exact hv hs | trivial
  unfold startFetch
  split
  · trivial
  · split
    · have hl := i.latest
      cases hlat : s.latest with
      | some l =>
        intro _
        rw [hlat] at hl
        split at hl
        · exact hl.symm
        · cases hl
      | none =>
        refine hw { u with epoch := s.epoch + 1 } fun hs => ?_
        rw [hlat, if_pos hs] at hl
        rw [h3 hlat hs, ← hl]
        rfl
    · exact hw u (h2 (by omega))

theorem nextFrame_newest (s : State) (c : Nat) (p : Pick) {d : Bool} {epoch : Nat}
    {acc sn : List Nat} {u : Sub} (hn : Newest d epoch acc sn u)
    (ht : ∀ g, u.fetch = .done (.value g) → Newest d epoch acc (sn ++ [g])
      { startFetch s u with current := some g, frame := 0 })
    (hs : ∀ g, u.fetch = .done (.value g) → stale u g = false) :
    Newest d epoch acc (sn ++ (arrival c (.nextFrame c p, (nextFrame s u p).1)).toList)
      (nextFrame s u p).2 := by
  unfold nextFrame
  split
  · cases hc : u.current with
    | none => simpa [arrival] using hn
    | some g => simpa [arrival, Newest] using hn
  · next g hf =>
    rw [hs g hf]
    simpa [arrival] using ht g hf
  all_goals simpa [arrival] using hn

theorem newest_reach {tr : Trace} {s : State} (h : machine.Reach tr s) (c : Nat) :
    Prompt tr c → ∀ u, s.subs[c]? = some u →
      Newest (dirty c tr) s.epoch (accepted tr) (seen tr c) u := by
  refine Machine.Reach.induct (M := machine) (P := fun tr s => Prompt tr c →
    ∀ u, s.subs[c]? = some u → Newest (dirty c tr) s.epoch (accepted tr) (seen tr c) u) ?_ ?_ h
  · intro _ u hu
    simp [init] at hu
  · intro tr s op hr ih hpr u hu
    have ih := ih hpr.init
    have i := inv_reach hr
    have hu : (step s op).2.subs[c]? = some u := hu
    show Newest (dirty c (tr ++ [(op, (step s op).1)])) (step s op).2.epoch
      (accepted (tr ++ [(op, (step s op).1)])) (seen (tr ++ [(op, (step s op).1)]) c) u
    have hpr : Prompt (tr ++ [(op, (step s op).1)]) c := hpr
    -- nothing happened to the consumer
    have same : op ≠ .run c → taken (op, (step s op).1) = none →
        arrival c (op, (step s op).1) = none → (step s op).2.epoch = s.epoch →
        s.subs[c]? = some u →
        Newest (dirty c (tr ++ [(op, (step s op).1)])) (step s op).2.epoch
          (accepted (tr ++ [(op, (step s op).1)])) (seen (tr ++ [(op, (step s op).1)]) c) u := by
      intro h0 h1 h2 h3 h4
      rw [dirty_snoc, if_neg h0, if_pos h1, accepted_snoc, h1, seen_snoc, h2, h3]
      simpa using ih u h4
    have hep : ∀ d f, (onSub s d f).2.epoch = s.epoch := by
      intro d f
      unfold onSub
      split <;> rfl
    have hon : ∀ (d : Nat) (f : Sub → Out × Sub), (onSub s d f).2.subs[c]? = some u →
        d ≠ c → s.subs[c]? = some u := by
      intro d f hm hd
      unfold onSub at hm
      split at hm
      · dsimp only at hm
        rwa [List.getElem?_set_ne hd] at hm
      · exact hm
    have hself : ∀ (f : Sub → Out × Sub), (onSub s c f).2.subs[c]? = some u →
        ∃ u', s.subs[c]? = some u' ∧ u = (f u').2 := by
      intro f hm
      unfold onSub at hm
      cases hx : s.subs[c]? with
      | none => rw [hx] at hm; dsimp only at hm; rw [hx] at hm; cases hm
      | some u' =>
        rw [hx] at hm
        dsimp only at hm
        rw [List.getElem?_set_self (List.getElem?_eq_some_iff.mp hx).1] at hm
        exact ⟨u', rfl, (Option.some.inj hm).symm⟩
    -- a new group
    have hadd : ∀ g o, (step s op) = add s g o → op ≠ .run c → taken (op, o) = some g.id →
        taken (op, .threw) = none → (∀ o', arrival c (op, o') = none) →
        Newest (dirty c (tr ++ [(op, (step s op).1)])) (step s op).2.epoch
          (accepted (tr ++ [(op, (step s op).1)])) (seen (tr ++ [(op, (step s op).1)]) c) u := by
      intro g o he h0 h1 h2 h3
      by_cases hs : s.status = .live
      · rw [he] at hpr hu ⊢
        unfold add at hpr hu ⊢
        rw [if_pos hs] at hpr hu ⊢
        dsimp only at hpr hu ⊢
        have hcl := hpr.clean (by rw [h1]; simp)
        obtain ⟨u', hu', rfl⟩ := map_get hu
        have hn := ih u' hu'
        have hsi := i.sub c u' hu'
        rw [dirty_snoc, if_neg h0, if_neg (by rw [h1]; simp), accepted_snoc, h1, seen_snoc, h3]
        unfold Newest at hn ⊢
        rw [hcl] at hn
        dsimp only
        rcases hf : u'.fetch with _ | ⟨⟨_ | g'⟩ | _ | _⟩ | ⟨g' | _ | _⟩ <;> rw [hf] at hn <;>
          simp only [Fetch.settle]
        · simp
        · exact absurd hn.1 (by simp)
        · intro hee
          have := hsi.epoch
          have : u'.epoch = s.epoch + 1 + 1 := hee
          omega
      · have he' : (step s op) = (.threw, { s with next := g.id + 1 }) := by
          rw [he]
          unfold add
          rw [if_neg hs]
        refine same h0 (by rw [he']; exact h2) (h3 _) (by rw [he']) ?_
        rw [he'] at hu
        exact hu
    have hend : ∀ t, op ≠ .run c → (∀ o, taken (op, o) = none) →
        (∀ o', arrival c (op, o') = none) →
        step s op = (if s.status = .live then (.ok, { update s none with status := t }) else (.ok, s)) →
        Newest (dirty c (tr ++ [(op, (step s op).1)])) (step s op).2.epoch
          (accepted (tr ++ [(op, (step s op).1)])) (seen (tr ++ [(op, (step s op).1)]) c) u := by
      intro t h0 h1 h3 he
      by_cases hs : s.status = .live
      · rw [if_pos hs] at he
        rw [he] at hu ⊢
        dsimp only at hu ⊢
        obtain ⟨u', hu', rfl⟩ := map_get hu
        have hn := ih u' hu'
        have hsi := i.sub c u' hu'
        rw [dirty_snoc, if_neg h0, if_pos (h1 _), accepted_snoc, h1, seen_snoc, h3]
        unfold Newest at hn ⊢
        dsimp only
        rcases hf : u'.fetch with _ | ⟨⟨_ | g'⟩ | _ | _⟩ | ⟨g' | _ | _⟩ <;> rw [hf] at hn <;>
          simp only [Fetch.settle]
        · simpa using hn
        · intro hee
          have := hsi.epoch
          have : u'.epoch = s.epoch + 1 + 1 := hee
          omega
      · rw [if_neg hs] at he
        refine same h0 (h1 _) (h3 _) (by rw [he]) ?_
        rw [he] at hu
        exact hu
    have hgrp : ∀ id f, (onGroup s id f).2.subs = s.subs ∧ (onGroup s id f).2.epoch = s.epoch := by
      intro id f
      unfold onGroup
      split
      · split <;> exact ⟨rfl, rfl⟩
      · exact ⟨rfl, rfl⟩
    have htake : ∀ u' g, s.subs[c]? = some u' → u'.fetch = .done (.value g) →
        Newest (dirty c tr) s.epoch (accepted tr) (seen tr c ++ [g])
          { startFetch s u' with current := some g, frame := 0 } := by
      intro u' g hu' hf
      have hn := ih u' hu'
      have hsi := i.sub c u' hu'
      have hfo := hsi.fetch
      unfold Newest at hn
      unfold FetchOk at hfo
      rw [hf] at hn hfo
      refine newest_start i.track _ _ u' hsi.epoch (fun he _ => ?_) (fun hl hs => ?_)
      · rw [hn he]
        simp
      · have := i.track.latest
        rw [hl, if_pos hs] at this
        have hnil : accepted tr = [] := List.getLast?_eq_none_iff.mp this.symm
        have := hfo.1.1
        rw [i.track.ids, hnil] at this
        cases this
    cases op with
    | append => exact hadd ⟨s.next, [], .live⟩ _ rfl (by simp) rfl rfl fun _ => rfl
    | insert id fs st =>
      by_cases hid : id < s.next
      · have he : step s (.insert id fs st) = (.dropped, s) := by rw [step, if_pos hid]
        refine same (by simp) (by rw [he]; rfl) rfl (by rw [he]) ?_
        rw [he] at hu
        exact hu
      · exact hadd ⟨id, fs, st⟩ .ok (by rw [step, if_neg hid]) (by simp) rfl rfl fun _ => rfl
    | write id b =>
      refine same (by simp) (by cases (step s (.write id b)).1 <;> rfl) rfl (hgrp _ _).2 ?_
      rw [step, (hgrp _ _).1] at hu
      exact hu
    | closeGroup id =>
      refine same (by simp) rfl rfl (hgrp _ _).2 ?_
      rw [step, (hgrp _ _).1] at hu
      exact hu
    | abortGroup id =>
      refine same (by simp) rfl rfl (hgrp _ _).2 ?_
      rw [step, (hgrp _ _).1] at hu
      exact hu
    | close => exact hend .closed (by simp) (fun _ => rfl) (fun _ => rfl) rfl
    | abort => exact hend .aborted (by simp) (fun _ => rfl) (fun _ => rfl) rfl
    | consume =>
      rw [step] at hu
      dsimp only at hu
      rcases Nat.lt_trichotomy c s.subs.length with hlt | he | hgt
      · rw [List.getElem?_append_left hlt] at hu
        exact same (by simp) rfl rfl rfl hu
      · subst he
        simp only [List.getElem?_concat_length, Option.some.injEq] at hu
        have hsn := (i.fresh _ (Nat.le_refl _)).1
        rw [dirty_snoc, if_neg (by simp), if_pos (by rfl), accepted_snoc, seen_snoc, hsn, ← hu]
        have : Newest (dirty s.subs.length tr) s.epoch (accepted tr) []
            (startFetch s ⟨0, false, .waiting, none, 0⟩) := by
          refine newest_start i.track _ _ _ (Nat.zero_le _) (fun he _ => ?_) (fun _ _ => rfl)
          have : 0 = s.epoch + 1 := he
          omega
        simpa [taken, arrival, step] using this
      · rw [List.getElem?_eq_none (by simp; omega)] at hu
        cases hu
    | run d =>
      by_cases hd : d = c
      · subst hd
        rw [step] at hu ⊢
        obtain ⟨u', hu', rfl⟩ := hself _ hu
        have hn := ih u' hu'
        have hfo := (i.sub d u' hu').fetch
        have hacc : accepted (tr ++ [(.run d, (onSub s d (run s)).1)]) = accepted tr := by
          rw [accepted_snoc]
          simp [taken]
        have hsn : seen (tr ++ [(.run d, (onSub s d (run s)).1)]) d = seen tr d := by
          rw [seen_snoc]
          simp [arrival]
        rw [hacc, hsn, hep, dirty_snoc, if_pos rfl]
        unfold Newest at hn
        unfold FetchOk at hfo
        unfold run
        rcases hf : u'.fetch with _ | ⟨⟨_ | g'⟩ | _ | _⟩ | ⟨g' | _ | _⟩ <;> rw [hf] at hn hfo <;>
          unfold Newest <;> dsimp only
        · rw [hf]
          exact hn
        · unfold wait
          cases u'.closed <;> cases hs : s.status <;> simp only [] <;>
            first | exact absurd hs hfo | trivial
        · exact fun _ => hn.2
        · rw [hf]
          exact hn
        · rw [hf]
          trivial
        · rw [hf]
          trivial
      · refine same (by simp [hd]) rfl rfl (hep _ _) (hon _ _ hu hd)
    | nextGroup d =>
      by_cases hd : d = c
      · subst hd
        have hacc : accepted (tr ++ [(.nextGroup d, (step s (.nextGroup d)).1)]) = accepted tr := by
          rw [accepted_snoc]
          simp [taken]
        have ht : taken (.nextGroup d, (step s (.nextGroup d)).1) = none := rfl
        rw [hacc, dirty_snoc, if_neg (by simp), if_pos ht]
        rw [step] at hu ⊢
        obtain ⟨u', hu', rfl⟩ := hself _ hu
        have hn := ih u' hu'
        have hsi := i.sub d u' hu'
        have hfo := hsi.fetch
        unfold FetchOk at hfo
        rw [hep, onSub_out hu', seen_snoc]
        unfold nextGroup
        rcases hf : u'.fetch with _ | x | ⟨g' | _ | _⟩ <;> rw [hf] at hfo <;> dsimp only
        · simpa [arrival] using hn
        · simpa [arrival] using hn
        · simpa [arrival] using htake u' g' hu' hf
        · simp only [arrival, Option.toList_none, List.append_nil]
          have hnl : u'.closed = true ∨ s.status ≠ .live := hfo.imp_right fun e => by rw [e]; simp
          by_cases hcl : u'.closed = true
          · unfold Newest startFetch
            rw [if_pos hcl]
            trivial
          · have hs := hnl.resolve_left hcl
            exact newest_start i.track _ _ u' hsi.epoch (fun _ h => absurd h hs)
              (fun _ h => absurd h hs)
        · simpa [arrival] using hn
      · have hq : arrival c (.nextGroup d, (step s (.nextGroup d)).1) = none := by
          cases (step s (.nextGroup d)).1 <;> simp [arrival, hd]
        exact same (by simp) rfl hq (hep _ _) (hon _ _ hu hd)
    | nextFrame d p =>
      by_cases hd : d = c
      · subst hd
        have hacc : accepted (tr ++ [(.nextFrame d p, (step s (.nextFrame d p)).1)]) =
            accepted tr := by
          rw [accepted_snoc]
          simp [taken]
        have ht : taken (.nextFrame d p, (step s (.nextFrame d p)).1) = none := rfl
        rw [hacc, dirty_snoc, if_neg (by simp), if_pos ht]
        rw [step] at hu ⊢
        obtain ⟨u', hu', rfl⟩ := hself _ hu
        have hn := ih u' hu'
        have hsi := i.sub d u' hu'
        rw [hep, onSub_out hu', seen_snoc]
        refine nextFrame_newest s d p hn (fun g hf => htake u' g hu' hf) fun g hf => ?_
        have hfo := hsi.fetch
        unfold FetchOk at hfo
        rw [hf] at hfo
        unfold stale
        cases hc : u'.current with
        | none => rfl
        | some g' =>
          have := hfo.1.2 g' (List.mem_of_getLast? (hsi.current g' hc))
          simp
          omega
      · have hq : arrival c (.nextFrame d p, (step s (.nextFrame d p)).1) = none := by
          cases (step s (.nextFrame d p)).1 <;> simp [arrival, hd]
        exact same (by simp) rfl hq (hep _ _) (hon _ _ hu hd)
    | closeSub d =>
      by_cases hd : d = c
      · subst hd
        rw [step] at hu
        obtain ⟨u', hu', rfl⟩ := hself _ hu
        trivial
      · exact same (by simp) rfl rfl (hep _ _) (hon _ _ hu hd)

/-- **C94 (partial).**  A consumer that waits for a group has the newest one, if its fetch got to
continue between any two groups.  (The full property does not need the condition: see
`c94_burst`.) -/
theorem c94_newest_partial {tr : Trace} {s : State} (h : machine.Reach tr s) (c : Nat)
    (hpr : Prompt tr c) (hp : (step s (.nextGroup c)).1 = .pending) (hq : Quiet s c) :
    (seen tr c).getLast? = (accepted tr).getLast? := by
  obtain ⟨u, hu, hf⟩ := waits_fetch hp hq
  have := newest_reach h c hpr u hu
  unfold Newest at this
  rwa [hf] at this

/-- And a consumer that waits for a frame has all frames of the newest group, under the same
condition, while the track goes on. -/
theorem c94_frames_newest_partial {tr : Trace} {s : State} (h : machine.Reach tr s) (c : Nat)
    (hpr : Prompt tr c) (hp : FrameWaits s c) (hq : Quiet s c) (he : ending tr = none)
    (hcl : ¬ Closed tr c) (hng : (.nextGroup c, .undefined) ∉ tr) (g : Nat)
    (hg : (accepted tr).getLast? = some g) :
    (seen tr c).getLast? = some g ∧
    ∀ k b, (content tr g)[k]? = some b → (g, k, b) ∈ delivered tr c := by
  have i := inv_reach h
  obtain ⟨u, hu, hf⟩ := frameWaits_fetch hp hq fun u x x' hu hf hc => by
    have hs := i.sub c u hu
    have hfo := hs.fetch
    unfold FetchOk at hfo
    rw [hf] at hfo
    exact hfo.1.2 x' (List.mem_of_getLast? (hs.current x' hc))
  have hs := i.sub c u hu
  have hcl' : u.closed = false := by
    cases hx : u.closed with
    | false => rfl
    | true => exact absurd (hs.closed.mp hx) hcl
  have hcur := current_last h c hng u hu hcl'
  rcases hf with ⟨hf, hn⟩ | ⟨hf, -⟩
  · have hnew := newest_reach h c hpr u hu
    unfold Newest at hnew
    rw [hf] at hnew
    dsimp only at hnew
    rw [hg] at hnew
    rw [hnew] at hcur
    exact ⟨hnew, (all_delivered h hu hcur hn).1⟩
  · have hfo := hs.fetch
    unfold FetchOk at hfo
    rw [hf] at hfo
    rcases hfo with h1 | h1
    · rw [hcl'] at h1
      cases h1
    · have := status_of h h1
      rw [he] at this
      cases this

/-! ## Violations -/

/-- **Violation.**  Whenever a consumer waits, two groups appended at once make it skip the newer
one: it is given the older one of the two and then waits, without anything under way. -/
theorem c94_burst {tr : Trace} {s : State} (h : machine.Reach tr s) (c : Nat)
    (hp : (step s (.nextGroup c)).1 = .pending) (hq : Quiet s c) :
    ∃ g g' : Nat, g < g' ∧
      (machine.runFrom s [.append, .append, .run c, .nextGroup c, .nextGroup c]).1.map (·.2) =
        [.group g, .group g', .ok, .group g, .pending] ∧
      Quiet (machine.runFrom s [.append, .append, .run c, .nextGroup c, .nextGroup c]).2 c := by
  obtain ⟨u, hu, hf⟩ := waits_fetch hp hq
  have hs := (inv_reach h).sub c u hu
  have hfo := hs.fetch
  unfold FetchOk at hfo
  rw [hf] at hfo
  have hst := hfo.2
  have hcl : u.closed = false := by
    cases hx : u.closed with
    | false => rfl
    | true =>
      have := (hs.shut hx).1
      rw [hf] at this
      cases this
  have hlt : c < s.subs.length := (List.getElem?_eq_some_iff.mp hu).1
  have hne : ¬ s.epoch + 1 ≤ s.epoch := by omega
  have hget : s.subs[c] = u := (List.getElem?_eq_some_iff.mp hu).2
  refine ⟨s.next, s.next + 1, Nat.lt_succ_self _, ?_, ?_⟩
  · simp [hget, Machine.runFrom, step, add, hst, update, onSub, hf, hne, Fetch.settle, run, nextGroup,
      startFetch, hcl, wait, hlt]
  · simp [hget, Quiet, Machine.runFrom, step, add, hst, update, onSub, hf, hne, Fetch.settle, run, nextGroup,
      startFetch, hcl, wait, hlt]

/-- **Violation.**  The last group of a track is lost if the track is closed before the consumer has
asked for the group before it: the consumer is told that the track has ended. -/
theorem c94_end_lost : ∃ tr s, machine.Reach tr s ∧ Prompt tr 0 ∧ accepted tr = [0, 1] ∧
    seen tr 0 = [0] ∧ ending tr = some .close ∧ (step s (.nextGroup 0)).1 = .undefined := by
  refine ⟨_, _, machine.reach_run [.append, .consume, .run 0, .append, .close, .nextGroup 0, .run 0],
    ?_, by decide +kernel, by decide +kernel, by decide +kernel, by decide +kernel⟩
  have hl : (machine.run [.append, .consume, .run 0, .append, .close, .nextGroup 0, .run 0]).1 =
      [(.append, .group 0), (.consume, .sub 0), (.run 0, .invalid), (.append, .group 1),
        (.close, .ok), (.nextGroup 0, .group 0), (.run 0, .ok)] := by decide +kernel
  rw [hl]
  intro a x mid y b ht hx hy
  rcases a with _ | ⟨a0, _ | ⟨a1, _ | ⟨a2, _ | ⟨a3, a⟩⟩⟩⟩
  · refine ⟨.invalid, ?_⟩
    rcases mid with _ | ⟨m0, _ | ⟨m1, mid⟩⟩
    · simp at ht
      rw [← ht.2.1] at hy
      exact absurd rfl hy
    · simp at ht
      rw [← ht.2.2.1] at hy
      exact absurd rfl hy
    · simp at ht
      rw [← ht.2.2.1]
      simp
  · simp at ht
    rw [← ht.2.1] at hx
    exact absurd rfl hx
  · simp at ht
    rw [← ht.2.2.1] at hx
    exact absurd rfl hx
  · simp at ht
    exfalso
    have h4 := ht.2.2.2.2
    rcases mid with _ | ⟨m0, _ | ⟨m1, _ | ⟨m2, mid⟩⟩⟩ <;> simp at h4
    · rw [← h4.1] at hy
      exact hy rfl
    · rw [← h4.2.1] at hy
      exact hy rfl
    · rw [← h4.2.2.1] at hy
      exact hy rfl
  · simp at ht
    exfalso
    have h4 := ht.2.2.2.2
    rcases a with _ | ⟨a4, _ | ⟨a5, _ | ⟨a6, a⟩⟩⟩ <;> simp at h4
    · rw [← h4.1] at hx
      exact hx rfl
    · rw [← h4.2.1] at hx
      exact hx rfl

/-! ## Examples -/

/-- Frames of two groups, the rest of the first one skipped, and the end. -/
example : (machine.run [.append, .write 0 [1], .write 0 [2], .consume, .nextFrame 0 .frame,
      .nextFrame 0 .group, .nextFrame 0 .frame, .append, .write 1 [3], .run 0, .nextFrame 0 .group,
      .nextFrame 0 .frame, .closeGroup 1, .close, .run 0, .run 0, .nextFrame 0 .frame]).1.map (·.2) =
    [.group 0, .ok, .ok, .sub 0, .pending, .moved 0, .frame 0 0 [1], .group 1, .ok, .ok, .moved 1,
      .frame 1 0 [3], .ok, .ok, .ok, .ok, .undefined] := by decide +kernel

/-- A reader that waits for frames with everything read, as in `c94_frames_newest_partial`. -/
example : let r := machine.run [.append, .write 0 [1], .consume, .nextFrame 0 .group,
      .nextFrame 0 .frame]
    FrameWaits r.2 0 ∧ Quiet r.2 0 ∧ ending r.1 = none ∧ (accepted r.1).getLast? = some 0 ∧
      delivered r.1 0 = [(0, 0, [1])] := by
  refine ⟨fun p => ?_, by decide +kernel, by decide +kernel, by decide +kernel, by decide +kernel⟩
  cases p <;> decide +kernel

/-- A consumer that waits for groups, as in `c94_newest_partial` and `c94_burst`. -/
example : let r := machine.run [.consume, .insert 5 [] .live, .run 0, .nextGroup 0, .insert 3 [] .live]
    (step r.2 (.nextGroup 0)).1 = .pending ∧ Quiet r.2 0 ∧ seen r.1 0 = [5] ∧ accepted r.1 = [5] := by
  refine ⟨?_, ?_, ?_, ?_⟩ <;> decide +kernel

/-- A closed reader. -/
example : (machine.run [.append, .consume, .closeSub 0, .nextGroup 0, .nextFrame 0 .group]).1.map
      (·.2) = [.group 0, .sub 0, .ok, .undefined, .undefined] := by decide +kernel

end Verif.Props.JsTrack
