import Verif.Js.Subscriber

/-!
# Invariants of the consuming side of a connection in the browser
-/

set_option autoImplicit false

namespace Verif.Js.Subscriber

open Verif

theorem subscribes_snoc (tr : Trace) (op : Op) (o : Out) : subscribes (tr ++ [(op, o)]) =
    subscribes tr ++ (match op, o with
      | .subscribe b name, .subscribed _ _ => [(b, name)]
      | _, _ => []) := by
  unfold subscribes
  rw [List.filterMap_append]
  congr 1
  cases op <;> cases o <;> rfl

theorem paths_snoc (tr : Trace) (op : Op) (o : Out) : paths (tr ++ [(op, o)]) =
    (match op, o with
      | .consume path, .broadcast b _ =>
        if b < (paths tr).length then paths tr else paths tr ++ [path]
      | _, _ => paths tr) := by
  unfold paths
  rw [List.foldl_append, List.foldl_cons, List.foldl_nil]
  cases op <;> cases o <;> rfl

theorem mem_snoc (tr : Trace) (op op' : Op) (o o' : Out) :
    (op, o) ∈ tr ++ [(op', o')] ↔ (op, o) ∈ tr ∨ (op' = op ∧ o' = o) := by
  rw [List.mem_append, List.mem_singleton, Prod.mk.injEq]
  exact or_congr_right ⟨fun h => ⟨h.1.symm, h.2.symm⟩, fun h => ⟨h.1.symm, h.2.symm⟩⟩

/-! ## The map -/

theorem get_delete (m : List (Str × Nat)) (p q : Str) :
    get (delete m p) q = if p = q then none else get m q := by
  unfold get delete
  rw [List.find?_filter]
  by_cases h : p = q
  · subst h
    simp
  · rw [if_neg h]
    congr 2
    funext e
    by_cases he : e.1 = q
    · subst he
      have hne : ¬ e.1 = p := fun x => h x.symm
      simp [hne]
    · simp [he]

theorem get_put (m : List (Str × Nat)) (p q : Str) (b : Nat) :
    get (put m p b) q = if p = q then some b else get m q := by
  unfold put
  by_cases h : p = q
  · subst h
    simp [get]
  · have := get_delete m p q
    rw [if_neg h] at this ⊢
    rw [← this]
    simp [get, h]

/-! ## What holds of every history -/

/-- A subscription without its consumers. -/
structure Key where
  broadcast : Nat
  name : Str
  status : Status
  phase : Phase

def Sub.key (k : Sub) : Key := ⟨k.broadcast, k.name, k.status, k.phase⟩

def State.keys (s : State) : List Key := s.subs.map Sub.key

def Phase.isLost : Phase → Bool
  | .lost _ => true
  | _ => false

def Phase.isClean : Phase → Bool
  | .over c => c
  | .lost c => c
  | _ => false

/-- What a subscription has to do with the history. -/
structure KeyOk (tr : Trace) (i : Nat) (x : Key) : Prop where
  over : x.phase.isOver = true ↔ PeerEnded tr i ∨ Unsubscribed tr i
  lost : x.phase.isLost = true ↔ Failed tr i
  clean : x.phase.isClean = true ↔ Cleaned tr i
  live : x.status = .live ↔ x.phase.isOver = false
  aborted : x.status = .aborted ↔ (.peerEnd i true, .ok) ∈ tr
  closed : x.status = .closed ↔ (.peerEnd i false, .ok) ∈ tr ∨ Unsubscribed tr i

/-- The events of a subscription. -/
def Event (i : Nat) (e : Op × Out) : Prop :=
  (∃ f, e = (.peerEnd i f, .ok)) ∨ e = (.unsubscribe i, .unsubscribed) ∨ e = (.openFails i, .ok) ∨
    e = (.cleanup i, .ok)

theorem KeyOk.keep {tr : Trace} {i : Nat} {x : Key} (h : KeyOk tr i x) {e : Op × Out}
    (he : ¬ Event i e) : KeyOk (tr ++ [e]) i x := by
  obtain ⟨op, o⟩ := e
  unfold Event at he
  simp only [Prod.mk.injEq, not_or, not_exists, not_and] at he
  obtain ⟨h1, h2, h3, h4⟩ := he
  have p1 : PeerEnded (tr ++ [(op, o)]) i ↔ PeerEnded tr i := by
    unfold PeerEnded
    refine exists_congr fun f => ?_
    rw [mem_snoc]
    exact or_iff_left fun hx => h1 f hx.1 hx.2
  have p2 : Unsubscribed (tr ++ [(op, o)]) i ↔ Unsubscribed tr i := by
    unfold Unsubscribed
    rw [mem_snoc]
    exact or_iff_left fun hx => h2 hx.1 hx.2
  have p3 : Failed (tr ++ [(op, o)]) i ↔ Failed tr i := by
    unfold Failed
    rw [mem_snoc]
    exact or_iff_left fun hx => h3 hx.1 hx.2
  have p4 : Cleaned (tr ++ [(op, o)]) i ↔ Cleaned tr i := by
    unfold Cleaned
    rw [mem_snoc]
    exact or_iff_left fun hx => h4 hx.1 hx.2
  refine ⟨by rw [p1, p2]; exact h.over, by rw [p3]; exact h.lost, by rw [p4]; exact h.clean, h.live, ?_, ?_⟩
  · rw [mem_snoc, h.aborted]
    exact (or_iff_left fun hx => h1 true hx.1 hx.2).symm
  · rw [mem_snoc, p2, h.closed]
    exact or_congr_left (or_iff_left fun hx => h1 false hx.1 hx.2).symm

structure Base (tr : Trace) (s : State) : Prop where
  subs : subscribes tr = s.keys.map fun x => (x.broadcast, x.name)
  ok : ∀ i x, s.keys[i]? = some x → KeyOk tr i x
  fresh : ∀ i, s.keys.length ≤ i → ∀ e ∈ tr, ¬ Event i e

theorem keys_get (s : State) (i : Nat) : s.keys[i]? = s.subs[i]?.map Sub.key := by
  unfold State.keys
  rw [List.getElem?_map]

theorem keys_set (subs : List Sub) (i : Nat) (k : Sub) :
    (subs.set i k).map Sub.key = (subs.map Sub.key).set i k.key := by
  rw [List.map_set]

theorem set_same {α : Type} (l : List α) (i : Nat) (x : α) (h : l[i]? = some x) : l.set i x = l := by
  apply List.ext_getElem?
  intro j
  by_cases hj : j = i
  · subst hj
    rw [List.getElem?_set_self (List.getElem?_eq_some_iff.mp h).1, h]
  · rw [List.getElem?_set_ne (fun e => hj e.symm)]

theorem keys_set_same (subs : List Sub) (i : Nat) (k k' : Sub) (hk : subs[i]? = some k)
    (h : k'.key = k.key) : (subs.set i k').map Sub.key = subs.map Sub.key := by
  rw [keys_set, h]
  exact set_same _ _ _ (by rw [List.getElem?_map, hk]; rfl)

theorem keys_closeCached (subs : List Sub) (i : Nat) :
    (closeCached subs i).map Sub.key = subs.map Sub.key := by
  unfold closeCached
  apply List.ext_getElem?
  intro j
  rw [List.getElem?_map, List.getElem?_map, List.getElem?_modify]
  cases subs[j]? with
  | none => rfl
  | some k => by_cases h : i = j <;> simp [h, Sub.key]

theorem keys_foldl (l : List (Str × Nat)) (subs : List Sub) :
    (l.foldl (fun subs e => closeCached subs e.2) subs).map Sub.key = subs.map Sub.key := by
  induction l generalizing subs with
  | nil => rfl
  | cons x l ih => rw [List.foldl_cons, ih, keys_closeCached]

theorem keys_removeTrack (s : State) (b : Nat) (name : Str) : (removeTrack s b name).keys = s.keys := by
  unfold removeTrack
  split
  · split
    · rfl
    · unfold State.keys
      dsimp only
      split
      · exact keys_closeCached _ _
      · rfl
  · rfl

/-- A step that is an event of no subscription. -/
theorem base_keep {tr : Trace} {s s' : State} (i : Base tr s) {e : Op × Out}
    (hk : s'.keys = s.keys) (he : ∀ j, ¬ Event j e)
    (hs : subscribes (tr ++ [e]) = subscribes tr) : Base (tr ++ [e]) s' := by
  refine ⟨by rw [hs, hk]; exact i.subs, ?_, ?_⟩
  · intro j x hx
    rw [hk] at hx
    exact (i.ok j x hx).keep (he j)
  · intro j hj e' he'
    rw [hk] at hj
    rcases List.mem_append.mp he' with he' | he'
    · exact i.fresh j hj e' he'
    · rw [List.mem_singleton] at he'
      subst he'
      exact he j

/-- An event of the subscription `i`. -/
theorem base_event {tr : Trace} {s s' : State} (h : Base tr s) (i : Nat) (x : Key) {e : Op × Out}
    (hi : i < s.keys.length) (hk : s'.keys = s.keys.set i x)
    (hx : ∀ y, s.keys[i]? = some y → y.broadcast = x.broadcast ∧ y.name = x.name)
    (he : ∀ j, j ≠ i → ¬ Event j e) (hs : subscribes (tr ++ [e]) = subscribes tr)
    (hok : KeyOk (tr ++ [e]) i x) : Base (tr ++ [e]) s' := by
  refine ⟨?_, ?_, ?_⟩
  · rw [hs, hk, List.map_set, h.subs]
    refine (set_same _ _ _ ?_).symm
    rw [List.getElem?_map, List.getElem?_eq_getElem hi]
    obtain ⟨h1, h2⟩ := hx _ (List.getElem?_eq_getElem hi)
    simp [h1, h2]
  · intro j y hy
    rw [hk] at hy
    by_cases hj : j = i
    · subst hj
      rw [List.getElem?_set_self hi] at hy
      cases hy
      exact hok
    · rw [List.getElem?_set_ne (fun e => hj e.symm)] at hy
      exact (h.ok j y hy).keep (he j hj)
  · intro j hj e' he'
    rw [hk, List.length_set] at hj
    rcases List.mem_append.mp he' with he' | he'
    · exact h.fresh j hj e' he'
    · rw [List.mem_singleton] at he'
      subst he'
      exact he j (by omega)

theorem no_events {tr : Trace} {i : Nat} (h : ∀ e ∈ tr, ¬ Event i e) :
    ¬ PeerEnded tr i ∧ ¬ Unsubscribed tr i ∧ ¬ Failed tr i ∧ ¬ Cleaned tr i :=
  ⟨fun ⟨f, hf⟩ => h _ hf (.inl ⟨f, rfl⟩), fun hx => h _ hx (.inr (.inl rfl)),
    fun hx => h _ hx (.inr (.inr (.inl rfl))), fun hx => h _ hx (.inr (.inr (.inr rfl)))⟩

theorem base_step {tr : Trace} {s : State} (h : Base tr s) (op : Op) :
    Base (tr ++ [(op, (step s op).1)]) (step s op).2 := by
  have same : ∀ (op : Op) (o : Out) (s' : State), s'.keys = s.keys →
      (∀ j, ¬ Event j (op, o)) → (∀ b n i c, ¬ (op = .subscribe b n ∧ o = .subscribed i c)) →
      Base (tr ++ [(op, o)]) s' := by
    intro op o s' hk he hs
    refine base_keep h hk he ?_
    rw [subscribes_snoc]
    split
    · exact absurd ⟨rfl, rfl⟩ (hs _ _ _ _)
    · simp
  have inv : ∀ op : Op, Base (tr ++ [(op, .invalid)]) s := fun op =>
    same op .invalid s rfl (by intro j; simp [Event]) (by simp)
  have sset : ∀ {i : Nat} {k k' : Sub}, s.subs[i]? = some k → k'.key = k.key →
      ({ s with subs := s.subs.set i k' } : State).keys = s.keys := fun hk he =>
    keys_set_same _ _ _ _ hk he
  -- an event
  have ev : ∀ (op : Op) (o : Out) (i : Nat) (k : Sub) (s' : State) (x : Key), s.subs[i]? = some k →
      s'.keys = s.keys.set i x → k.broadcast = x.broadcast → k.name = x.name →
      (∀ j, j ≠ i → ¬ Event j (op, o)) → (∀ b n, op ≠ .subscribe b n) →
      KeyOk (tr ++ [(op, o)]) i x → Base (tr ++ [(op, o)]) s' := by
    intro op o i k s' x hk hs' h1 h2 he hs hok
    refine base_event h i x ?_ hs' ?_ he ?_ hok
    · unfold State.keys
      rw [List.length_map]
      exact (List.getElem?_eq_some_iff.mp hk).1
    · intro y hy
      rw [keys_get, hk] at hy
      cases hy
      exact ⟨h1, h2⟩
    · rw [subscribes_snoc]
      split
      · exact absurd rfl (hs _ _)
      · simp
  have hok : ∀ {i : Nat} {k : Sub}, s.subs[i]? = some k → KeyOk tr i k.key := fun {i k} hk =>
    h.ok i k.key (by rw [keys_get, hk]; rfl)
  cases op with
  | consume path =>
    rw [step]
    split
    · split
      · exact same _ _ _ rfl (by intro j; simp [Event]) (by simp)
      · exact inv _
    · exact same _ _ _ rfl (by intro j; simp [Event]) (by simp)
  | closeBroadcast b c =>
    rw [step]
    split
    · split
      · exact same _ _ _ rfl (by intro j; simp [Event]) (by simp)
      · exact inv _
    · exact inv _
  | subscribe b name =>
    rw [step]
    split
    · split
      · split
        · rename_i k hk
          exact same _ _ _ (sset hk rfl) (by intro j; simp [Event]) (by simp)
        · exact inv _
      · split
        · exact same _ _ _ rfl (by intro j; simp [Event]) (by simp)
        · have hkeys : ∀ brs, ({ s with
              brs := brs
              subs := s.subs ++ [⟨b, name, Subscriber.fresh, .live, .asked⟩] } : State).keys =
              s.keys ++ [⟨b, name, .live, .asked⟩] := by
            intro brs
            simp [State.keys, Sub.key]
          have hne : ∀ j, ¬ Event j (.subscribe b name, .subscribed s.subs.length 0) := by
            intro j
            simp [Event]
          refine ⟨?_, ?_, ?_⟩
          · rw [hkeys, subscribes_snoc, h.subs]
            simp
          · intro j x hx
            rw [hkeys] at hx
            rcases Nat.lt_trichotomy j s.keys.length with hlt | rfl | hgt
            · rw [List.getElem?_append_left hlt] at hx
              exact (h.ok j x hx).keep (hne j)
            · simp only [List.getElem?_concat_length, Option.some.injEq] at hx
              subst hx
              refine KeyOk.keep ?_ (hne _)
              obtain ⟨n1, n2, n3, n4⟩ := no_events (h.fresh _ (Nat.le_refl _))
              refine ⟨?_, ?_, ?_, ?_, ?_, ?_⟩
              · simp [Phase.isOver, n1, n2]
              · simp [Phase.isLost, n3]
              · simp [Phase.isClean, n4]
              · simp [Phase.isOver]
              · simp only [reduceCtorEq, false_iff]
                exact fun hm => n1 ⟨true, hm⟩
              · simp only [reduceCtorEq, false_iff, not_or]
                exact ⟨fun hm => n1 ⟨false, hm⟩, n2⟩
            · rw [List.getElem?_eq_none (by simp; omega)] at hx
              cases hx
          · intro j hj e he
            rw [hkeys, List.length_append] at hj
            rcases List.mem_append.mp he with he | he
            · exact h.fresh j (by omega) e he
            · rw [List.mem_singleton] at he
              subst he
              exact hne j
    · exact inv _
  | clone i =>
    rw [step]
    split
    · rename_i k hk
      exact same _ _ _ (sset hk rfl) (by intro j; simp [Event]) (by simp)
    · exact inv _
  | closeTrack i c =>
    rw [step]
    split
    · rename_i k hk
      split
      · exact same _ _ _ (sset hk rfl) (by intro j; simp [Event]) (by simp)
      · exact inv _
    · exact inv _
  | answer i =>
    rw [step]
    split
    · rename_i k hk
      split
      · rename_i ha
        refine ev _ _ i k _ ⟨k.broadcast, k.name, k.status, .running k.watch.calls.length⟩ hk ?_ rfl rfl
          (by intro j _; simp [Event]) (by simp) ?_
        · exact keys_set _ _ _
        · have := (hok hk).keep (e := (.answer i, .ok)) (by simp [Event])
          unfold Sub.key at this
          rw [ha] at this
          exact ⟨this.over, this.lost, this.clean, this.live, this.aborted, this.closed⟩
      · exact inv _
    · exact inv _
  | peerEnd i failed =>
    have fin : ∀ k, s.subs[i]? = some k → k.phase.isOver = false → k.phase.isClean = false →
        k.phase.isLost = false → Base (tr ++ [(.peerEnd i failed, .ok)]) (finish s i k failed) := by
      intro k hk ho hcl hlo
      have o := hok hk
      have a1 := o.over
      have a2 := o.lost
      have a3 := o.clean
      have a4 := o.aborted
      have a5 := o.live
      simp only [Sub.key, ho, hcl, hlo, Bool.false_eq_true, false_iff, not_or, iff_true] at a1 a2 a3 a4 a5
      refine ev _ _ i k _ ⟨k.broadcast, k.name, if failed then .aborted else .closed, .over false⟩ hk
        (keys_set _ _ _) rfl rfl ?_ (by simp) ⟨?_, ?_, ?_, ?_, ?_, ?_⟩
      · intro j hj
        simp [Event, fun e => hj (Eq.symm e)]
        exact fun e => absurd e.symm hj
      · simp only [Phase.isOver, true_iff]
        exact .inl ⟨failed, by simp⟩
      · simp only [Phase.isLost, Bool.false_eq_true, false_iff]
        unfold Failed
        rw [mem_snoc]
        simp
        exact a2
      · simp only [Phase.isClean, Bool.false_eq_true, false_iff]
        unfold Cleaned
        rw [mem_snoc]
        simp
        exact a3
      · cases failed <;> simp [Phase.isOver]
      · rw [mem_snoc, ← a4, a5]
        cases failed <;> simp
      · have n1 : (.peerEnd i false, .ok) ∉ tr := fun hm => a1.1 ⟨false, hm⟩
        have n2 := a1.2
        unfold Unsubscribed at n2 ⊢
        rw [mem_snoc, mem_snoc]
        cases failed <;> simp [n1, n2]
    rw [step]
    split
    · rename_i k hk
      split
      · rename_i hp
        exact fin k hk (by rw [hp]; rfl) (by rw [hp]; rfl) (by rw [hp]; rfl)
      · rename_i hp
        exact fin k hk (by rw [hp]; rfl) (by rw [hp]; rfl) (by rw [hp]; rfl)
      · exact inv _
    · exact inv _
  | openFails i =>
    rw [step]
    split
    · rename_i k hk
      split
      · rename_i ha
        have o := hok hk
        have a1 := o.over
        have a3 := o.clean
        have a4 := o.aborted
        have a5 := o.live
        simp only [Sub.key, ha, Phase.isOver, Phase.isClean, Bool.false_eq_true, false_iff, not_or,
          iff_true] at a1 a3 a4 a5
        refine ev _ _ i k _ ⟨k.broadcast, k.name, k.status, .lost false⟩ hk (keys_set _ _ _) rfl rfl
          ?_ (by simp) ⟨?_, ?_, ?_, ?_, ?_, ?_⟩
        · intro j hj
          simp [Event]
          exact fun e => hj e.symm
        · simp only [Phase.isOver, Bool.false_eq_true, false_iff, not_or]
          constructor
          · rintro ⟨f, hf⟩
            rw [mem_snoc] at hf
            simp at hf
            exact a1.1 ⟨f, hf⟩
          · unfold Unsubscribed
            rw [mem_snoc]
            simp
            exact a1.2
        · simp only [Phase.isLost, true_iff]
          unfold Failed
          rw [mem_snoc]
          exact .inr ⟨rfl, rfl⟩
        · simp only [Phase.isClean, Bool.false_eq_true, false_iff]
          unfold Cleaned
          rw [mem_snoc]
          simp
          exact a3
        · simp [Phase.isOver, a5]
        · rw [mem_snoc, ← a4, a5]
          simp
        · have n1 : (.peerEnd i false, .ok) ∉ tr := fun hm => a1.1 ⟨false, hm⟩
          have n2 := a1.2
          unfold Unsubscribed at n2 ⊢
          rw [mem_snoc, mem_snoc]
          simp [n1, n2, a5]
      · exact inv _
    · exact inv _
  | cleanup i =>
    have fin : ∀ k (ph : Phase), s.subs[i]? = some k → ph.isOver = k.phase.isOver →
        ph.isLost = k.phase.isLost → ph.isClean = true →
        Base (tr ++ [(.cleanup i, .ok)])
          (removeTrack { s with subs := s.subs.set i { k with phase := ph } } k.broadcast k.name) := by
      intro k ph hk ho hlo hcl
      have o := hok hk
      refine ev _ _ i k _ ⟨k.broadcast, k.name, k.status, ph⟩ hk ?_ rfl rfl ?_ (by simp)
        ⟨?_, ?_, ?_, ?_, ?_, ?_⟩
      · rw [keys_removeTrack]
        exact keys_set _ _ _
      · intro j hj
        simp [Event]
        exact fun e => hj e.symm
      · have a := o.over
        unfold Sub.key at a
        dsimp only at a ⊢
        rw [ho, a]
        unfold PeerEnded Unsubscribed
        simp only [mem_snoc]
        simp
      · have a := o.lost
        unfold Sub.key at a
        dsimp only at a ⊢
        rw [hlo, a]
        unfold Failed
        simp only [mem_snoc]
        simp
      · dsimp only
        unfold Cleaned
        rw [hcl, mem_snoc]
        simp
      · dsimp only
        rw [ho]
        exact o.live
      · rw [mem_snoc]
        simp
        exact o.aborted
      · unfold Unsubscribed
        rw [mem_snoc, mem_snoc]
        simp
        exact o.closed
    rw [step]
    split
    · rename_i k hk
      split
      · rename_i hp
        exact fin k _ hk (by rw [hp]; rfl) (by rw [hp]; rfl) rfl
      · rename_i hp
        exact fin k _ hk (by rw [hp]; rfl) (by rw [hp]; rfl) rfl
      · exact inv _
    · exact inv _
  | unsubscribe i =>
    rw [step]
    split
    · rename_i k hk
      split
      · rename_i call hp
        split
        · have o := hok hk
          have a1 := o.over
          have a2 := o.lost
          have a3 := o.clean
          have a4 := o.aborted
          have a5 := o.live
          simp only [Sub.key, hp, Phase.isOver, Phase.isClean, Phase.isLost, Bool.false_eq_true,
            false_iff, not_or, iff_true] at a1 a2 a3 a4 a5
          refine ev _ _ i k _ ⟨k.broadcast, k.name, .closed, .over false⟩ hk
            (keys_set _ _ _) rfl rfl ?_ (by simp) ⟨?_, ?_, ?_, ?_, ?_, ?_⟩
          · intro j hj
            simp [Event]
            exact fun e => hj e.symm
          · simp only [Phase.isOver, true_iff]
            refine .inr ?_
            unfold Unsubscribed
            simp
          · simp only [Phase.isLost, Bool.false_eq_true, false_iff]
            unfold Failed
            rw [mem_snoc]
            simp
            exact a2
          · simp only [Phase.isClean, Bool.false_eq_true, false_iff]
            unfold Cleaned
            rw [mem_snoc]
            simp
            exact a3
          · simp [Phase.isOver]
          · rw [mem_snoc, ← a4, a5]
            simp
          · unfold Unsubscribed
            simp
        · exact inv _
      · exact inv _
    · exact inv _
  | dropBroadcast b =>
    rw [step]
    split
    · split
      · exact same _ _ _ (keys_foldl _ _) (by intro j; simp [Event]) (by simp)
      · exact inv _
    · exact inv _
  | group i =>
    rw [step]
    split
    · split
      · exact same _ _ _ rfl (by intro j; simp [Event]) (by simp)
      · exact same _ _ _ rfl (by intro j; simp [Event]) (by simp)
    · exact same _ _ _ rfl (by intro j; simp [Event]) (by simp)
  | status i =>
    rw [step]
    split
    · exact same _ _ _ rfl (by intro j; simp [Event]) (by simp)
    · exact inv _

theorem base_reach {tr : Trace} {s : State} (h : machine.Reach tr s) : Base tr s :=
  Machine.Reach.induct (M := machine) (P := Base)
    ⟨rfl, fun i x hx => by simp [State.keys, init] at hx, fun i _ e he => by cases he⟩
    (fun _ _ op _ i => base_step i op) h

/-! ## What holds if no consumer is closed twice -/

/-- The count of a producer whose cached consumer is open. -/
structure WOk (w : Unused.State) : Prop where
  promises : w.promises = [.resolved, .pending]
  count : w.consumers = (w.handles.countP (· = false) : Nat)
  cached : w.handles[1]? = some false
  calls : ∀ g ∈ w.calls, g = 1

theorem wok_fresh : WOk fresh := by
  refine ⟨rfl, rfl, rfl, fun g hg => ?_⟩
  have : fresh.calls = [] := rfl
  rw [this] at hg
  cases hg

theorem wok_pos {w : Unused.State} (h : WOk w) : 1 ≤ w.consumers := by
  rw [h.count]
  have : 0 < w.handles.countP (· = false) :=
    List.countP_pos_iff.mpr ⟨false, List.mem_of_getElem? h.cached, by simp⟩
  omega

theorem wok_consume {w : Unused.State} (h : WOk w) : WOk (upd w .consume) := by
  have hp := wok_pos h
  unfold upd
  rw [Unused.step]
  refine ⟨?_, ?_, ?_, h.calls⟩
  · dsimp only
    rw [if_neg (by omega), h.promises]
  · dsimp only
    rw [List.countP_append, h.count]
    simp
  · dsimp only
    rw [List.getElem?_append_left (List.getElem?_eq_some_iff.mp h.cached).1, h.cached]

theorem wok_unused {w : Unused.State} (h : WOk w) : WOk (upd w .unused) := by
  unfold upd
  rw [Unused.step]
  refine ⟨h.promises, h.count, h.cached, fun g hg => ?_⟩
  dsimp only at hg
  rcases List.mem_append.mp hg with hg | hg
  · exact h.calls g hg
  · rw [h.promises] at hg
    simpa using hg

theorem wok_close {w : Unused.State} (h : WOk w) {c : Nat} (hc : w.handles[c]? = some false)
    (h1 : c ≠ 1) : WOk (upd w (.closeHandle c)) := by
  obtain ⟨hlt, hcf⟩ := List.getElem?_eq_some_iff.mp hc
  have hcached : (w.handles.set c true)[1]? = some false := by
    rw [List.getElem?_set_ne h1, h.cached]
  have hcount : w.consumers - 1 = ((w.handles.set c true).countP (· = false) : Nat) := by
    have hp : 0 < w.handles.countP (· = false) :=
      List.countP_pos_iff.mpr ⟨false, List.mem_of_getElem? hc, by simp⟩
    rw [List.countP_set hlt, if_pos (by simp [hcf]), if_neg (by simp), h.count]
    omega
  have hp : 0 < (w.handles.set c true).countP (· = false) :=
    List.countP_pos_iff.mpr ⟨false, List.mem_of_getElem? hcached, by simp⟩
  unfold upd
  rw [Unused.step, if_pos hlt]
  refine ⟨?_, hcount, hcached, h.calls⟩
  dsimp only
  rw [if_neg (by omega), h.promises]

/-- No call of `unused` returns. -/
theorem wok_pending {w : Unused.State} (h : WOk w) {call : Nat} (hc : call < w.calls.length) :
    isUnused w call = false := by
  unfold isUnused
  rw [Unused.step, List.getElem?_eq_getElem hc]
  have := h.calls _ (List.getElem_mem hc)
  rw [this, h.promises]
  rfl

theorem handles_consume (w : Unused.State) : (upd w .consume).handles = w.handles ++ [false] := rfl

theorem handles_unused (w : Unused.State) : (upd w .unused).handles = w.handles := rfl

theorem handles_close (w : Unused.State) {c : Nat} (hc : c < w.handles.length) :
    (upd w (.closeHandle c)).handles = w.handles.set c true := by
  unfold upd
  rw [Unused.step, if_pos hc]

/-- The subscription is running. -/
def Phase.active : Phase → Bool
  | .asked => true
  | .running _ => true
  | _ => false

/-- The consumers that are closed were closed by the application. -/
def Shut (tr : Trace) (mk : Nat → Op) (w : Unused.State) : Prop :=
  ∀ c : Nat, w.handles[c]? = some true → (mk c, .ok) ∈ tr

structure SubOk (tr : Trace) (brs : List Br) (i : Nat) (k : Sub) : Prop where
  watch : k.phase.active = true → WOk k.watch ∧ Shut tr (.closeTrack i) k.watch
  call : ∀ call, k.phase = .running call → call < k.watch.calls.length
  entry : k.phase.isClean = false → ∃ r, brs[k.broadcast]? = some r ∧ get r.tracks k.name = some i

structure BrOk (tr : Trace) (s : State) (b : Nat) (r : Br) : Prop where
  live : r.closed = false
  watch : WOk r.watch
  shut : Shut tr (.closeBroadcast b) r.watch
  calls : 0 < r.watch.calls.length
  table : get s.table r.path = some b
  tracks : ∀ name i, get r.tracks name = some i →
    ∃ k, s.subs[i]? = some k ∧ k.broadcast = b ∧ k.name = name ∧ k.phase.isClean = false

structure TInv (tr : Trace) (s : State) : Prop where
  sub : ∀ (i : Nat) k, s.subs[i]? = some k → SubOk tr s.brs i k
  br : ∀ (b : Nat) r, s.brs[b]? = some r → BrOk tr s b r
  table : ∀ p b, get s.table p = some b → ∃ r, s.brs[b]? = some r ∧ r.path = p
  paths : paths tr = s.brs.map (·.path)

theorem tidy_prefix {tr : Trace} {e : Op × Out} (h : Tidy (tr ++ [e])) : Tidy tr := by
  constructor
  · intro i c
    have := h.1 i c
    rw [List.count_append] at this
    omega
  · intro b c
    have := h.2 b c
    rw [List.count_append] at this
    omega

theorem Shut.mono {tr : Trace} {mk : Nat → Op} {w : Unused.State} (h : Shut tr mk w) (e : Op × Out) :
    Shut (tr ++ [e]) mk w := fun c hc => List.mem_append_left _ (h c hc)

theorem Shut.consume {tr : Trace} {mk : Nat → Op} {w : Unused.State} (h : Shut tr mk w) :
    Shut tr mk (upd w .consume) := by
  intro c hc
  rw [handles_consume, List.getElem?_append] at hc
  split at hc
  · exact h c hc
  · rw [List.getElem?_singleton] at hc
    split at hc <;> simp at hc

theorem Shut.close {tr : Trace} {mk : Nat → Op} {w : Unused.State} (h : Shut tr mk w) (c : Nat)
    (hc : c < w.handles.length) : Shut (tr ++ [(mk c, .ok)]) mk (upd w (.closeHandle c)) := by
  intro c' hc'
  rw [handles_close w hc] at hc'
  by_cases he : c' = c
  · subst he
    simp
  · rw [List.getElem?_set_ne (fun e => he e.symm)] at hc'
    exact List.mem_append_left _ (h c' hc')

theorem Shut.fresh (tr : Trace) (mk : Nat → Op) : Shut tr mk fresh := by
  intro c hc
  have : Subscriber.fresh.handles = [false, false] := rfl
  rw [this] at hc
  have := List.mem_of_getElem? hc
  simp at this

theorem SubOk.mono {tr : Trace} {brs : List Br} {i : Nat} {k : Sub} (h : SubOk tr brs i k)
    (e : Op × Out) : SubOk (tr ++ [e]) brs i k :=
  ⟨fun ha => ⟨(h.watch ha).1, (h.watch ha).2.mono e⟩, h.call, h.entry⟩

theorem BrOk.mono {tr : Trace} {s : State} {b : Nat} {r : Br} (h : BrOk tr s b r)
    (e : Op × Out) : BrOk (tr ++ [e]) s b r :=
  ⟨h.live, h.watch, h.shut.mono e, h.calls, h.table, h.tracks⟩

/-- The history grows, and nothing changes. -/
theorem tinv_same {tr : Trace} {s : State} (h : TInv tr s) (op : Op) (o : Out)
    (hp : Subscriber.paths (tr ++ [(op, o)]) = Subscriber.paths tr) : TInv (tr ++ [(op, o)]) s :=
  ⟨fun i k hk => (h.sub i k hk).mono _, fun b r hr => (h.br b r hr).mono _, h.table,
    by rw [hp]; exact h.paths⟩

/-- A step on one subscription that keeps its broadcast, its name and whether it is clean. -/
theorem tinv_sub {tr : Trace} {s : State} (h : TInv tr s) (op : Op) (o : Out) {i : Nat} {k k' : Sub}
    (hp : Subscriber.paths (tr ++ [(op, o)]) = Subscriber.paths tr)
    (hk : s.subs[i]? = some k) (hb : k'.broadcast = k.broadcast) (hn : k'.name = k.name)
    (hc : k'.phase.isClean = k.phase.isClean)
    (hw : k'.phase.active = true → WOk k'.watch ∧ Shut (tr ++ [(op, o)]) (.closeTrack i) k'.watch)
    (hcall : ∀ call, k'.phase = .running call → call < k'.watch.calls.length) :
    TInv (tr ++ [(op, o)]) { s with subs := s.subs.set i k' } := by
  have hlt := (List.getElem?_eq_some_iff.mp hk).1
  refine ⟨?_, ?_, h.table, by rw [hp]; exact h.paths⟩
  · intro j x hx
    dsimp only at hx
    by_cases hj : j = i
    · subst hj
      rw [List.getElem?_set_self hlt] at hx
      cases hx
      refine ⟨hw, hcall, ?_⟩
      rw [hc, hb, hn]
      exact (h.sub j k hk).entry
    · rw [List.getElem?_set_ne (fun e => hj e.symm)] at hx
      exact (h.sub j x hx).mono _
  · intro b r hr
    have x := h.br b r hr
    refine ⟨x.live, x.watch, x.shut.mono _, x.calls, x.table, ?_⟩
    intro name j hj
    obtain ⟨y, hy, y1, y2, y3⟩ := x.tracks name j hj
    by_cases hji : j = i
    · subst hji
      rw [hk] at hy
      cases hy
      exact ⟨k', List.getElem?_set_self hlt, by rw [hb, y1], by rw [hn, y2], by rw [hc, y3]⟩
    · exact ⟨y, by dsimp only; rw [List.getElem?_set_ne (fun e => hji e.symm)]; exact hy, y1, y2, y3⟩

/-- A step on the count of one broadcast. -/
theorem tinv_br {tr : Trace} {s : State} (h : TInv tr s) (op : Op) (o : Out) {b : Nat} {r : Br}
    {w : Unused.State} (hp : Subscriber.paths (tr ++ [(op, o)]) = Subscriber.paths tr)
    (hr : s.brs[b]? = some r) (hw : WOk w) (hs : Shut (tr ++ [(op, o)]) (.closeBroadcast b) w)
    (hc : 0 < w.calls.length) :
    TInv (tr ++ [(op, o)]) { s with brs := s.brs.set b { r with watch := w } } := by
  have hlt := (List.getElem?_eq_some_iff.mp hr).1
  refine ⟨?_, ?_, ?_, ?_⟩
  · intro j x hx
    have y := h.sub j x hx
    refine ⟨(y.mono _).watch, y.call, fun hcl => ?_⟩
    obtain ⟨q, hq, hq'⟩ := y.entry hcl
    dsimp only
    by_cases hb : x.broadcast = b
    · rw [hb] at hq ⊢
      rw [hr] at hq
      cases hq
      exact ⟨_, List.getElem?_set_self hlt, hq'⟩
    · exact ⟨q, by rw [List.getElem?_set_ne (fun e => hb e.symm)]; exact hq, hq'⟩
  · intro b' r' hr'
    dsimp only at hr'
    by_cases hb : b' = b
    · subst hb
      rw [List.getElem?_set_self hlt] at hr'
      cases hr'
      have x := h.br b' r hr
      exact ⟨x.live, hw, hs, hc, x.table, x.tracks⟩
    · rw [List.getElem?_set_ne (fun e => hb e.symm)] at hr'
      have x := (h.br b' r' hr').mono (op, o)
      exact ⟨x.live, x.watch, x.shut, x.calls, x.table, x.tracks⟩
  · intro p b' hb'
    obtain ⟨q, hq, hqp⟩ := h.table p b' hb'
    dsimp only
    by_cases hb : b' = b
    · subst hb
      rw [hr] at hq
      cases hq
      exact ⟨_, List.getElem?_set_self hlt, hqp⟩
    · exact ⟨q, by rw [List.getElem?_set_ne (fun e => hb e.symm)]; exact hq, hqp⟩
  · rw [hp, h.paths]
    dsimp only
    rw [List.map_set]
    exact (set_same _ _ _ (by rw [List.getElem?_map, hr]; rfl)).symm

/-- A consumer that was closed before is not closed again. -/
theorem open_of_tidy {tr : Trace} {mk : Nat → Op} {w : Unused.State} (h : Shut tr mk w) {c : Nat}
    (hlt : c < w.handles.length) (hc : (tr ++ [(mk c, Out.ok)]).count (mk c, .ok) ≤ 1) :
    w.handles[c]? = some false := by
  rw [List.getElem?_eq_getElem hlt]
  cases hx : w.handles[c] with
  | false => rfl
  | true =>
    have hm := h c (by rw [List.getElem?_eq_getElem hlt, hx])
    rw [List.count_append] at hc
    have := List.count_pos_iff.mpr hm
    simp at hc
    omega

theorem active_clean {p : Phase} (h : p.active = true) : p.isClean = false := by
  cases p <;> first | rfl | cases h

theorem tinv_cleanup {tr : Trace} {s : State} (h : TInv tr s) {i : Nat} {k : Sub} {ph : Phase}
    (hk : s.subs[i]? = some k) (hd : k.phase.isClean = false) (hph : ph.isClean = true)
    (op : Op) (o : Out) (hp : Subscriber.paths (tr ++ [(op, o)]) = Subscriber.paths tr) :
    TInv (tr ++ [(op, o)])
      (removeTrack { s with subs := s.subs.set i { k with phase := ph } } k.broadcast k.name) := by
  have hlt := (List.getElem?_eq_some_iff.mp hk).1
  obtain ⟨r, hr, hg⟩ := (h.sub i k hk).entry hd
  have hblt := (List.getElem?_eq_some_iff.mp hr).1
  have x := h.br _ r hr
  have hactive : ph.active = false := by
    cases ha : ph.active with
    | false => rfl
    | true => rw [active_clean ha] at hph; cases hph
  have hnorun : ∀ call, ph ≠ .running call := by
    rintro call rfl
    cases hactive
  -- the result
  have e : removeTrack { s with subs := s.subs.set i { k with phase := ph } } k.broadcast k.name =
      { s with
        brs := s.brs.set k.broadcast { r with tracks := delete r.tracks k.name }
        subs := s.subs.set i { k with phase := ph, watch := upd k.watch (.closeHandle 1) } } := by
    unfold removeTrack
    simp only [hr, x.live, hg, Bool.false_eq_true, if_false]
    congr 1
    unfold closeCached
    apply List.ext_getElem?
    intro j
    rw [List.getElem?_modify]
    by_cases hj : j = i
    · subst hj
      rw [List.getElem?_set_self hlt, List.getElem?_set_self hlt]
      simp
    · rw [List.getElem?_set_ne (fun e => hj e.symm), List.getElem?_set_ne (fun e => hj e.symm)]
      have : ¬ i = j := fun e => hj e.symm
      simp [this]
  rw [e]
  refine ⟨?_, ?_, ?_, ?_⟩
  · intro j y hy
    dsimp only at hy
    by_cases hj : j = i
    · subst hj
      rw [List.getElem?_set_self hlt] at hy
      cases hy
      refine ⟨fun ha => ?_, fun call hc => absurd hc (hnorun call), fun hc => ?_⟩
      · rw [hactive] at ha
        cases ha
      · dsimp only at hc
        rw [hph] at hc
        cases hc
    · rw [List.getElem?_set_ne (fun e => hj e.symm)] at hy
      have z := h.sub j y hy
      refine ⟨(z.mono _).watch, z.call, fun hc => ?_⟩
      obtain ⟨q, hq, hq'⟩ := z.entry hc
      dsimp only
      by_cases hb : y.broadcast = k.broadcast
      · rw [hb] at hq ⊢
        rw [hr] at hq
        cases hq
        refine ⟨_, List.getElem?_set_self hblt, ?_⟩
        dsimp only
        rw [get_delete]
        rw [if_neg]
        · exact hq'
        · intro en
          rw [← en, hg] at hq'
          cases hq'
          exact hj rfl
      · exact ⟨q, by rw [List.getElem?_set_ne (fun e => hb e.symm)]; exact hq, hq'⟩
  · have keep : ∀ b r', s.brs[b]? = some r' → ∀ tracks,
        (∀ name j, get tracks name = some j → get r'.tracks name = some j) →
        (b = k.broadcast → get tracks k.name = none) →
        BrOk (tr ++ [(op, o)]) { s with
          brs := s.brs.set k.broadcast { r with tracks := delete r.tracks k.name }
          subs := s.subs.set i { k with phase := ph, watch := upd k.watch (.closeHandle 1) } } b
          { r' with tracks := tracks } := by
      intro b r' hr' tracks ht hno
      have z := h.br b r' hr'
      refine ⟨z.live, z.watch, z.shut.mono _, z.calls, z.table, ?_⟩
      intro name j hj
      obtain ⟨y, hy, y1, y2, y3⟩ := z.tracks name j (ht name j hj)
      by_cases hji : j = i
      · subst hji
        rw [hk] at hy
        cases hy
        have := hno y1.symm
        rw [y2] at this
        dsimp only at hj
        rw [this] at hj
        cases hj
      · exact ⟨y, by dsimp only; rw [List.getElem?_set_ne (fun e => hji e.symm)]; exact hy, y1, y2, y3⟩
    intro b r' hr'
    dsimp only at hr'
    by_cases hb : b = k.broadcast
    · subst hb
      rw [List.getElem?_set_self hblt] at hr'
      cases hr'
      refine keep _ r hr (delete r.tracks k.name) ?_ ?_
      · intro name j hj
        rw [get_delete] at hj
        split at hj
        · cases hj
        · exact hj
      · intro _
        rw [get_delete, if_pos rfl]
    · rw [List.getElem?_set_ne (fun e => hb e.symm)] at hr'
      exact keep b r' hr' r'.tracks (fun _ _ h => h) (fun e => absurd e hb)
  · intro p b hb
    obtain ⟨q, hq, hqp⟩ := h.table p b hb
    dsimp only
    by_cases he : b = k.broadcast
    · subst he
      rw [hr] at hq
      cases hq
      exact ⟨_, List.getElem?_set_self hblt, hqp⟩
    · exact ⟨q, by rw [List.getElem?_set_ne (fun e => he e.symm)]; exact hq, hqp⟩
  · rw [hp, h.paths]
    dsimp only
    rw [List.map_set]
    exact (set_same _ _ _ (by rw [List.getElem?_map, hr]; rfl)).symm

theorem tinv_step {tr : Trace} {s : State} (h : TInv tr s) (op : Op)
    (ht : Tidy (tr ++ [(op, (step s op).1)])) : TInv (tr ++ [(op, (step s op).1)]) (step s op).2 := by
  have pth : ∀ (op : Op) (o : Out), (∀ p, op ≠ .consume p) →
      Subscriber.paths (tr ++ [(op, o)]) = Subscriber.paths tr := by
    intro op o hne
    rw [paths_snoc]
    split
    · exact absurd rfl (hne _)
    · rfl
  have inv : ∀ op : Op, TInv (tr ++ [(op, .invalid)]) s := fun op =>
    tinv_same h op .invalid (by
      rw [paths_snoc]
      split
      · rename_i hx
        cases hx
      · rfl)
  cases op with
  | consume path =>
    rw [step] at ht ⊢
    split
    · rename_i b hb
      obtain ⟨r, hr, hrp⟩ := h.table path b hb
      rw [hr]
      have x := h.br b r hr
      refine tinv_br h _ _ ?_ hr (wok_consume x.watch) (Shut.consume (x.shut.mono _)) x.calls
      rw [paths_snoc]
      dsimp only
      rw [if_pos]
      rw [h.paths, List.length_map]
      exact (List.getElem?_eq_some_iff.mp hr).1
    · rename_i hb
      refine ⟨?_, ?_, ?_, ?_⟩
      · intro j x hx
        have y := (h.sub j x hx).mono (.consume path, .broadcast s.brs.length 0)
        refine ⟨y.watch, y.call, fun hc => ?_⟩
        obtain ⟨q, hq, hq'⟩ := y.entry hc
        exact ⟨q, by
          dsimp only
          rw [List.getElem?_append_left (List.getElem?_eq_some_iff.mp hq).1]
          exact hq, hq'⟩
      · intro b r hr
        dsimp only at hr
        rw [List.getElem?_append] at hr
        split at hr
        · have x := (h.br b r hr).mono (.consume path, .broadcast s.brs.length 0)
          refine ⟨x.live, x.watch, x.shut, x.calls, ?_, x.tracks⟩
          dsimp only
          rw [get_put, if_neg]
          · exact x.table
          · intro e
            have := x.table
            rw [← e, hb] at this
            cases this
        · rw [List.getElem?_singleton] at hr
          split at hr
          · rename_i h1 h2
            have hbl : b = s.brs.length := by omega
            subst hbl
            cases hr
            refine ⟨rfl, wok_unused wok_fresh, Shut.fresh _ _, Nat.one_pos, ?_, ?_⟩
            · dsimp only
              rw [get_put, if_pos rfl]
            · intro name i hi
              simp [get] at hi
          · cases hr
      · intro p b hb'
        dsimp only at hb' ⊢
        rw [get_put] at hb'
        split at hb'
        · rename_i e
          cases hb'
          exact ⟨_, by rw [List.getElem?_concat_length], e⟩
        · obtain ⟨q, hq, hqp⟩ := h.table p b hb'
          exact ⟨q, by
            rw [List.getElem?_append_left (List.getElem?_eq_some_iff.mp hq).1]
            exact hq, hqp⟩
      · rw [paths_snoc]
        dsimp only
        rw [h.paths, List.length_map, if_neg (by omega)]
        simp
  | closeBroadcast b c =>
    rw [step] at ht ⊢
    split
    · rename_i r hr
      rw [hr] at ht
      dsimp only at ht
      split
      · rename_i hc
        rw [if_pos hc] at ht
        have x := h.br b r hr
        have ho := open_of_tidy x.shut hc.1 (ht.2 b c)
        refine tinv_br h _ _ (pth _ _ (by simp)) hr (wok_close x.watch ho hc.2)
          (Shut.close x.shut c hc.1) ?_
        have : (upd r.watch (.closeHandle c)).calls = r.watch.calls := by
          unfold upd
          rw [Unused.step, if_pos hc.1]
        rw [this]
        exact x.calls
      · exact inv _
    · exact inv _
  | subscribe b name =>
    rw [step] at ht ⊢
    split
    · rename_i r hr
      have x := h.br b r hr
      have hblt := (List.getElem?_eq_some_iff.mp hr).1
      split
      · rename_i i hi
        split
        · rename_i k hk
          have y := h.sub i k hk
          refine tinv_sub h _ _ (pth _ _ (by simp)) hk rfl rfl rfl ?_ y.call
          intro ha
          exact ⟨wok_consume (y.watch ha).1, Shut.consume ((y.watch ha).2.mono _)⟩
        · exact inv _
      · rename_i hno
        rw [if_neg (by rw [x.live]; simp)]
        refine ⟨?_, ?_, ?_, ?_⟩
        · intro j y hy
          dsimp only at hy
          rw [List.getElem?_append] at hy
          split at hy
          · have z := (h.sub j y hy).mono (.subscribe b name, .subscribed s.subs.length 0)
            refine ⟨z.watch, z.call, fun hc => ?_⟩
            obtain ⟨q, hq, hq'⟩ := z.entry hc
            dsimp only
            by_cases hb : y.broadcast = b
            · rw [hb] at hq ⊢
              rw [hr] at hq
              cases hq
              refine ⟨_, List.getElem?_set_self hblt, ?_⟩
              dsimp only
              rw [get_put, if_neg]
              · exact hq'
              · intro e
                rw [← e, hno] at hq'
                cases hq'
            · exact ⟨q, by rw [List.getElem?_set_ne (fun e => hb e.symm)]; exact hq, hq'⟩
          · rw [List.getElem?_singleton] at hy
            split at hy
            · have hjl : j = s.subs.length := by omega
              subst hjl
              cases hy
              refine ⟨fun _ => ⟨wok_fresh, Shut.fresh _ _⟩, fun _ hc => (by cases hc), fun _ => ?_⟩
              refine ⟨_, List.getElem?_set_self hblt, ?_⟩
              dsimp only
              rw [get_put, if_pos rfl]
            · cases hy
        · have old : ∀ b' r', s.brs[b']? = some r' → ∀ name' j, get r'.tracks name' = some j →
              ∃ k, (s.subs ++ [(⟨b, name, Subscriber.fresh, .live, .asked⟩ : Sub)])[j]? = some k ∧
                k.broadcast = b' ∧ k.name = name' ∧ k.phase.isClean = false := by
            intro b' r' hr' name' j hj
            obtain ⟨y, hy, y'⟩ := (h.br b' r' hr').tracks name' j hj
            exact ⟨y, by
              rw [List.getElem?_append_left (List.getElem?_eq_some_iff.mp hy).1]
              exact hy, y'⟩
          intro b' r' hr'
          dsimp only at hr'
          by_cases hb : b' = b
          · subst hb
            rw [List.getElem?_set_self hblt] at hr'
            cases hr'
            refine ⟨x.live, x.watch, x.shut.mono _, x.calls, x.table, ?_⟩
            intro name' j hj
            dsimp only at hj ⊢
            rw [get_put] at hj
            split at hj
            · rename_i e
              cases hj
              subst e
              exact ⟨_, by rw [List.getElem?_concat_length], rfl, rfl, rfl⟩
            · exact old b' r hr name' j hj
          · rw [List.getElem?_set_ne (fun e => hb e.symm)] at hr'
            have z := (h.br b' r' hr').mono (.subscribe b name, .subscribed s.subs.length 0)
            exact ⟨z.live, z.watch, z.shut, z.calls, z.table, old b' r' hr'⟩
        · intro p b' hb'
          obtain ⟨q, hq, hqp⟩ := h.table p b' hb'
          dsimp only
          by_cases hb : b' = b
          · subst hb
            rw [hr] at hq
            cases hq
            exact ⟨_, List.getElem?_set_self hblt, hqp⟩
          · exact ⟨q, by rw [List.getElem?_set_ne (fun e => hb e.symm)]; exact hq, hqp⟩
        · rw [pth _ _ (by simp), h.paths]
          dsimp only
          rw [List.map_set]
          exact (set_same _ _ _ (by rw [List.getElem?_map, hr]; rfl)).symm
    · exact inv _
  | clone i =>
    rw [step]
    split
    · rename_i k hk
      have y := h.sub i k hk
      refine tinv_sub h _ _ (pth _ _ (by simp)) hk rfl rfl rfl ?_ y.call
      intro ha
      exact ⟨wok_consume (y.watch ha).1, Shut.consume ((y.watch ha).2.mono _)⟩
    · exact inv _
  | closeTrack i c =>
    rw [step] at ht ⊢
    split
    · rename_i k hk
      rw [hk] at ht
      dsimp only at ht
      split
      · rename_i hc
        rw [if_pos hc] at ht
        have y := h.sub i k hk
        refine tinv_sub h _ _ (pth _ _ (by simp)) hk rfl rfl rfl ?_ ?_
        · intro ha
          have ho := open_of_tidy (y.watch ha).2 hc.1 (ht.1 i c)
          exact ⟨wok_close (y.watch ha).1 ho hc.2, Shut.close (y.watch ha).2 c hc.1⟩
        · have : (upd k.watch (.closeHandle c)).calls = k.watch.calls := by
            unfold upd
            rw [Unused.step, if_pos hc.1]
          dsimp only
          rw [this]
          exact y.call
      · exact inv _
    · exact inv _
  | answer i =>
    rw [step]
    split
    · rename_i k hk
      split
      · rename_i ha
        have y := h.sub i k hk
        have hw := y.watch (by rw [ha]; rfl)
        refine tinv_sub h _ _ (pth _ _ (by simp)) hk rfl rfl (by rw [ha]; rfl) ?_ ?_
        · intro _
          exact ⟨wok_unused hw.1, fun c hc => hw.2.mono _ c (by rwa [handles_unused] at hc)⟩
        · intro call hc
          simp only [Phase.running.injEq] at hc
          subst hc
          simp [upd, Unused.step]
      · exact inv _
    · exact inv _
  | peerEnd i failed =>
    have fin : ∀ k, s.subs[i]? = some k → k.phase.isClean = false →
        TInv (tr ++ [(.peerEnd i failed, .ok)]) (finish s i k failed) := by
      intro k hk hc
      exact tinv_sub h _ _ (pth _ _ (by simp)) hk rfl rfl (by rw [hc]; rfl)
        (fun ha => by cases ha) (fun _ hc => by cases hc)
    rw [step]
    split
    · rename_i k hk
      split
      · rename_i hp
        exact fin k hk (by rw [hp]; rfl)
      · rename_i hp
        exact fin k hk (by rw [hp]; rfl)
      · exact inv _
    · exact inv _
  | openFails i =>
    rw [step]
    split
    · rename_i k hk
      split
      · rename_i ha
        exact tinv_sub h _ _ (pth _ _ (by simp)) hk rfl rfl (by rw [ha]; rfl)
          (fun ha => by cases ha) (fun _ hc => by cases hc)
      · exact inv _
    · exact inv _
  | cleanup i =>
    rw [step]
    split
    · rename_i k hk
      split
      · rename_i hp
        exact tinv_cleanup h hk (by rw [hp]; rfl) rfl _ _ (pth _ _ (by simp))
      · rename_i hp
        exact tinv_cleanup h hk (by rw [hp]; rfl) rfl _ _ (pth _ _ (by simp))
      · exact inv _
    · exact inv _
  | unsubscribe i =>
    rw [step]
    split
    · rename_i k hk
      split
      · rename_i call hp
        have y := h.sub i k hk
        rw [wok_pending (y.watch (by rw [hp]; rfl)).1 (y.call call hp)]
        exact inv _
      · exact inv _
    · exact inv _
  | dropBroadcast b =>
    rw [step]
    split
    · rename_i r hr
      have x := h.br b r hr
      rw [wok_pending x.watch x.calls, if_neg (by simp)]
      exact inv _
    · exact inv _
  | group i =>
    rw [step]
    split
    · exact tinv_same h _ _ (pth _ _ (by simp))
    · exact tinv_same h _ _ (pth _ _ (by simp))
  | status i =>
    rw [step]
    split
    · exact tinv_same h _ _ (pth _ _ (by simp))
    · exact inv _

theorem tinv_reach {tr : Trace} {s : State} (h : machine.Reach tr s) (ht : Tidy tr) : TInv tr s := by
  refine Machine.Reach.induct (M := machine) (P := fun tr s => Tidy tr → TInv tr s) ?_ ?_ h ht
  · intro _
    exact ⟨fun i k hk => by simp [init] at hk, fun b r hr => by simp [init] at hr,
      fun p b hb => by simp [init, get] at hb, rfl⟩
  · intro tr s op _ ih ht
    exact tinv_step (ih (tidy_prefix ht)) op ht

end Verif.Js.Subscriber
