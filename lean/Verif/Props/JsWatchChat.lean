import Verif.Js.WatchChat

/-!
# C130: watching a chat
-/

set_option autoImplicit false

namespace Verif.Props.JsWatchChat

open Verif Verif.Js.WatchChat

/-! ## Specification -/

/-- What is known from the history. -/
structure Hist where
  created : Bool
  closed : Bool
  enabled : Bool
  sec : Option Section
  broadcast : Option Nat
  /-- what was wanted when the chat was created -/
  start : Option Target
  /-- the open subscriptions, oldest first -/
  opened : List (Nat × Target)

/-- The track that is to be subscribed to. -/
def wanted (h : Hist) : Option Target :=
  match h.enabled && !h.closed, h.sec, h.broadcast with
  | true, some c, some b => some ⟨b, c.name, c.priority⟩
  | _, _, _ => none

/-- What the application asks for. -/
def ask (h : Hist) : Op → Hist
  | .create e c b =>
    if h.created then h
    else
      let h' := { h with created := true, enabled := e, sec := c, broadcast := b }
      { h' with start := wanted h' }
  | .setEnabled e => if h.created then { h with enabled := e } else h
  | .setCatalog c => if h.created then { h with sec := c } else h
  | .setBroadcast b => if h.created then { h with broadcast := b } else h
  | .close => if h.created then { h with closed := true } else h
  | _ => h

def event (l : List (Nat × Target)) : Event → List (Nat × Target)
  | .subscribe i t => l ++ [(i, t)]
  | .closed i => l.filter (·.1 ≠ i)

def see (h : Hist) (e : Op × Out) : Hist :=
  match e.2 with
  | .events l => { ask h e.1 with opened := l.foldl event h.opened }
  | _ => ask h e.1

def hist (tr : Trace) : Hist := tr.foldl see ⟨false, false, false, none, none, none, []⟩

theorem hist_snoc (tr : Trace) (e : Op × Out) : hist (tr ++ [e]) = see (hist tr) e := by simp [hist]

/-! ## Invariant -/

variable {tr : Trace} {s : State}

structure Inv (h : Hist) (s : State) : Prop where
  created : h.created = s.created
  closed : h.closed = s.closed
  enabled : h.enabled = s.enabled
  sec : h.sec = s.root
  broadcast : h.broadcast = s.broadcast
  opened : h.opened = s.first.toList ++ s.cur.toList
  fresh : s.created = false → s = init ∧ h.start = none
  over : s.closed = true → s.first = none ∧ s.cur = none
  catalog : s.closed = false → s.catalog = if s.enabled then s.root else none
  first : s.closed = false → s.first.map (·.2) = h.start
  cur : s.closed = false → s.cur.map (·.2) = wanted h
  track : s.closed = false → s.track = s.cur.map (·.1)
  lt1 : ∀ i t, s.first = some (i, t) → i < s.count
  lt2 : ∀ i t, s.cur = some (i, t) → i < s.count
  ne : ∀ i t j u, s.first = some (i, t) → s.cur = some (j, u) → i ≠ j

theorem wanted_subscribe {h : Hist} {s : State} (h1 : h.enabled = s.enabled) (h2 : h.closed = false) (h3 : h.sec = s.root)
    (h4 : h.broadcast = s.broadcast) (hc : s.catalog = if s.enabled then s.root else none) :
    (subscribe s).map (·.2) = wanted h := by
  unfold subscribe wanted
  rw [h1, h2, h3, h4, hc]
  cases s.enabled <;> cases s.root <;> cases s.broadcast <;> rfl

theorem subscribe_fst {i : Nat} {t : Target} (h : subscribe s = some (i, t)) : i = s.count ∧ used (subscribe s) = 1 := by
  have hu : used (subscribe s) = 1 := by rw [h]; rfl
  unfold subscribe at h
  split at h
  · cases h
  · split at h
    · cases h
    · cases h
      exact ⟨rfl, hu⟩

theorem fold_opens (l : List (Nat × Target)) (r : Option (Nat × Target)) : (opens r).foldl event l = l ++ r.toList := by
  cases r <;> simp [opens, event]

theorem fold_closes {f c : Option (Nat × Target)} (hn : ∀ i t j u, f = some (i, t) → c = some (j, u) → i ≠ j) :
    (closes c).foldl event (f.toList ++ c.toList) = f.toList := by
  cases c with
  | none => simp [closes]
  | some c =>
    cases f with
    | none => simp [closes, event]
    | some f =>
      have := hn _ _ _ _ rfl rfl
      simp [closes, event, this]

/-- The effect keeps the invariant; `h` is the history with what is asked for, before the events. -/
theorem inv_effect {h : Hist} {s : State} (h0 : s.created = true) (hcl : s.closed = false) (h1 : h.created = s.created)
    (h2 : h.closed = s.closed) (h3 : h.enabled = s.enabled) (h4 : h.sec = s.root) (h5 : h.broadcast = s.broadcast)
    (ho : h.opened = s.first.toList ++ s.cur.toList) (hc : s.catalog = if s.enabled then s.root else none)
    (hf : s.first.map (·.2) = h.start) (l1 : ∀ i t, s.first = some (i, t) → i < s.count)
    (hn : ∀ i t j u, s.first = some (i, t) → s.cur = some (j, u) → i ≠ j) :
    ∃ l, (effect s).1 = .events l ∧ Inv { h with opened := l.foldl event h.opened } (effect s).2 := by
  refine ⟨_, rfl, ?_⟩
  constructor
  · exact h1
  · exact h2
  · exact h3
  · exact h4
  · exact h5
  · simp only [effect]
    rw [List.foldl_append, ho, fold_closes hn, fold_opens]
  · intro hx
    rw [show (effect s).2.created = s.created from rfl, h0] at hx
    cases hx
  · intro hx
    rw [show (effect s).2.closed = s.closed from rfl, hcl] at hx
    cases hx
  · exact fun _ => hc
  · exact fun _ => hf
  · exact fun _ => wanted_subscribe (h := { h with opened := _ }) h3 (h2.trans hcl) h4 h5 hc
  · exact fun _ => rfl
  · intro i t hx
    have := l1 i t hx
    simp only [effect]
    omega
  · intro i t hx
    have hx : subscribe s = some (i, t) := hx
    obtain ⟨ha, hb⟩ := subscribe_fst hx
    simp only [effect]
    omega
  · intro i t j u ha hb
    have hb : subscribe s = some (j, u) := hb
    have := l1 i t ha
    have := (subscribe_fst hb).1
    omega

theorem inv_refresh {h : Hist} {s : State} (h0 : s.created = true) (hcl : s.closed = false) (h1 : h.created = s.created)
    (h2 : h.closed = s.closed) (h3 : h.enabled = s.enabled) (h4 : h.sec = s.root) (h5 : h.broadcast = s.broadcast)
    (ho : h.opened = s.first.toList ++ s.cur.toList)
    (hf : s.first.map (·.2) = h.start) (l1 : ∀ i t, s.first = some (i, t) → i < s.count) (l2 : ∀ i t, s.cur = some (i, t) → i < s.count)
    (hn : ∀ i t j u, s.first = some (i, t) → s.cur = some (j, u) → i ≠ j) (ht : s.track = s.cur.map (·.1))
    (hcur : s.catalog = chosen s → s.cur.map (·.2) = wanted h) :
    ∃ l, (refresh s).1 = .events l ∧ Inv { h with opened := l.foldl event h.opened } (refresh s).2 := by
  have hch : chosen s = if s.enabled then s.root else none := by
    unfold chosen
    cases s.enabled <;> rfl
  unfold refresh
  split
  · rename_i he
    refine ⟨[], rfl, ⟨h1, h2, h3, h4, h5, ho, ?_, ?_, fun _ => he ▸ hch, fun _ => hf, fun _ => hcur he.symm, fun _ => ht, l1, l2, hn⟩⟩
    · intro hx
      rw [h0] at hx
      cases hx
    · intro hx
      rw [hcl] at hx
      cases hx
  · exact inv_effect (s := { s with catalog := chosen s }) h0 hcl h1 h2 h3 h4 h5 ho hch hf l1 hn

theorem chosen_eq (s : State) : chosen s = if s.enabled then s.root else none := by
  unfold chosen
  cases s.enabled <;> rfl

theorem inv_step {h : Hist} {s : State} (v : Inv h s) (op : Op) : Inv (see h (op, (step s op).1)) (step s op).2 := by
  by_cases hcr : s.created = true
  · have hc' : h.created = true := v.created.trans hcr
    by_cases hcl : s.closed = true
    · obtain ⟨hf, hc⟩ := v.over hcl
      have hx : ∀ {p : Prop}, s.closed = false → p := fun h => by rw [hcl] at h; cases h
      have hy : ∀ {p : Prop}, s.created = false → p := fun h => by rw [hcr] at h; cases h
      cases op with
      | create e r b =>
        simp only [step, hcr, see, ask, hc', if_true]
        exact v
      | setEnabled e =>
        have ha : ask h (.setEnabled e) = { h with enabled := e } := if_pos hc'
        have hs : step s (.setEnabled e) = (.events [], { s with enabled := e }) := by simp [step, hcr, hcl]
        rw [hs]
        simp only [see, ha, List.foldl_nil]
        exact ⟨v.created, v.closed, rfl, v.sec, v.broadcast, v.opened, hy, fun _ => ⟨hf, hc⟩, hx, hx, hx, hx, v.lt1, v.lt2, v.ne⟩
      | setCatalog c =>
        have ha : ask h (.setCatalog c) = { h with sec := c } := if_pos hc'
        have hs : step s (.setCatalog c) = (.events [], { s with root := c }) := by simp [step, hcr, hcl]
        rw [hs]
        simp only [see, ha, List.foldl_nil]
        exact ⟨v.created, v.closed, v.enabled, rfl, v.broadcast, v.opened, hy, fun _ => ⟨hf, hc⟩, hx, hx, hx, hx, v.lt1, v.lt2, v.ne⟩
      | setBroadcast b =>
        have ha : ask h (.setBroadcast b) = { h with broadcast := b } := if_pos hc'
        have hs : step s (.setBroadcast b) = (.events [], { s with broadcast := b }) := by simp [step, hcr, hcl]
        rw [hs]
        simp only [see, ha, List.foldl_nil]
        exact ⟨v.created, v.closed, v.enabled, v.sec, rfl, v.opened, hy, fun _ => ⟨hf, hc⟩, hx, hx, hx, hx, v.lt1, v.lt2, v.ne⟩
      | close =>
        have ha : ask h .close = { h with closed := true } := if_pos hc'
        have hs : step s .close = (.events (closes s.cur ++ closes s.first), { s with closed := true, cur := none, first := none }) := by
          simp [step, hcr]
        rw [hs]
        simp only [see, ha]
        refine ⟨v.created, rfl, v.enabled, v.sec, v.broadcast, ?_, hy, fun _ => ⟨rfl, rfl⟩, (nomatch ·), (nomatch ·), (nomatch ·), (nomatch ·), (nofun), (nofun), (nofun)⟩
        rw [v.opened, hf, hc]
        rfl
      | track =>
        simp only [step, hcr, see, ask, Bool.not_true, Bool.false_eq_true, if_false]
        exact v
      | ttl =>
        simp only [step, hcr, see, ask, Bool.not_true, Bool.false_eq_true, if_false]
        exact v
    · have hcl : s.closed = false := by simpa using hcl
      have hcl' : h.closed = false := v.closed.trans hcl
      have hsame : ∀ (h' : Hist) (s' : State), h'.enabled = s'.enabled → h'.closed = false → h'.sec = s'.root →
          h'.broadcast = s'.broadcast → s'.broadcast = s.broadcast → s'.catalog = s.catalog → s'.catalog = chosen s' →
          s.cur.map (·.2) = wanted h' := by
        intro h' s' a1 a2 a3 a4 a5 a6 a7
        rw [v.cur hcl, ← wanted_subscribe a1 a2 a3 a4 (a7.trans (chosen_eq s')),
          ← wanted_subscribe v.enabled hcl' v.sec v.broadcast (v.catalog hcl)]
        unfold subscribe
        rw [a5, a6]
        cases s.catalog <;> cases s.broadcast <;> rfl
      cases op with
      | create e r b =>
        simp only [step, hcr, see, ask, hc', if_true]
        exact v
      | setEnabled e =>
        have ha : ask h (.setEnabled e) = { h with enabled := e } := if_pos hc'
        obtain ⟨l, hl, hv⟩ := inv_refresh (h := { h with enabled := e }) (s := { s with enabled := e }) hcr hcl v.created v.closed rfl v.sec v.broadcast
          v.opened (v.first hcl) v.lt1 v.lt2 v.ne (v.track hcl) (fun hx => hsame _ { s with enabled := e } rfl hcl' v.sec v.broadcast rfl rfl hx)
        have hs : step s (.setEnabled e) = refresh { s with enabled := e } := by
          simp only [step, hcr, hcl, Bool.not_true, Bool.false_eq_true, if_false]
        rw [hs]
        simp only [see, ha, hl]
        exact hv
      | setCatalog c =>
        have ha : ask h (.setCatalog c) = { h with sec := c } := if_pos hc'
        obtain ⟨l, hl, hv⟩ := inv_refresh (h := { h with sec := c }) (s := { s with root := c }) hcr hcl v.created v.closed v.enabled rfl v.broadcast
          v.opened (v.first hcl) v.lt1 v.lt2 v.ne (v.track hcl) (fun hx => hsame _ { s with root := c } v.enabled hcl' rfl v.broadcast rfl rfl hx)
        have hs : step s (.setCatalog c) = refresh { s with root := c } := by
          simp only [step, hcr, hcl, Bool.not_true, Bool.false_eq_true, if_false]
        rw [hs]
        simp only [see, ha, hl]
        exact hv
      | setBroadcast b =>
        have ha : ask h (.setBroadcast b) = { h with broadcast := b } := if_pos hc'
        by_cases hb : s.broadcast = b
        · subst hb
          have hh : ({ h with broadcast := s.broadcast } : Hist) = h := by rw [← v.broadcast]
          have hs : step s (.setBroadcast s.broadcast) = (.events [], s) := by
            simp [step, hcr]
            rw [← hcr]
          rw [hs]
          simp only [see, ha, List.foldl_nil]
          rw [hh]
          exact v
        · obtain ⟨l, hl, hv⟩ := inv_effect (h := { h with broadcast := b }) (s := { s with broadcast := b }) hcr hcl v.created v.closed v.enabled v.sec rfl
            v.opened (v.catalog hcl) (v.first hcl) v.lt1 v.ne
          have hs : step s (.setBroadcast b) = effect { s with broadcast := b } := by
            simp [step, hcr, hcl, hb]
          rw [hs]
          simp only [see, ha, hl]
          exact hv
      | close =>
        have ha : ask h .close = { h with closed := true } := if_pos hc'
        have hs : step s .close = (.events (closes s.cur ++ closes s.first), { s with closed := true, cur := none, first := none }) := by
          simp [step, hcr]
        rw [hs]
        simp only [see, ha]
        refine ⟨v.created, rfl, v.enabled, v.sec, v.broadcast, ?_, fun hx => ?_, fun _ => ⟨rfl, rfl⟩, (nomatch ·), (nomatch ·), (nomatch ·), (nomatch ·), (nofun), (nofun), (nofun)⟩
        · rw [List.foldl_append, v.opened, fold_closes v.ne]
          have := fold_closes (f := none) (c := s.first) (nofun)
          simpa using this
        · have hx : s.created = false := hx
          rw [hcr] at hx
          cases hx
      | track =>
        simp only [step, hcr, see, ask, Bool.not_true, Bool.false_eq_true, if_false]
        exact v
      | ttl =>
        simp only [step, hcr, see, ask, Bool.not_true, Bool.false_eq_true, if_false]
        exact v
  · have hcr : s.created = false := by simpa using hcr
    obtain ⟨hi, hst⟩ := v.fresh hcr
    have hc' : h.created = false := v.created.trans hcr
    subst hi
    cases op with
    | create e r b =>
      let h1 : Hist := { h with created := true, enabled := e, sec := r, broadcast := b }
      let s1 : State := { init with created := true, enabled := e, root := r, broadcast := b }
      let s2 : State := { s1 with catalog := chosen s1 }
      let s3 : State := { s2 with first := subscribe s2, count := s2.count + used (subscribe s2) }
      have hw := wanted_subscribe (h := h1) (s := s2) rfl v.closed rfl rfl (chosen_eq s1)
      have ho : h.opened = [] := v.opened
      obtain ⟨l, hl, hv⟩ := inv_effect (h := { h1 with start := wanted h1, opened := (subscribe s2).toList }) (s := s3) rfl rfl rfl v.closed rfl rfl rfl
        (by simp [s3, s2, s1, init]) (chosen_eq s1) hw
        (fun i t hx => by
          have hx : subscribe s2 = some (i, t) := hx
          obtain ⟨ha, hb⟩ := subscribe_fst hx
          simp only [s3]
          omega)
        (fun _ _ _ _ _ hx => nomatch hx)
      have hs : step init (.create e r b) = (.events (opens (subscribe s2) ++ l), (effect s3).2) := by
        have : step init (.create e r b) = match effect s3 with
          | (.events l, s3) => (.events (opens (subscribe s2) ++ l), s3)
          | x => x := rfl
        rw [this]
        generalize effect s3 = x at hl
        obtain ⟨o, y⟩ := x
        cases hl
        rfl
      rw [hs]
      simp only [see, ask, hc', Bool.false_eq_true, if_false]
      rw [List.foldl_append, ho, fold_opens]
      exact hv
    | setEnabled e =>
      simp only [step, init, see, ask, hc', Bool.false_eq_true, if_false, Bool.not_false, if_true]
      exact v
    | setCatalog c =>
      simp only [step, init, see, ask, hc', Bool.false_eq_true, if_false, Bool.not_false, if_true]
      exact v
    | setBroadcast b =>
      simp only [step, init, see, ask, hc', Bool.false_eq_true, if_false, Bool.not_false, if_true]
      exact v
    | close =>
      simp only [step, init, see, ask, hc', Bool.false_eq_true, if_false, Bool.not_false, if_true]
      exact v
    | track => exact v
    | ttl => exact v

theorem inv_reach (h : machine.Reach tr s) : Inv (hist tr) s := by
  refine Machine.Reach.induct (M := machine) (P := fun tr s => Inv (hist tr) s) ?_ (fun tr s op _ ih => ?_) h
  · exact ⟨rfl, rfl, rfl, rfl, rfl, rfl, fun _ => ⟨rfl, rfl⟩, (nofun), fun _ => rfl, fun _ => rfl, fun _ => rfl, fun _ => rfl, (nofun), (nofun), (nofun)⟩
  · rw [hist_snoc]
    exact inv_step ih op

/-! ## C130 -/

/-- The open subscriptions: the one that was wanted when the chat was created, and the one that is wanted now; none after `close`. -/
theorem c130_open (h : machine.Reach tr s) :
    (hist tr).opened.map (·.2) = if (hist tr).closed then [] else (hist tr).start.toList ++ (wanted (hist tr)).toList := by
  have v := inv_reach h
  rw [v.opened]
  split
  · rename_i hc
    obtain ⟨h1, h2⟩ := v.over (v.closed ▸ hc)
    rw [h1, h2]
    rfl
  · rename_i hc
    have hc : s.closed = false := by rw [← v.closed]; simpa using hc
    rw [← v.first hc, ← v.cur hc]
    cases s.first <;> cases s.cur <;> rfl

/-- If nothing was wanted when the chat was created, the open subscription is the one that is wanted, and there is no other. -/
theorem c130_open_partial (h : machine.Reach tr s) (hs : (hist tr).start = none) :
    (hist tr).opened.map (·.2) = (wanted (hist tr)).toList := by
  rw [c130_open h, hs]
  split
  · rename_i hc
    simp [wanted, hc]
  · rfl

/-- A chat that is created when all is there has two subscriptions. -/
theorem c130_twice (c : Section) (b : Nat) :
    (hist (machine.run [.create true (some c) (some b)]).1).opened = [(0, ⟨b, c.name, c.priority⟩), (1, ⟨b, c.name, c.priority⟩)] := rfl

/-- `track` is the newest of the open subscriptions, if a track is wanted, and nothing otherwise. -/
theorem c130_track (h : machine.Reach tr s) (hc : (hist tr).created = true) (hn : (hist tr).closed = false) :
    ∃ t, (step s .track).1 = .track t ∧ (wanted (hist tr) = none → t = none) ∧
      ∀ w, wanted (hist tr) = some w → ∃ i, t = some i ∧ (hist tr).opened.getLast? = some (i, w) := by
  have v := inv_reach h
  have hn' : s.closed = false := v.closed ▸ hn
  refine ⟨s.track, ?_, ?_, ?_⟩
  · simp [step, ← v.created, hc]
  · intro hw
    rw [← v.cur hn'] at hw
    rw [v.track hn', Option.map_eq_none_iff.1 hw]
    rfl
  · intro w hw
    rw [← v.cur hn'] at hw
    obtain ⟨⟨i, t⟩, ha, he⟩ := Option.map_eq_some_iff.1 hw
    cases he
    refine ⟨i, by rw [v.track hn', ha]; rfl, ?_⟩
    rw [v.opened, ha]
    simp

/-- `ttl` is what the section says, if enabled. -/
theorem c130_ttl (h : machine.Reach tr s) (hc : (hist tr).created = true) (hn : (hist tr).closed = false) :
    (step s .ttl).1 = .ttl (if (hist tr).enabled then (hist tr).sec.bind (·.ttl) else none) := by
  have v := inv_reach h
  have hn' : s.closed = false := v.closed ▸ hn
  have hx : (step s .ttl).1 = .ttl (s.catalog.bind (·.ttl)) := by simp [step, ← v.created, hc]
  rw [hx, v.catalog hn', v.enabled, v.sec]
  cases s.enabled <;> rfl

/-- The section that counts. -/
def section_ (h : Hist) : Option Section := if h.enabled && !h.closed then h.sec else none

/-- Nothing is done to the subscriptions unless the section that counts, or the broadcast, changes. -/
theorem c130_stays_partial (h : machine.Reach tr s) (op : Op) (hc : (hist tr).created = true)
    (hs : section_ (ask (hist tr) op) = section_ (hist tr)) (hb : (ask (hist tr) op).broadcast = (hist tr).broadcast)
    (hcl : op ≠ .close) (l : List Event) (ho : (step s op).1 = .events l) : l = [] := by
  have v := inv_reach h
  have hcr : s.created = true := v.created ▸ hc
  have key : ∀ s' : State, s'.catalog = chosen s' → (refresh s').1 = .events l → l = [] := by
    intro s' hx hy
    simp only [refresh, hx, if_true] at hy
    cases hy
    rfl
  cases hcl' : s.closed with
  | true =>
    cases op with
    | create e r b => simp [step, hcr] at ho
    | setEnabled e => simpa [step, hcr, hcl', eq_comm] using ho
    | setCatalog c => simpa [step, hcr, hcl', eq_comm] using ho
    | setBroadcast b => simpa [step, hcr, hcl', eq_comm] using ho
    | close => exact absurd rfl hcl
    | track => simp [step, hcr] at ho
    | ttl => simp [step, hcr] at ho
  | false =>
    have hx := v.catalog hcl'
    have hd : (hist tr).closed = false := v.closed.trans hcl'
    cases op with
    | create e r b => simp [step, hcr] at ho
    | setEnabled e =>
      simp only [step, hcr, hcl', Bool.not_true, Bool.false_eq_true, if_false] at ho
      refine key _ ?_ ho
      simp only [ask, hc, if_true, section_, hd, Bool.not_false, Bool.and_true, v.enabled, v.sec] at hs
      rw [chosen_eq, hs]
      exact hx
    | setCatalog c =>
      simp only [step, hcr, hcl', Bool.not_true, Bool.false_eq_true, if_false] at ho
      refine key _ ?_ ho
      simp only [ask, hc, if_true, section_, hd, Bool.not_false, Bool.and_true, v.enabled, v.sec] at hs
      rw [chosen_eq, hs]
      exact hx
    | setBroadcast b =>
      simp only [ask, hc, if_true, v.broadcast] at hb
      simpa [step, hcr, hb, eq_comm] using ho
    | close => exact absurd rfl hcl
    | track => simp [step, hcr] at ho
    | ttl => simp [step, hcr] at ho

/-- Whenever a track is wanted, a catalog with another time to live makes the chat leave it and subscribe to the same track again. -/
theorem c130_again (h : machine.Reach tr s) (w : Target) (hw : wanted (hist tr) = some w) (c : Section)
    (hs : (hist tr).sec = some c) (t : Option Nat) (ht : t ≠ c.ttl) (hc : (hist tr).created = true) :
    wanted (ask (hist tr) (.setCatalog (some { c with ttl := t }))) = some w ∧
      ∃ i j, (step s (.setCatalog (some { c with ttl := t }))).1 = .events [.closed i, .subscribe j w] := by
  have v := inv_reach h
  have hcr : s.created = true := v.created ▸ hc
  have hx : (hist tr).enabled = true ∧ (hist tr).closed = false ∧ ∃ b, (hist tr).broadcast = some b ∧ w = ⟨b, c.name, c.priority⟩ := by
    simp only [wanted, hs] at hw
    cases he : (hist tr).enabled <;> cases hd : (hist tr).closed <;> cases hb : (hist tr).broadcast <;> rw [he, hd, hb] at hw <;> cases hw
    exact ⟨rfl, rfl, _, rfl, rfl⟩
  obtain ⟨he, hd, b, hb, rfl⟩ := hx
  refine ⟨by simp [wanted, ask, hc, he, hd, hb], ?_⟩
  have hd' : s.closed = false := v.closed ▸ hd
  have he' : s.enabled = true := v.enabled ▸ he
  have hb' : s.broadcast = some b := v.broadcast ▸ hb
  have hr : s.root = some c := v.sec ▸ hs
  have hcat : s.catalog = some c := by rw [v.catalog hd', he', hr]; rfl
  rw [← v.cur hd'] at hw
  obtain ⟨⟨i, u⟩, ha, -⟩ := Option.map_eq_some_iff.1 hw
  refine ⟨i, s.count, ?_⟩
  have hne : ¬ (some { c with ttl := t } = some c) := by
    intro hx
    obtain ⟨n, p, q⟩ := c
    simp at hx
    exact ht hx
  simp [step, hcr, hd', refresh, chosen, he', hcat, hne, effect, subscribe, hb', ha, closes, opens]

/-- After `close` there is no subscription any more, whatever is set; `track` still gives the consumer it gave before. -/
theorem c130_closed (h : machine.Reach tr s) (hc : (hist tr).closed = true) (op : Op) (l : List Event) (ho : (step s op).1 = .events l) :
    (hist tr).opened = [] ∧ l = [] ∧ (step (step s op).2 .track).1 = (step s .track).1 := by
  have v := inv_reach h
  have hd : s.closed = true := v.closed ▸ hc
  obtain ⟨h1, h2⟩ := v.over hd
  have hcr : s.created = true := by
    cases hx : s.created with
    | true => rfl
    | false =>
      rw [(v.fresh hx).1] at hd
      cases hd
  refine ⟨by rw [v.opened, h1, h2]; rfl, ?_⟩
  cases op with
  | create e r b => simp [step, hcr] at ho
  | setEnabled e => simp [step, hcr, hd] at ho ⊢; exact ho
  | setCatalog c => simp [step, hcr, hd] at ho ⊢; exact ho
  | setBroadcast b => simp [step, hcr, hd] at ho ⊢; exact ho
  | close => simp [step, hcr, h1, h2, closes] at ho ⊢; exact ho
  | track => simp [step, hcr] at ho
  | ttl => simp [step, hcr] at ho

/-- A chat that had a subscription keeps giving its consumer, which is closed, after `close`. -/
theorem c130_stale (h : machine.Reach tr s) (hc : (hist tr).created = true) :
    (step (step s .close).2 .track).1 = (step s .track).1 ∧
      ∃ l, (step s .close).1 = .events l ∧ ∀ i t, (i, t) ∈ (hist tr).opened → Event.closed i ∈ l := by
  have v := inv_reach h
  have hcr : s.created = true := v.created ▸ hc
  refine ⟨by simp [step, hcr], closes s.cur ++ closes s.first, by simp [step, hcr], ?_⟩
  intro i t hm
  rw [v.opened, List.mem_append, Option.mem_toList, Option.mem_toList] at hm
  rcases hm with hm | hm
  · exact List.mem_append_right _ (by rw [hm]; exact List.mem_singleton.2 rfl)
  · exact List.mem_append_left _ (by rw [hm]; exact List.mem_singleton.2 rfl)

/-- When the calls are valid: everything but the constructor once there is a chat, and the constructor once. -/
theorem c130_valid (h : machine.Reach tr s) (op : Op) :
    (step s op).1 = .invalid ↔ ((hist tr).created = true ↔ ∃ e c b, op = .create e c b) := by
  have v := inv_reach h
  rw [v.created]
  have hr : ∀ s', (refresh s').1 ≠ .invalid := by
    intro s'
    unfold refresh
    split <;> exact (nofun)
  cases hcr : s.created with
  | true =>
    cases op with
    | create e c b => simp [step, hcr]
    | setEnabled e =>
      simp only [step, hcr]
      split <;> simp_all
      split <;> simp_all
    | setCatalog e =>
      simp only [step, hcr]
      split <;> simp_all
      split <;> simp_all
    | setBroadcast e =>
      simp only [step, hcr]
      split <;> simp_all
      split <;> simp_all [effect]
    | close => simp [step, hcr]
    | track => simp [step, hcr]
    | ttl => simp [step, hcr]
  | false =>
    cases op with
    | create e c b => simp [step, hcr, effect]
    | setEnabled e => simp [step, hcr]
    | setCatalog e => simp [step, hcr]
    | setBroadcast e => simp [step, hcr]
    | close => simp [step, hcr]
    | track => simp [step, hcr]
    | ttl => simp [step, hcr]

/-! Concrete cases. -/

/-- A chat is created without a broadcast, which comes, and the catalog with it; then another one, and the chat is switched off. -/
def sample : List Op :=
  [.create true none none, .setBroadcast (some 4), .setCatalog (some ⟨1, 2, some 500⟩), .setBroadcast (some 5)]

example : ∃ tr s, machine.Reach tr s ∧ (hist tr).created = true ∧ (hist tr).closed = false ∧ (hist tr).start = none ∧
    wanted (hist tr) = some ⟨5, 1, 2⟩ ∧ (hist tr).sec = some ⟨1, 2, some 500⟩ ∧ (hist tr).opened = [(1, ⟨5, 1, 2⟩)] :=
  ⟨_, _, machine.reach_run sample, by decide, by decide, by decide, by decide, by decide, by decide⟩

example : ∃ tr s, machine.Reach tr s ∧ (hist tr).closed = true ∧ (step s (.setEnabled false)).1 = .events [] ∧
    (step s .track).1 = .track (some 1) :=
  ⟨_, _, machine.reach_run (sample ++ [.close]), by decide, by decide, by decide⟩

end Verif.Props.JsWatchChat
