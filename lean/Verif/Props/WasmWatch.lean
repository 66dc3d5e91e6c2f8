import Verif.Wasm.Watch

/-!
# C120: what the player of hang-wasm subscribes to

The specification reads off the history what was set and which catalogs came, and says from that which entry is wanted.
-/

set_option autoImplicit false

namespace Verif.Props.WasmWatch

open Verif Verif.Wasm.Watch

/-! ## Specification -/

/-- What the history says. -/
structure Told where
  canvas : Bool
  visible : Bool
  muted : Bool
  worklet : Bool
  /-- the path that is being connected to -/
  pending : Option (List Char)
  /-- the names of the broadcasts -/
  names : List (List Char)
  /-- the catalogs with their broadcasts, oldest first; without a catalog when it was over -/
  heard : List (Nat × Option Catalog)

def tell (t : Told) : Op × Out → Told
  | (.canvas b, .did _) => { t with canvas := b }
  | (.visible b, .did _) => { t with visible := b }
  | (.muted b, .did _) => { t with muted := b }
  | (.worklet b, .did _) => { t with worklet := b }
  | (.connect p, .did _) => { t with pending := p }
  | (.established true, .did _) => { t with pending := none, names := t.names ++ [(t.pending.getD []).drop 1] }
  | (.established false, .did _) => { t with pending := none }
  | (.catalog (some c), .did _) => { t with heard := t.heard ++ [(t.names.length - 1, c)] }
  | _ => t

def told (tr : Trace) : Told := tr.foldl tell ⟨false, true, false, false, none, [], []⟩

/-- The first entry of a catalog. -/
def first (k : Kind) (c : Catalog) : Option Entry :=
  match k with
  | .video => c.video.head?
  | .audio => c.audio.head?

/-- Whether the user wants to see or hear something. -/
def allowed (k : Kind) (t : Told) : Bool :=
  match k with
  | .video => t.canvas && t.visible
  | .audio => t.worklet && !t.muted

/-- The broadcast and the entry to be played: the first one of the last catalog. -/
def wanted (k : Kind) (tr : Trace) : Option (Nat × Entry) :=
  if allowed k (told tr) then
    match (told tr).heard.getLast? with
    | some (b, some c) => (first k c).map fun e => (b, e)
    | _ => none
  else none

/-- A decoder can be had for the entry. -/
def Playable (sup : Nat → Bool) (k : Kind) (e : Entry) : Prop :=
  sup e.config = true ∧ (k = .video → e.width.isSome = e.height.isSome)

/-- Operations after which a track is looked for. -/
def Touches (k : Kind) (e : Op × Out) : Prop :=
  match k, e with
  | _, (.catalog (some _), .did _) => True
  | .video, (.canvas _, _) => True
  | .video, (.visible _, _) => True
  | .audio, (.worklet _, _) => True
  | .audio, (.muted _, _) => True
  | _, _ => False

/-- No call panicked. -/
def Sound (tr : Trace) : Prop := ∀ e ∈ tr, e.2 ≠ .panic

/-! ## Lemmas -/

theorem told_snoc (tr : Trace) (e : Op × Out) : told (tr ++ [e]) = tell (told tr) e := by
  unfold told
  rw [List.foldl_append]
  rfl

theorem slot_same (k : Kind) (s : State) (x : Slot) : slot k (setSlot k s x) = x := by cases k <;> rfl

theorem slot_other {k k' : Kind} (h : k' ≠ k) (s : State) (x : Slot) : slot k' (setSlot k s x) = slot k' s := by
  cases k <;> cases k' <;> first | rfl | exact absurd rfl h

/-- Everything but the slots and the counter. -/
def Flags (s t : State) : Prop :=
  t.connect = s.connect ∧ t.broadcast = s.broadcast ∧ t.names = s.names ∧ t.canvas = s.canvas ∧ t.visible = s.visible ∧
    t.muted = s.muted ∧ t.worklet = s.worklet ∧ t.dead = s.dead

theorem Flags.trans {a b c : State} (h : Flags a b) (g : Flags b c) : Flags a c :=
  ⟨g.1.trans h.1, g.2.1.trans h.2.1, g.2.2.1.trans h.2.2.1, g.2.2.2.1.trans h.2.2.2.1, g.2.2.2.2.1.trans h.2.2.2.2.1,
    g.2.2.2.2.2.1.trans h.2.2.2.2.2.1, g.2.2.2.2.2.2.1.trans h.2.2.2.2.2.2.1, g.2.2.2.2.2.2.2.trans h.2.2.2.2.2.2.2⟩

theorem setSlot_flags (k : Kind) (s : State) (x : Slot) : Flags s (setSlot k s x) := by
  cases k <;> exact ⟨rfl, rfl, rfl, rfl, rfl, rfl, rfl, rfl⟩

theorem gate_flags {s t : State} (h : Flags s t) (k : Kind) : gate k t = gate k s := by
  obtain ⟨_, _, _, h1, h2, h3, h4, _⟩ := h
  unfold gate
  cases k <;> simp [h1, h2, h3, h4]

theorem target_congr {k : Kind} {s t : State} (h1 : (slot k t).src = (slot k s).src) (h2 : (slot k t).cat = (slot k s).cat)
    (h3 : gate k t = gate k s) : target k t = target k s := by
  unfold target
  rw [h1, h2, h3]

/-- What `reinit` does to the slot. -/
inductive Reinit (sup : Nat → Bool) (k : Kind) (s : State) : List Event × State → Prop
  | off (t : State) : target k s = none → (slot k t).cur = none → Reinit sup k s ([], t)
  | keep (b : Nat) (e : Entry) (x : Sub) (t : State) : target k s = some (b, e) → (slot k s).cur = some x →
      x.info.track = e.track → (slot k t).cur = some x → Reinit sup k s ([], t)
  | fresh (b : Nat) (e : Entry) (t : State) : target k s = some (b, e) →
      (∀ x, (slot k s).cur = some x → x.info.track ≠ e.track) →
      (slot k t).cur = (if usable sup k e then some ⟨s.next, b, e⟩ else none) → Reinit sup k s ([.subscribe k b e.track], t)

theorem reinit_spec (sup : Nat → Bool) (k : Kind) (s : State) : Reinit sup k s (reinit sup k s) ∧ Flags s (reinit sup k s).2 ∧
    (slot k (reinit sup k s).2).src = (slot k s).src ∧ (slot k (reinit sup k s).2).cat = (slot k s).cat ∧
    (∀ k', k' ≠ k → slot k' (reinit sup k s).2 = slot k' s) := by
  unfold reinit
  cases ht : target k s with
  | none =>
    refine ⟨.off _ ht ?_, setSlot_flags _ _ _, ?_, ?_, fun k' h => slot_other h _ _⟩
    all_goals dsimp only; rw [slot_same]
  | some x =>
    obtain ⟨b, e⟩ := x
    have hsub : (slot k (subscribe sup k s b e).2) = { slot k s with cur := if usable sup k e then some ⟨s.next, b, e⟩ else none } := by
      unfold subscribe
      cases k <;> rfl
    have hfl : Flags s (subscribe sup k s b e).2 := by
      unfold subscribe
      cases k <;> exact ⟨rfl, rfl, rfl, rfl, rfl, rfl, rfl, rfl⟩
    have hot : ∀ k', k' ≠ k → slot k' (subscribe sup k s b e).2 = slot k' s := by
      intro k' h
      unfold subscribe
      cases k <;> cases k' <;> first | rfl | exact absurd rfl h
    have hev : (subscribe sup k s b e) = ([.subscribe k b e.track], (subscribe sup k s b e).2) := rfl
    dsimp only
    cases hc : (slot k s).cur with
    | none =>
      dsimp only
      refine ⟨?_, hfl, by rw [hsub], by rw [hsub], hot⟩
      rw [hev]
      exact .fresh b e _ ht (fun x hx => by rw [hc] at hx; cases hx) (by rw [hsub])
    | some x =>
      dsimp only
      split
      · rename_i h
        exact ⟨.keep b e x _ ht hc h hc, ⟨rfl, rfl, rfl, rfl, rfl, rfl, rfl, rfl⟩, rfl, rfl, fun _ _ => rfl⟩
      · rename_i h
        refine ⟨?_, hfl, by rw [hsub], by rw [hsub], hot⟩
        rw [hev]
        refine .fresh b e _ ht (fun y hy => ?_) (by rw [hsub])
        rw [hc] at hy
        cases hy
        exact h

/-! ## The invariant -/

structure Held (tr : Trace) (s : State) (k : Kind) : Prop where
  src : (slot k s).src = (told tr).heard.getLast?.map (·.1)
  cat : (slot k s).cat = (told tr).heard.getLast?.bind (·.2)
  on : ∀ x, (slot k s).cur = some x → ∃ b e, target k s = some (b, e) ∧ x.info.track = e.track
  from' : ∀ x, (slot k s).cur = some x → ∃ c, (x.broadcast, some c) ∈ (told tr).heard ∧ first k c = some x.info

structure Inv (tr : Trace) (s : State) : Prop where
  dead : s.dead = true ↔ ∃ e ∈ tr, e.2 = .panic
  canvas : s.canvas = (told tr).canvas
  visible : s.visible = (told tr).visible
  muted : s.muted = (told tr).muted
  worklet : s.worklet = (told tr).worklet
  pending : s.connect = (told tr).pending
  names : s.names = (told tr).names
  current : ∀ b, s.broadcast = some b → b + 1 = s.names.length
  held : ∀ k, Held tr s k

theorem panic_snoc (tr : Trace) (op : Op) (o : Out) :
    (∃ e ∈ tr ++ [(op, o)], e.2 = .panic) ↔ (∃ e ∈ tr, e.2 = .panic) ∨ o = .panic := by
  constructor
  · rintro ⟨e, he, h⟩
    rcases List.mem_append.1 he with he | he
    · exact .inl ⟨e, he, h⟩
    · rw [List.mem_singleton.1 he] at h
      exact .inr h
  · rintro (⟨e, he, h⟩ | h)
    · exact ⟨e, List.mem_append_left _ he, h⟩
    · exact ⟨_, List.mem_append_right _ (List.mem_singleton.2 rfl), h⟩

theorem entries_first (k : Kind) (c : Catalog) : (entries k c).head? = first k c := by cases k <;> rfl

theorem target_first {k : Kind} {s : State} {b : Nat} {e : Entry} (h : target k s = some (b, e)) :
    (slot k s).src = some b ∧ ∃ c, (slot k s).cat = some c ∧ first k c = some e ∧ gate k s = true := by
  unfold target at h
  cases hs : (slot k s).src with
  | none => rw [hs] at h; cases h
  | some b' =>
    cases hc : (slot k s).cat with
    | none => rw [hs, hc] at h; cases h
    | some c =>
      rw [hs, hc] at h
      dsimp only at h
      split at h
      · rename_i hg
        cases he : entries k c with
        | nil => rw [he] at h; cases h
        | cons e' l =>
          rw [he] at h
          cases h
          exact ⟨rfl, c, rfl, by rw [← entries_first, he]; rfl, hg⟩
      · cases h

theorem target_of {k : Kind} {s : State} {b : Nat} {e : Entry} {c : Catalog} (h1 : (slot k s).src = some b)
    (h2 : (slot k s).cat = some c) (h3 : first k c = some e) (h4 : gate k s = true) : target k s = some (b, e) := by
  unfold target
  rw [h1, h2, h4]
  rw [← entries_first] at h3
  cases he : entries k c with
  | nil => rw [he] at h3; cases h3
  | cons e' l =>
    rw [he] at h3
    cases h3
    simp [he]

theorem last_mem {α : Type} {l : List α} {x : α} (h : l.getLast? = some x) : x ∈ l := List.mem_of_getLast? h

/-- `reinit` after the flags or the catalog were set: the slot is right again. -/
theorem held_reinit {sup : Nat → Bool} {k : Kind} {tr : Trace} {s : State}
    (src : (slot k s).src = (told tr).heard.getLast?.map (·.1)) (cat : (slot k s).cat = (told tr).heard.getLast?.bind (·.2))
    (fr : ∀ x, (slot k s).cur = some x → ∃ c, (x.broadcast, some c) ∈ (told tr).heard ∧ first k c = some x.info) :
    Held tr (reinit sup k s).2 k := by
  obtain ⟨hr, hf, h1, h2, _⟩ := reinit_spec sup k s
  have htg : target k (reinit sup k s).2 = target k s := target_congr h1 h2 (gate_flags hf k)
  refine ⟨h1.trans src, h2.trans cat, ?_, ?_⟩
  · rw [htg]
    intro x hx
    generalize reinit sup k s = r at hr hx
    cases hr with
    | off t h hc =>
      rw [hc] at hx
      cases hx
    | keep b e y t h _ ht hc =>
      rw [hc] at hx
      cases hx
      exact ⟨b, e, h, ht⟩
    | fresh b e t h _ hc =>
      rw [hc] at hx
      split at hx
      · cases hx
        exact ⟨b, e, h, rfl⟩
      · cases hx
  · intro x hx
    generalize reinit sup k s = r at hr hx
    cases hr with
    | off t h hc =>
      rw [hc] at hx
      cases hx
    | keep b e y t h hs ht hc =>
      rw [hc] at hx
      cases hx
      exact fr x hs
    | fresh b e t h _ hc =>
      rw [hc] at hx
      split at hx
      · cases hx
        obtain ⟨hb, c, hct, hfi, _⟩ := target_first h
        refine ⟨c, ?_, hfi⟩
        rw [src] at hb
        rw [cat] at hct
        cases hl : (told tr).heard.getLast? with
        | none => rw [hl] at hb; cases hb
        | some p =>
          rw [hl] at hb hct
          obtain ⟨b', c'⟩ := p
          cases hb
          have : c' = some c := hct
          subst this
          exact last_mem hl
      · cases hx

theorem held_congr {k : Kind} {tr tr' : Trace} {s t : State} (h : Held tr s k) (hh : (told tr').heard = (told tr).heard)
    (h1 : slot k t = slot k s) (h2 : gate k t = gate k s) : Held tr' t k := by
  refine ⟨by rw [h1, hh]; exact h.src, by rw [h1, hh]; exact h.cat, ?_, ?_⟩
  · rw [h1, target_congr (congrArg Slot.src h1) (congrArg Slot.cat h1) h2]
    exact h.on
  · rw [h1, hh]
    exact h.from'

theorem inv_init : Inv [] init := by
  refine ⟨⟨fun h => (nomatch h), fun ⟨e, he, _⟩ => (nomatch he)⟩, rfl, rfl, rfl, rfl, rfl, rfl, fun b h => (nomatch h), fun k => ?_⟩
  cases k <;> exact ⟨rfl, rfl, fun x hx => (nomatch hx), fun x hx => (nomatch hx)⟩

/-- Setting a flag and looking for the track of its kind. -/
theorem inv_flag {sup : Nat → Bool} {tr : Trace} {s t : State} {op : Op} {k : Kind} (v : Inv tr s)
    (hd : t.dead = s.dead) (hp : t.connect = s.connect) (hn : t.names = s.names) (hb : t.broadcast = s.broadcast)
    (hs : ∀ k, slot k t = slot k s) (hg : ∀ k', k' ≠ k → gate k' t = gate k' s)
    (ht : ∀ l, told (tr ++ [(op, .did l)]) = { told tr with canvas := t.canvas, visible := t.visible, muted := t.muted, worklet := t.worklet }) :
    Inv (tr ++ [(op, (did (reinit sup k t)).1)]) (did (reinit sup k t)).2 := by
  obtain ⟨_, ⟨f1, f2, f3, f4, f5, f6, f7, f8⟩, _, _, ho⟩ := reinit_spec sup k t
  unfold did
  dsimp only
  have hh := ht (reinit sup k t).1
  refine ⟨?_, ?_, ?_, ?_, ?_, ?_, ?_, ?_, ?_⟩
  · rw [panic_snoc, f8, hd, v.dead]
    simp
  · rw [hh, f4]
  · rw [hh, f5]
  · rw [hh, f6]
  · rw [hh, f7]
  · rw [hh, f1, hp, v.pending]
  · rw [hh, f3, hn, v.names]
  · intro b h
    rw [f2, hb] at h
    rw [f3, hn]
    exact v.current b h
  · intro k'
    by_cases hk : k' = k
    · subst hk
      refine held_reinit ?_ ?_ ?_
      · rw [hh, hs]
        exact (v.held _).src
      · rw [hh, hs]
        exact (v.held _).cat
      · rw [hh, hs]
        exact (v.held _).from'
    · refine held_congr (s := s) (v.held k') (by rw [hh]) ?_ ?_
      · rw [ho k' hk, hs]
      · rw [gate_flags ⟨f1, f2, f3, f4, f5, f6, f7, f8⟩, hg k' hk]

/-- An operation that changes neither slots nor flags. -/
theorem inv_plain {tr : Trace} {s t : State} {op : Op} {o : Out} (v : Inv tr s) (ho : o ≠ .panic) (hd : t.dead = s.dead)
    (hs : ∀ k, slot k t = slot k s) (hg : ∀ k, gate k t = gate k s) (hc : t.canvas = s.canvas) (hv : t.visible = s.visible)
    (hm : t.muted = s.muted) (hw : t.worklet = s.worklet) (cur : ∀ b, t.broadcast = some b → b + 1 = t.names.length)
    (ht : told (tr ++ [(op, o)]) = { told tr with pending := t.connect, names := t.names }) : Inv (tr ++ [(op, o)]) t := by
  refine ⟨?_, ?_, ?_, ?_, ?_, ?_, ?_, cur, fun k => held_congr (v.held k) (by rw [ht]) (hs k) (hg k)⟩
  · rw [panic_snoc, hd, v.dead]
    simp [ho]
  · rw [ht, hc, v.canvas]
  · rw [ht, hv, v.visible]
  · rw [ht, hm, v.muted]
  · rw [ht, hw, v.worklet]
  · rw [ht]
  · rw [ht]

theorem inv_same {tr : Trace} {s : State} {op : Op} (v : Inv tr s) : Inv (tr ++ [(op, .invalid)]) s := by
  refine inv_plain v (fun h => (nomatch h)) rfl (fun _ => rfl) (fun _ => rfl) rfl rfl rfl rfl v.current ?_
  rw [told_snoc, v.pending, v.names]
  cases op with
  | established b => cases b <;> rfl
  | catalog c => cases c <;> rfl
  | _ => rfl

theorem inv_dead {tr : Trace} {s : State} {op : Op} (v : Inv tr s) (hd : s.dead = true) : Inv (tr ++ [(op, .panic)]) s := by
  have ht : told (tr ++ [(op, .panic)]) = told tr := by
    rw [told_snoc]
    cases op with
    | established b => cases b <;> rfl
    | catalog c => cases c <;> rfl
    | _ => rfl
  refine ⟨?_, ?_, ?_, ?_, ?_, ?_, ?_, v.current, fun k => held_congr (v.held k) (by rw [ht]) rfl rfl⟩
  · rw [panic_snoc, hd]
    simp
  all_goals rw [ht]
  · exact v.canvas
  · exact v.visible
  · exact v.muted
  · exact v.worklet
  · exact v.pending
  · exact v.names

theorem inv_established {tr : Trace} {s : State} (v : Inv tr s) (ok : Bool) :
    Inv (tr ++ [(.established ok, (established s ok).1)]) (established s ok).2 := by
  unfold established
  cases hc : s.connect with
  | none => exact inv_same v
  | some path =>
    dsimp only
    split
    · rename_i name
      cases ok with
      | true =>
        refine inv_plain v (fun h => (nomatch h)) rfl (fun k => by cases k <;> rfl) (fun k => by cases k <;> rfl) rfl rfl rfl rfl ?_ ?_
        · intro b h
          cases h
          simp
        · rw [told_snoc]
          show { told tr with pending := none, names := (told tr).names ++ [((told tr).pending.getD []).drop 1] } = _
          rw [← v.pending, hc, ← v.names]
          rfl
      | false =>
        refine inv_plain v (fun h => (nomatch h)) rfl (fun k => by cases k <;> rfl) (fun k => by cases k <;> rfl) rfl rfl rfl rfl
          v.current ?_
        rw [told_snoc]
        show { told tr with pending := none } = _
        simp only [if_neg Bool.false_ne_true]
        rw [v.names]
    · have ht : told (tr ++ [(.established ok, .panic)]) = told tr := by
        rw [told_snoc]
        cases ok <;> rfl
      refine ⟨?_, ?_, ?_, ?_, ?_, ?_, ?_, v.current, fun k => held_congr (v.held k) (by rw [ht]) (by cases k <;> rfl) (by cases k <;> rfl)⟩
      · rw [panic_snoc]
        simp
      all_goals rw [ht]
      · exact v.canvas
      · exact v.visible
      · exact v.muted
      · exact v.worklet
      · exact hc.symm.trans v.pending
      · exact v.names

theorem setCatalog_spec (sup : Nat → Bool) (k : Kind) (s : State) (b : Nat) (c : Option Catalog) :
    Flags s (setCatalog sup k s b c).2 ∧ (∀ k', k' ≠ k → slot k' (setCatalog sup k s b c).2 = slot k' s) ∧
      Reinit sup k (setSlot k s { slot k s with src := some b, cat := c }) (setCatalog sup k s b c) := by
  unfold setCatalog
  obtain ⟨h1, h2, _, _, h3⟩ := reinit_spec sup k (setSlot k s { slot k s with src := some b, cat := c })
  exact ⟨(setSlot_flags k s _).trans h2, fun k' h => (h3 k' h).trans (slot_other h _ _), h1⟩

theorem held_catalog {sup : Nat → Bool} {k : Kind} {tr tr' : Trace} {s t : State} {b : Nat} {c : Option Catalog} (h : Held tr s k)
    (ht : slot k t = slot k s) (hh : (told tr').heard = (told tr).heard ++ [(b, c)]) : Held tr' (setCatalog sup k t b c).2 k := by
  unfold setCatalog
  have hl : (told tr').heard.getLast? = some (b, c) := by
    rw [hh]
    exact List.getLast?_concat
  refine held_reinit ?_ ?_ ?_
  · rw [slot_same, hl]
    rfl
  · rw [slot_same, hl]
    rfl
  · rw [slot_same]
    intro x hx
    rw [ht] at hx
    obtain ⟨c', h1, h2⟩ := h.from' x hx
    exact ⟨c', by rw [hh]; exact List.mem_append_left _ h1, h2⟩

theorem inv_catalog {sup : Nat → Bool} {tr : Trace} {s : State} (v : Inv tr s) (c : Option (Option Catalog)) :
    Inv (tr ++ [(.catalog c, (catalog sup s c).1)]) (catalog sup s c).2 := by
  unfold catalog
  cases hb : s.broadcast with
  | none => exact inv_same v
  | some b =>
    cases c with
    | none =>
      refine inv_plain v (fun h => (nomatch h)) rfl (fun k => by cases k <;> rfl) (fun k => by cases k <;> rfl) rfl rfl rfl rfl
        (fun b h => (nomatch h)) ?_
      rw [told_snoc]
      show told tr = _
      dsimp only
      rw [v.pending, v.names]
    | some c =>
      dsimp only
      generalize hs : { s with broadcast := if c.isSome then some b else none } = s1
      obtain ⟨fa, oa, ra⟩ := setCatalog_spec sup .audio s1 b c
      obtain ⟨fv, ov, rv⟩ := setCatalog_spec sup .video (setCatalog sup .audio s1 b c).2 b c
      have ff := fa.trans fv
      generalize hl : (if c.isSome = true then Event.live else Event.offline) ::
        ((setCatalog sup .audio s1 b c).1 ++ (setCatalog sup .video (setCatalog sup .audio s1 b c).2 b c).1) = l
      have hcur := v.current b hb
      have hh : told (tr ++ [(.catalog (some c), .did l)]) = { told tr with heard := (told tr).heard ++ [(b, c)] } := by
        rw [told_snoc]
        show { told tr with heard := (told tr).heard ++ [((told tr).names.length - 1, c)] } = _
        rw [← v.names]
        have : s.names.length - 1 = b := by omega
        rw [this]
      obtain ⟨f1, f2, f3, f4, f5, f6, f7, f8⟩ := ff
      have s1s : ∀ k, slot k s1 = slot k s := by
        intro k
        rw [← hs]
        cases k <;> rfl
      refine ⟨?_, ?_, ?_, ?_, ?_, ?_, ?_, ?_, ?_⟩
      · rw [panic_snoc, f8, ← hs]
        show s.dead = true ↔ _
        rw [v.dead]
        simp
      · rw [hh, f4, ← hs]
        exact v.canvas
      · rw [hh, f5, ← hs]
        exact v.visible
      · rw [hh, f6, ← hs]
        exact v.muted
      · rw [hh, f7, ← hs]
        exact v.worklet
      · rw [hh, f1, ← hs]
        exact v.pending
      · rw [hh, f3, ← hs]
        exact v.names
      · intro b' hb'
        rw [f2, ← hs] at hb'
        rw [f3, ← hs]
        dsimp only at hb' ⊢
        split at hb'
        · cases hb'
          exact hcur
        · cases hb'
      · intro k
        cases k with
        | video => exact held_catalog (v.held .video) ((oa _ (by decide)).trans (s1s _)) (by rw [hh])
        | audio =>
          have h1 : Held (tr ++ [(.catalog (some c), .did l)]) (setCatalog sup .audio s1 b c).2 .audio :=
            held_catalog (v.held .audio) (s1s _) (by rw [hh])
          exact held_congr h1 rfl (ov _ (by decide)) (gate_flags fv _)

theorem inv_step {sup : Nat → Bool} {tr : Trace} {s : State} (v : Inv tr s) (op : Op) :
    Inv (tr ++ [(op, (step sup s op).1)]) (step sup s op).2 := by
  unfold step
  by_cases hd : s.dead = true
  · rw [if_pos hd]
    exact inv_dead v hd
  · rw [if_neg hd]
    cases op with
    | connect p =>
      cases p with
      | none =>
        refine inv_plain v (fun h => (nomatch h)) rfl (fun k => by cases k <;> rfl) (fun k => by cases k <;> rfl) rfl rfl rfl rfl
          v.current ?_
        rw [told_snoc]
        show { told tr with pending := none } = _
        dsimp only
        rw [v.names]
      | some p =>
        refine inv_plain v (fun h => (nomatch h)) rfl (fun k => by cases k <;> rfl) (fun k => by cases k <;> rfl) rfl rfl rfl rfl
          v.current ?_
        rw [told_snoc]
        show { told tr with pending := some p } = _
        dsimp only
        rw [v.names]
    | established ok => exact inv_established v ok
    | catalog c => exact inv_catalog v c
    | canvas b =>
      refine inv_flag v rfl rfl rfl rfl (fun k => by cases k <;> rfl)
        (fun k' h => by cases k' with | video => exact absurd rfl h | audio => rfl) (fun l => ?_)
      rw [told_snoc]
      show { told tr with canvas := b } = _
      dsimp only
      rw [v.visible, v.muted, v.worklet]
    | visible b =>
      refine inv_flag v rfl rfl rfl rfl (fun k => by cases k <;> rfl)
        (fun k' h => by cases k' with | video => exact absurd rfl h | audio => rfl) (fun l => ?_)
      rw [told_snoc]
      show { told tr with visible := b } = _
      dsimp only
      rw [v.canvas, v.muted, v.worklet]
    | worklet b =>
      refine inv_flag v rfl rfl rfl rfl (fun k => by cases k <;> rfl)
        (fun k' h => by cases k' with | audio => exact absurd rfl h | video => rfl) (fun l => ?_)
      rw [told_snoc]
      show { told tr with worklet := b } = _
      dsimp only
      rw [v.canvas, v.visible, v.muted]
    | muted b =>
      refine inv_flag v rfl rfl rfl rfl (fun k => by cases k <;> rfl)
        (fun k' h => by cases k' with | audio => exact absurd rfl h | video => rfl) (fun l => ?_)
      rw [told_snoc]
      show { told tr with muted := b } = _
      dsimp only
      rw [v.canvas, v.visible, v.worklet]
    | finish k =>
      dsimp only
      unfold finish
      split
      · exact inv_same v
      · have hf := setSlot_flags k s { slot k s with cur := none }
        obtain ⟨f1, f2, f3, f4, f5, f6, f7, f8⟩ := hf
        have ht : told (tr ++ [(.finish k, .did [])]) = told tr := told_snoc _ _
        refine ⟨?_, ?_, ?_, ?_, ?_, ?_, ?_, ?_, ?_⟩
        · rw [panic_snoc, f8, v.dead]
          simp
        · rw [ht, f4, v.canvas]
        · rw [ht, f5, v.visible]
        · rw [ht, f6, v.muted]
        · rw [ht, f7, v.worklet]
        · rw [ht, f1, v.pending]
        · rw [ht, f3, v.names]
        · intro b h
          rw [f2] at h
          rw [f3]
          exact v.current b h
        · intro k'
          by_cases hk : k' = k
          · subst hk
            refine ⟨?_, ?_, ?_, ?_⟩
            · rw [slot_same, ht]
              exact (v.held _).src
            · rw [slot_same, ht]
              exact (v.held _).cat
            · rw [slot_same]
              exact fun x hx => (nomatch hx)
            · rw [slot_same]
              exact fun x hx => (nomatch hx)
          · exact held_congr (v.held k') (by rw [ht]) (slot_other hk _ _) (gate_flags ⟨f1, f2, f3, f4, f5, f6, f7, f8⟩ _)

theorem inv_reach {sup : Nat → Bool} {tr : Trace} {s : State} (h : (machine sup).Reach tr s) : Inv tr s :=
  Machine.Reach.induct (M := machine sup) (P := Inv) inv_init (fun _ _ op _ v => inv_step v op) h

theorem gate_allowed {tr : Trace} {s : State} (v : Inv tr s) (k : Kind) : gate k s = allowed k (told tr) := by
  unfold gate allowed
  rw [v.canvas, v.visible, v.muted, v.worklet]
  cases k
  · rfl
  · exact Bool.and_comm _ _

theorem target_wanted {tr : Trace} {s : State} (v : Inv tr s) (k : Kind) : target k s = wanted k tr := by
  unfold target wanted
  rw [(v.held k).src, (v.held k).cat, gate_allowed v]
  cases hl : (told tr).heard.getLast? with
  | none => simp
  | some p =>
    obtain ⟨b, c⟩ := p
    cases c with
    | none => simp
    | some c =>
      dsimp only [Option.map, Option.bind]
      split
      · rw [← entries_first]
        cases entries k c <;> rfl
      · rfl

theorem sound_dead {tr : Trace} {s : State} (v : Inv tr s) (h : Sound tr) : s.dead = false := by
  cases hd : s.dead with
  | false => rfl
  | true =>
    obtain ⟨e, he, hp⟩ := v.dead.1 hd
    exact absurd hp (h e he)

theorem usable_playable (sup : Nat → Bool) (k : Kind) (e : Entry) : usable sup k e = true ↔ Playable sup k e := by
  unfold usable Playable
  cases k <;> cases e.width <;> cases e.height <;> simp

/-- What a step does to the track of a kind. -/
inductive Does (sup : Nat → Bool) (k : Kind) (tr' : Trace) (s s' : State) (op : Op) (o : Out) : Prop
  /-- nothing -/
  | none : slot k s' = slot k s → (∀ b t l, o = .did l → Event.subscribe k b t ∉ l) → ¬ Touches k (op, o) → op ≠ .finish k →
      Does sup k tr' s s' op o
  | finish : op = .finish k → (slot k s').cur = Option.none → (∀ b t l, o = .did l → Event.subscribe k b t ∉ l) → Does sup k tr' s s' op o
  | off : wanted k tr' = Option.none → (slot k s').cur = Option.none → (∀ b t l, o = .did l → Event.subscribe k b t ∉ l) → op ≠ .finish k →
      Does sup k tr' s s' op o
  | keep (b : Nat) (e : Entry) (x : Sub) : wanted k tr' = some (b, e) → (slot k s).cur = some x → x.info.track = e.track →
      (slot k s').cur = some x → (∀ b t l, o = .did l → Event.subscribe k b t ∉ l) → op ≠ .finish k → Does sup k tr' s s' op o
  | fresh (b : Nat) (e : Entry) (n : Nat) : wanted k tr' = some (b, e) → (∀ x, (slot k s).cur = some x → x.info.track ≠ e.track) →
      (slot k s').cur = (if usable sup k e then some ⟨n, b, e⟩ else Option.none) →
      (∃ l, o = .did l ∧ ∀ b' t, Event.subscribe k b' t ∈ l ↔ b' = b ∧ t = e.track) → op ≠ .finish k → Does sup k tr' s s' op o

theorem does_reinit {sup : Nat → Bool} {k : Kind} {tr' : Trace} {s t s' : State} {op : Op} {r : List Event × State} {l : List Event}
    (hr : Reinit sup k t r) (hc : (slot k s').cur = (slot k r.2).cur) (hts : (slot k t).cur = (slot k s).cur)
    (hw : target k t = wanted k tr') (hl : ∀ b t, Event.subscribe k b t ∈ l ↔ Event.subscribe k b t ∈ r.1)
    (hf : op ≠ .finish k) : Does sup k tr' s s' op (.did l) := by
  have no : r.1 = [] → ∀ b t l', Out.did l = .did l' → Event.subscribe k b t ∉ l' := by
    intro h b t l' e
    cases e
    rw [hl, h]
    exact List.not_mem_nil
  cases hr with
  | off t' h h1 => exact .off (hw ▸ h) (hc.trans h1) (no rfl) hf
  | keep b e x t' h h1 h2 h3 => exact .keep b e x (hw ▸ h) (hts ▸ h1) h2 (hc.trans h3) (no rfl) hf
  | fresh b e t' h h1 h2 =>
    refine .fresh b e _ (hw ▸ h) (fun x hx => h1 x (hts.trans hx)) (hc.trans h2) ⟨l, rfl, fun b' t => ?_⟩ hf
    rw [hl]
    simp

theorem reinit_events {sup : Nat → Bool} {k k' : Kind} {s : State} {r : List Event × State} (h : Reinit sup k s r) (hk : k' ≠ k)
    (b t : Nat) : Event.subscribe k' b t ∉ r.1 := by
  cases h with
  | off => exact List.not_mem_nil
  | keep => exact List.not_mem_nil
  | fresh b' e t' =>
    intro h
    cases List.mem_singleton.1 h
    exact hk rfl

/-- What each operation does to the track of each kind. -/
theorem does_step {sup : Nat → Bool} {tr : Trace} {s : State} (h : (machine sup).Reach tr s) (ok : Sound tr) (k : Kind) (op : Op) :
    Does sup k (tr ++ [(op, (step sup s op).1)]) s (step sup s op).2 op (step sup s op).1 := by
  have v := inv_reach h
  have hd := sound_dead v ok
  have v' := inv_step (sup := sup) v op
  have hw := target_wanted v' k
  have flag : ∀ (k1 : Kind) (t : State), step sup s op = did (reinit sup k1 t) → (∀ k, slot k t = slot k s) → (op ≠ .finish k) →
      (∀ k2, k2 ≠ k1 → ∀ o, ¬ Touches k2 (op, o)) → Does sup k (tr ++ [(op, (step sup s op).1)]) s (step sup s op).2 op (step sup s op).1 := by
    intro k1 t hst hs hnf hnt
    obtain ⟨hr, hf, h1, h2, ho⟩ := reinit_spec sup k1 t
    rw [hst] at hw ⊢
    unfold did at hw ⊢
    dsimp only at hw ⊢
    by_cases hk : k = k1
    · subst hk
      refine does_reinit hr rfl (by rw [hs]) ?_ (fun _ _ => Iff.rfl) hnf
      rw [← hw]
      exact (target_congr h1 h2 (gate_flags hf k)).symm
    · refine .none ((ho k hk).trans (hs k)) ?_ (hnt k hk _) hnf
      intro b t l e
      cases e
      exact reinit_events hr hk b t
  have plain : ∀ (o : Out) (t : State), step sup s op = (o, t) → slot k t = slot k s → (∀ b t l, o = .did l → Event.subscribe k b t ∉ l) →
      ¬ Touches k (op, o) → op ≠ .finish k → Does sup k (tr ++ [(op, (step sup s op).1)]) s (step sup s op).2 op (step sup s op).1 := by
    intro o t hst h1 h2 h3 h4
    rw [hst]
    exact .none h1 h2 h3 h4
  have hstep : step sup s op = match op with
    | .connect (some p) => (.did [.connecting], { s with connect := some p })
    | .connect none => (.did [.disconnected], { s with connect := none })
    | .established ok => established s ok
    | .catalog c => catalog sup s c
    | .canvas b => did (reinit sup .video { s with canvas := b })
    | .visible b => did (reinit sup .video { s with visible := b })
    | .worklet b => did (reinit sup .audio { s with worklet := b })
    | .muted b => did (reinit sup .audio { s with muted := b })
    | .finish k => finish k s := by
    unfold step
    rw [if_neg (by simp [hd])]
    cases op with
    | connect p => cases p <;> rfl
    | _ => rfl
  cases op with
  | connect p =>
    cases p with
    | none => exact plain _ _ hstep (by cases k <;> rfl) (fun b t l e => by cases e; simp) (by cases k <;> exact id) (fun h => nomatch h)
    | some p => exact plain _ _ hstep (by cases k <;> rfl) (fun b t l e => by cases e; simp) (by cases k <;> exact id) (fun h => nomatch h)
  | established ok =>
    refine plain (established s ok).1 (established s ok).2 hstep ?_ ?_ (by cases k <;> exact id) (fun h => nomatch h)
    · unfold established
      repeat' split
      all_goals cases k <;> rfl
    · unfold established
      intro b t l
      repeat' split
      all_goals intro e
      all_goals cases e
      all_goals simp
  | catalog c =>
    dsimp only at hstep
    cases hb : s.broadcast with
    | none =>
      have h1 : catalog sup s c = (.invalid, s) := by
        unfold catalog
        rw [hb]
      refine plain _ _ (hstep.trans h1) rfl (fun b t l e => nomatch e) ?_ (fun h => nomatch h)
      cases k <;> cases c <;> exact id
    | some b =>
      cases c with
      | none =>
        have h1 : catalog sup s none = (.did [.error], { s with broadcast := none }) := by
          unfold catalog
          rw [hb]
        exact plain _ _ (hstep.trans h1) (by cases k <;> rfl) (fun b t l e => by cases e; simp) (by cases k <;> exact id) (fun h => nomatch h)
      | some c =>
        rw [hstep] at hw ⊢
        unfold catalog at hw ⊢
        rw [hb] at hw ⊢
        dsimp only at hw ⊢
        generalize hs : { s with broadcast := if c.isSome then some b else none } = s1 at hw ⊢
        have s1s : ∀ k, slot k s1 = slot k s := by
          intro k
          rw [← hs]
          cases k <;> rfl
        obtain ⟨fa, oa, ra⟩ := setCatalog_spec sup .audio s1 b c
        obtain ⟨fv, ov, rv⟩ := setCatalog_spec sup .video (setCatalog sup .audio s1 b c).2 b c
        have ev : ∀ k b' t, Event.subscribe k b' t ≠ (if c.isSome = true then Event.live else Event.offline) := by
          intro k b' t h
          split at h <;> cases h
        cases k with
        | video =>
          refine does_reinit rv rfl ?_ ?_ ?_ (fun h => nomatch h)
          · rw [slot_same]
            dsimp only
            rw [oa _ (by decide), s1s]
          · rw [← hw]
            obtain ⟨_, hf, h1, h2, _⟩ := reinit_spec sup .video
              (setSlot .video (setCatalog sup .audio s1 b c).2 { slot .video (setCatalog sup .audio s1 b c).2 with src := some b, cat := c })
            exact (target_congr h1 h2 (gate_flags hf _)).symm
          · intro b' t
            rw [List.mem_cons, List.mem_append]
            have := reinit_events ra (k' := .video) (by decide) b' t
            simp [ev, this]
        | audio =>
          refine does_reinit ra (by rw [ov _ (by decide)]) ?_ ?_ ?_ (fun h => nomatch h)
          · rw [slot_same]
            dsimp only
            rw [s1s]
          · rw [← hw]
            obtain ⟨_, hf, h1, h2, _⟩ := reinit_spec sup .audio (setSlot .audio s1 { slot .audio s1 with src := some b, cat := c })
            have h3 := ov .audio (by decide)
            refine ((target_congr (congrArg Slot.src h3) (congrArg Slot.cat h3) (gate_flags fv _)).trans ?_).symm
            exact target_congr h1 h2 (gate_flags hf _)
          · intro b' t
            rw [List.mem_cons, List.mem_append]
            have := reinit_events rv (k' := .audio) (by decide) b' t
            simp [ev, this]
  | canvas b =>
    exact flag .video _ hstep (fun k => by cases k <;> rfl) (fun h => nomatch h)
      (fun k2 h o => by cases k2 with | video => exact absurd rfl h | audio => exact id)
  | visible b =>
    exact flag .video _ hstep (fun k => by cases k <;> rfl) (fun h => nomatch h)
      (fun k2 h o => by cases k2 with | video => exact absurd rfl h | audio => exact id)
  | worklet b =>
    exact flag .audio _ hstep (fun k => by cases k <;> rfl) (fun h => nomatch h)
      (fun k2 h o => by cases k2 with | audio => exact absurd rfl h | video => exact id)
  | muted b =>
    exact flag .audio _ hstep (fun k => by cases k <;> rfl) (fun h => nomatch h)
      (fun k2 h o => by cases k2 with | audio => exact absurd rfl h | video => exact id)
  | finish k1 =>
    dsimp only at hstep
    by_cases hk : k = k1
    · subst hk
      rw [hstep]
      unfold finish
      cases hc : (slot k s).cur with
      | none => exact .finish rfl hc (fun b t l e => nomatch e)
      | some x => exact .finish rfl (by dsimp only; rw [slot_same]) (fun b t l e => by cases e; simp)
    · refine plain (finish k1 s).1 (finish k1 s).2 hstep ?_ ?_ (by cases k <;> exact id) (fun h => hk (Op.finish.inj h).symm)
      · unfold finish
        split
        · rfl
        · exact slot_other hk _ _
      · unfold finish
        intro b t l
        split
        · exact fun e => nomatch e
        · intro e
          cases e
          simp

/-! ## Theorems -/

/-- An entry that every browser plays. -/
def exEntry (t c : Nat) : Entry := ⟨t, some 4, some 3, c⟩

def exCatalog (t c : Nat) : Catalog := ⟨[exEntry t c], [⟨t + 1, none, none, c⟩]⟩

/-- Connecting, a catalog, a canvas and a worklet. -/
def exPlay : List Op :=
  [.connect (some ['/', 'a']), .established true, .catalog (some (some (exCatalog 0 7))), .canvas true, .worklet true]

def all : Nat → Bool := fun _ => true

/-- **What is played is wanted**: a subscription is held only for the track of the entry that is first in the last catalog, and for
video only with a canvas and while visible, for audio only with a worklet and while not muted. -/
theorem c120_track {sup : Nat → Bool} {tr : Trace} {s : State} (h : (machine sup).Reach tr s) (k : Kind) (x : Sub)
    (hx : (slot k s).cur = some x) : ∃ b e, wanted k tr = some (b, e) ∧ x.info.track = e.track := by
  have v := inv_reach h
  rw [← target_wanted v]
  exact (v.held k).on x hx

example : (slot .video ((machine all).run exPlay).2).cur = some ⟨0, 0, exEntry 0 7⟩ ∧
    wanted .video ((machine all).run exPlay).1 = some (0, exEntry 0 7) := by decide

/-- In particular nothing is downloaded while muted, nor while hidden. -/
theorem c120_off {sup : Nat → Bool} {tr : Trace} {s : State} (h : (machine sup).Reach tr s) :
    ((told tr).muted = true → s.audio.cur = none) ∧ ((told tr).visible = false → s.video.cur = none) ∧
      ((told tr).canvas = false → s.video.cur = none) ∧ ((told tr).worklet = false → s.audio.cur = none) := by
  have key : ∀ k, allowed k (told tr) = false → (slot k s).cur = none := by
    intro k hk
    cases hc : (slot k s).cur with
    | none => rfl
    | some x =>
      obtain ⟨b, e, h1, _⟩ := c120_track h k x hc
      unfold wanted at h1
      rw [hk] at h1
      cases h1
  exact ⟨fun h => key .audio (by simp [allowed, h]), fun h => key .video (by simp [allowed, h]), fun h => key .video (by simp [allowed, h]),
    fun h => key .audio (by simp [allowed, h])⟩

example : (told ((machine all).run (exPlay ++ [.muted true])).1).muted = true := by decide

/-- **It was subscribed from a catalog that came**, of the broadcast it was subscribed from, whose first entry it was. -/
theorem c120_origin {sup : Nat → Bool} {tr : Trace} {s : State} (h : (machine sup).Reach tr s) (k : Kind) (x : Sub)
    (hx : (slot k s).cur = some x) : ∃ c, (x.broadcast, some c) ∈ (told tr).heard ∧ first k c = some x.info :=
  ((inv_reach h).held k).from' x hx

theorem wanted_heard {k : Kind} {tr : Trace} {b : Nat} {e : Entry} (h : wanted k tr = some (b, e)) :
    ∃ c, (b, some c) ∈ (told tr).heard ∧ first k c = some e := by
  unfold wanted at h
  split at h
  · cases hl : (told tr).heard.getLast? with
    | none => rw [hl] at h; cases h
    | some p =>
      obtain ⟨b', c⟩ := p
      cases c with
      | none => rw [hl] at h; cases h
      | some c =>
        rw [hl] at h
        dsimp only at h
        cases hf : first k c with
        | none => rw [hf] at h; cases h
        | some e' =>
          rw [hf] at h
          cases h
          exact ⟨c, last_mem hl, hf⟩
  · cases h

/-- **It is of the current broadcast**, if no two broadcasts have the same name for the track.  Full claim: without the proviso;
`c120_stale` shows that it is needed. -/
theorem c120_source_partial {sup : Nat → Bool} {tr : Trace} {s : State} (h : (machine sup).Reach tr s) (k : Kind) (x : Sub)
    (hx : (slot k s).cur = some x)
    (hn : ∀ b c e b' c' e', (b, some c) ∈ (told tr).heard → (b', some c') ∈ (told tr).heard → first k c = some e →
      first k c' = some e' → e.track = e'.track → b = b') : ∃ e, wanted k tr = some (x.broadcast, e) := by
  obtain ⟨b, e, h1, h2⟩ := c120_track h k x hx
  obtain ⟨c, h3, h4⟩ := c120_origin h k x hx
  obtain ⟨c', h5, h6⟩ := wanted_heard h1
  rw [hn _ _ _ _ _ _ h3 h5 h4 h6 h2]
  exact ⟨e, h1⟩

/-- **It is decoded as the catalog says**, if catalogs never change the configuration of a track.  Full claim: without the proviso;
`c120_config` shows that it is needed. -/
theorem c120_config_partial {sup : Nat → Bool} {tr : Trace} {s : State} (h : (machine sup).Reach tr s) (k : Kind) (x : Sub)
    (hx : (slot k s).cur = some x)
    (hn : ∀ b c e b' c' e', (b, some c) ∈ (told tr).heard → (b', some c') ∈ (told tr).heard → first k c = some e →
      first k c' = some e' → e.track = e'.track → e = e') : ∃ b, wanted k tr = some (b, x.info) := by
  obtain ⟨b, e, h1, h2⟩ := c120_track h k x hx
  obtain ⟨c, h3, h4⟩ := c120_origin h k x hx
  obtain ⟨c', h5, h6⟩ := wanted_heard h1
  rw [hn _ _ _ _ _ _ h3 h5 h4 h6 h2]
  exact ⟨b, h1⟩

/-- After connecting to another broadcast whose track has the same name, the track of the first one is still played. -/
theorem c120_stale : ∃ ops, wanted .video ((machine all).run ops).1 = some (1, exEntry 0 7) ∧
    (told ((machine all).run ops).1).names = [['a'], ['b']] ∧
    (slot .video ((machine all).run ops).2).cur = some ⟨0, 0, exEntry 0 7⟩ :=
  ⟨exPlay ++ [.connect (some ['/', 'b']), .established true, .catalog (some (some (exCatalog 0 7)))], by decide⟩

/-- A catalog that changes the configuration of the track leaves the decoder as it was. -/
theorem c120_config : ∃ ops, wanted .video ((machine all).run ops).1 = some (0, exEntry 0 8) ∧
    (slot .video ((machine all).run ops).2).cur = some ⟨0, 0, exEntry 0 7⟩ :=
  ⟨exPlay ++ [.catalog (some (some (exCatalog 0 8)))], by decide⟩

/-! ### Playing -/

theorem sound_snoc {tr : Trace} {e : Op × Out} (h : Sound (tr ++ [e])) : Sound tr := fun x hx => h x (List.mem_append_left _ hx)

/-- **What is wanted and can be decoded is played**, unless the track was over or failed and nothing has made the player look again
since. -/
theorem c120_plays {sup : Nat → Bool} {tr : Trace} {s : State} (h : (machine sup).Reach tr s) (ok : Sound tr) (k : Kind)
    (hf : ∀ a b o, tr = a ++ (.finish k, o) :: b → ∃ e ∈ b, Touches k e) (b : Nat) (e : Entry) (hw : wanted k tr = some (b, e))
    (hp : Playable sup k e) : ∃ x, (slot k s).cur = some x ∧ x.info.track = e.track := by
  have key : Sound tr → (∀ a b o, tr = a ++ (.finish k, o) :: b → ∃ e ∈ b, Touches k e) → ∀ b e, target k s = some (b, e) →
      Playable sup k e → ∃ x, (slot k s).cur = some x := by
    refine Machine.Reach.induct (M := machine sup) (P := fun tr s => Sound tr →
      (∀ a b o, tr = a ++ (.finish k, o) :: b → ∃ e ∈ b, Touches k e) → ∀ b e, target k s = some (b, e) →
      Playable sup k e → ∃ x, (slot k s).cur = some x) ?_ ?_ h
    · intro _ _ b e ht
      cases k <;> cases ht
    · intro tr s op hr ih ok hf b e ht hp
      have ok' := sound_snoc ok
      have v' := inv_step (sup := sup) (inv_reach hr) op
      change target k (step sup s op).2 = some (b, e) at ht
      show ∃ x, (slot k (step sup s op).2).cur = some x
      have hw := (target_wanted v' k).symm.trans ht
      have hnf : ∀ a b o, tr = a ++ (.finish k, o) :: b → (∃ e ∈ b, Touches k e) ∨ Touches k (op, (step sup s op).1) := by
        intro a b o hab
        obtain ⟨x, hx, ht⟩ := hf a (b ++ [(op, (step sup s op).1)]) o (by rw [hab]; simp)
        rcases List.mem_append.1 hx with hx | hx
        · exact .inl ⟨x, hx, ht⟩
        · rw [List.mem_singleton.1 hx] at ht
          exact .inr ht
      cases does_step hr ok' k op with
      | none h1 h2 h3 h4 =>
        rw [h1]
        refine ih ok' (fun a b o hab => (hnf a b o hab).resolve_right h3) b e ?_ hp
        have hg : gate k (step sup s op).2 = gate k s := by
          have h5 := gate_allowed v' k
          rw [h5, gate_allowed (inv_reach hr) k, told_snoc]
          generalize (step sup s op).1 = o at h3
          cases o with
          | did l =>
            cases op with
            | canvas b => cases k with | video => exact absurd trivial h3 | audio => rfl
            | visible b => cases k with | video => exact absurd trivial h3 | audio => rfl
            | worklet b => cases k with | audio => exact absurd trivial h3 | video => rfl
            | muted b => cases k with | audio => exact absurd trivial h3 | video => rfl
            | established b => cases b <;> cases k <;> rfl
            | catalog c => cases c <;> cases k <;> rfl
            | connect p => cases k <;> rfl
            | finish k' => cases k <;> rfl
          | panic => cases op with
            | established b => cases b <;> rfl
            | catalog c => cases c <;> rfl
            | _ => rfl
          | invalid => cases op with
            | established b => cases b <;> rfl
            | catalog c => cases c <;> rfl
            | _ => rfl
        rw [← ht]
        exact (target_congr (congrArg Slot.src h1) (congrArg Slot.cat h1) hg).symm
      | finish h1 _ _ =>
        subst h1
        obtain ⟨x, hx, _⟩ := hf tr [] _ rfl
        cases hx
      | off h1 _ _ _ =>
        change wanted k (tr ++ [(op, (step sup s op).1)]) = none at h1
        rw [hw] at h1
        cases h1
      | keep b' e' x _ _ _ h1 _ _ => exact ⟨x, h1⟩
      | fresh b' e' n h1 _ h2 _ _ =>
        change wanted k (tr ++ [(op, (step sup s op).1)]) = _ at h1
        rw [hw] at h1
        cases h1
        rw [h2, if_pos ((usable_playable sup k e).2 hp)]
        exact ⟨_, rfl⟩
  obtain ⟨x, hx⟩ := key ok hf b e ((target_wanted (inv_reach h) k).trans hw) hp
  obtain ⟨b', e', h1, h2⟩ := c120_track h k x hx
  rw [hw] at h1
  cases h1
  exact ⟨x, hx, h2⟩

example : Playable all .video (exEntry 0 7) ∧ ¬ Playable all .video ⟨0, some 4, none, 7⟩ := by
  unfold Playable
  decide

/-- Finished, and looked at again when the canvas was set. -/
example : let tr := ((machine all).run (exPlay ++ [.finish .video, .canvas true])).1
    Sound tr ∧ wanted .video tr = some (0, exEntry 0 7) ∧ Playable all .video (exEntry 0 7) ∧
      tr.drop 5 = [(.finish .video, .did []), (.canvas true, .did [.subscribe .video 0 0])] ∧
      Touches .video (.canvas true, .did [.subscribe .video 0 0]) := by
  unfold Sound Playable
  exact ⟨by decide, by decide, by decide, by decide, trivial⟩

/-- **A track that is still wanted is kept**, without another subscription. -/
theorem c120_keep {sup : Nat → Bool} {tr : Trace} {s : State} (h : (machine sup).Reach tr s) (ok : Sound tr) (k : Kind) (op : Op)
    (hop : op ≠ .finish k) (x : Sub) (hx : (slot k s).cur = some x) (b : Nat) (e : Entry)
    (hw : wanted k (tr ++ [(op, (step sup s op).1)]) = some (b, e)) (ht : e.track = x.info.track) :
    (slot k (step sup s op).2).cur = some x ∧ ∀ b t l, (step sup s op).1 = .did l → Event.subscribe k b t ∉ l := by
  cases does_step h ok k op with
  | none h1 h2 _ _ => exact ⟨by rw [h1]; exact hx, h2⟩
  | finish h1 _ _ => exact absurd h1 hop
  | off h1 _ _ _ =>
    rw [hw] at h1
    cases h1
  | keep b' e' y h1 h2 h3 h4 h5 _ =>
    rw [hx] at h2
    cases h2
    exact ⟨h4, h5⟩
  | fresh b' e' n h1 h2 _ _ _ =>
    rw [hw] at h1
    cases h1
    exact absurd ht.symm (h2 x hx)

/-- **A subscription is made only for what is wanted** and not yet played. -/
theorem c120_subscribes {sup : Nat → Bool} {tr : Trace} {s : State} (h : (machine sup).Reach tr s) (ok : Sound tr) (k : Kind) (op : Op)
    (b t : Nat) (l : List Event) (hl : (step sup s op).1 = .did l) (hm : Event.subscribe k b t ∈ l) :
    (∃ e, wanted k (tr ++ [(op, (step sup s op).1)]) = some (b, e) ∧ e.track = t) ∧
      ∀ x, (slot k s).cur = some x → x.info.track ≠ t := by
  cases does_step h ok k op with
  | none _ h1 _ _ => exact absurd hm (h1 b t l hl)
  | finish _ _ h1 => exact absurd hm (h1 b t l hl)
  | off _ _ h1 _ => exact absurd hm (h1 b t l hl)
  | keep b' e' y _ _ _ _ h1 _ => exact absurd hm (h1 b t l hl)
  | fresh b' e' n h1 h2 _ h3 _ =>
    obtain ⟨l', h4, h5⟩ := h3
    rw [hl] at h4
    cases h4
    obtain ⟨rfl, rfl⟩ := (h5 b t).1 hm
    exact ⟨⟨e', h1, rfl⟩, h2⟩

example : (step all ((machine all).run exPlay).2 (.catalog (some (some (exCatalog 5 7))))).1 =
    .did [.live, .subscribe .audio 0 6, .subscribe .video 0 5] := by decide

/-! ### Connecting -/

/-- Connecting elsewhere, or leaving, does not change what is played. -/
theorem c120_leave {sup : Nat → Bool} {tr : Trace} {s : State} (_h : (machine sup).Reach tr s) (p : Option (List Char)) :
    (step sup s (.connect p)).2.video = s.video ∧ (step sup s (.connect p)).2.audio = s.audio ∧
      (step sup s (.connect p)).2.broadcast = s.broadcast := by
  unfold step
  split
  · exact ⟨rfl, rfl, rfl⟩
  · cases p <;> exact ⟨rfl, rfl, rfl⟩

/-- So after leaving, the video goes on, and the page is told that it is live again. -/
theorem c120_left : (slot .video ((machine all).run (exPlay ++ [.connect none])).2).cur = some ⟨0, 0, exEntry 0 7⟩ ∧
    (step all ((machine all).run (exPlay ++ [.connect none])).2 (.catalog (some (some (exCatalog 0 7))))).1 = .did [.live] := by
  decide

/-- What the page is told. -/
theorem c120_status {sup : Nat → Bool} (s : State) (op : Op) (l : List Event)
    (hl : (step sup s op).1 = .did l) : (l.filter fun e => match e with | .subscribe _ _ _ => false | _ => true) =
      match op with
      | .connect (some _) => [.connecting]
      | .connect none => [.disconnected]
      | .established true => [.connected]
      | .established false => [.error]
      | .catalog (some (some _)) => [.live]
      | .catalog (some none) => [.offline]
      | .catalog none => [.error]
      | _ => [] := by
  have sub : ∀ (k : Kind) (t : State) (r : List Event × State), Reinit sup k t r →
      r.1.filter (fun e => match e with | .subscribe _ _ _ => false | _ => true) = [] := by
    intro k t r hr
    cases hr <;> rfl
  unfold step at hl
  split at hl
  · cases hl
  · cases op with
    | connect p => cases p <;> cases hl <;> rfl
    | established ok =>
      dsimp only at hl
      unfold established at hl
      cases hc : s.connect with
      | none => rw [hc] at hl; cases hl
      | some p =>
        rw [hc] at hl
        dsimp only at hl
        split at hl
        · cases ok <;> cases hl <;> rfl
        · cases hl
    | catalog c =>
      dsimp only at hl
      unfold catalog at hl
      cases hb : s.broadcast with
      | none => rw [hb] at hl; cases hl
      | some b =>
        rw [hb] at hl
        cases c with
        | none => cases hl; rfl
        | some c =>
          cases hl
          rw [List.filter_cons, List.filter_append, sub _ _ _ (setCatalog_spec sup _ _ _ _).2.2, sub _ _ _ (setCatalog_spec sup _ _ _ _).2.2]
          cases c <;> rfl
    | canvas b => cases hl; exact sub _ _ _ (reinit_spec _ _ _).1
    | visible b => cases hl; exact sub _ _ _ (reinit_spec _ _ _).1
    | worklet b => cases hl; exact sub _ _ _ (reinit_spec _ _ _).1
    | muted b => cases hl; exact sub _ _ _ (reinit_spec _ _ _).1
    | finish k =>
      dsimp only at hl
      unfold finish at hl
      split at hl
      · cases hl
      · cases hl
        rfl

/-- **The broadcasts have the paths of the URLs**, without the slash; catalogs are taken only from the one that was connected last. -/
theorem c120_names {sup : Nat → Bool} {tr : Trace} {s : State} (h : (machine sup).Reach tr s) :
    s.names = (told tr).names ∧ ∀ b, s.broadcast = some b → b + 1 = (told tr).names.length := by
  have v := inv_reach h
  exact ⟨v.names, fun b hb => v.names ▸ v.current b hb⟩

/-- **The first panic** is exactly when the connection to a URL whose path does not start with a slash is established, or failed. -/
theorem c120_panic {sup : Nat → Bool} {tr : Trace} {s : State} (h : (machine sup).Reach tr s) (ok : Sound tr) (op : Op) :
    (step sup s op).1 = .panic ↔ (∃ b, op = .established b) ∧ ∃ p, (told tr).pending = some p ∧ p.head? ≠ some '/' := by
  have v := inv_reach h
  have hd := sound_dead v ok
  unfold step
  rw [if_neg (by simp [hd]), ← v.pending]
  cases op with
  | established b =>
    dsimp only
    unfold established
    cases hc : s.connect with
    | none => simp
    | some p =>
      dsimp only
      split
      · cases b <;> simp
      · rename_i hne
        refine ⟨fun _ => ⟨⟨b, rfl⟩, p, rfl, ?_⟩, fun _ => rfl⟩
        intro hh
        cases p with
        | nil => cases hh
        | cons c l =>
          cases hh
          exact hne l rfl
  | connect p => cases p <;> simp
  | catalog c =>
    dsimp only
    unfold catalog
    cases s.broadcast with
    | none => simp
    | some b => cases c <;> simp
  | finish k =>
    dsimp only
    unfold finish
    split <;> simp
  | _ => simp [did]

/-- Without such URLs nothing panics. -/
theorem c120_sound_partial {sup : Nat → Bool} {tr : Trace} {s : State} (h : (machine sup).Reach tr s)
    (hn : ∀ p o, (.connect (some p), o) ∈ tr → p.head? = some '/') : Sound tr := by
  have key : (∀ p o, (.connect (some p), o) ∈ tr → p.head? = some '/') →
      Sound tr ∧ ∀ p, (told tr).pending = some p → p.head? = some '/' := by
    refine Machine.Reach.induct (M := machine sup) (P := fun tr _ => (∀ p o, (.connect (some p), o) ∈ tr → p.head? = some '/') →
      Sound tr ∧ ∀ p, (told tr).pending = some p → p.head? = some '/') ?_ ?_ h
    · exact fun _ => ⟨fun e he => (nomatch he), fun p hp => (nomatch hp)⟩
    · intro tr s op hr ih hn
      obtain ⟨ok, hp⟩ := ih fun p o hm => hn p o (List.mem_append_left _ hm)
      constructor
      · intro e he
        rcases List.mem_append.1 he with he | he
        · exact ok e he
        · rw [List.mem_singleton.1 he]
          intro hpan
          obtain ⟨_, p, h1, h2⟩ := (c120_panic hr ok op).1 hpan
          exact h2 (hp p h1)
      · intro p
        have hmem : ∀ o, (op, (step sup s op).1) = o → o ∈ tr ++ [(op, (step sup s op).1)] := by
          rintro o rfl
          exact List.mem_append_right _ (List.mem_singleton.2 rfl)
        show (told (tr ++ [(op, (step sup s op).1)])).pending = some p → _
        rw [told_snoc]
        have hm2 := hmem _ rfl
        have hn2 := hn
        change ∀ p o, (Op.connect (some p), o) ∈ tr ++ [(op, (step sup s op).1)] → _ at hn2
        generalize (step sup s op).1 = o at hm2 hn2
        cases op with
        | connect q =>
          cases o with
          | did l =>
            intro hq
            cases hq
            exact hn2 p _ hm2
          | panic => exact hp p
          | invalid => exact hp p
        | established b => cases b <;> cases o <;> first | exact hp p | exact fun hq => (nomatch hq)
        | catalog c => cases c <;> cases o <;> exact hp p
        | _ => cases o <;> exact hp p
  exact (key hn).1

example : (((machine all).run exPlay).1.filterMap fun e => match e.1 with | .connect (some p) => some p | _ => none) = [['/', 'a']] := by
  decide

/-- A URL such as `moq:a`, whose path is `a`, panics though connecting fails with an error. -/
theorem c120_scheme : ((machine all).run [.connect (some ['a']), .established false]).1.map (·.2) = [.did [.connecting], .panic] := by
  decide

/-! ### Strengthened -/

/-- **Only what can be decoded is held.** -/
theorem c120_usable {sup : Nat → Bool} {tr : Trace} {s : State} (h : (machine sup).Reach tr s) (ok : Sound tr) (k : Kind) (x : Sub)
    (hx : (slot k s).cur = some x) : Playable sup k x.info := by
  have key : Sound tr → ∀ x, (slot k s).cur = some x → Playable sup k x.info := by
    refine Machine.Reach.induct (M := machine sup) (P := fun tr s => Sound tr → ∀ x, (slot k s).cur = some x → Playable sup k x.info)
      ?_ ?_ h
    · intro _ x hx
      cases k <;> cases hx
    · intro tr s op hr ih ok x hx
      have ih := ih (sound_snoc ok)
      change (slot k (step sup s op).2).cur = some x at hx
      cases does_step hr (sound_snoc ok) k op with
      | none h1 _ _ _ => exact ih x (h1 ▸ hx)
      | finish _ h1 _ => rw [h1] at hx; cases hx
      | off _ h1 _ _ => rw [h1] at hx; cases hx
      | keep b e y _ h1 _ h2 _ _ =>
        rw [h2] at hx
        cases hx
        exact ih _ h1
      | fresh b e n _ _ h2 _ _ =>
        rw [h2] at hx
        split at hx
        · rename_i hu
          cases hx
          exact (usable_playable sup k e).1 hu
        · cases hx
  exact key ok x hx

/-- **Whatever is newly held was subscribed in that step**, from the wanted broadcast, and is decoded as the last catalog says. -/
theorem c120_new {sup : Nat → Bool} {tr : Trace} {s : State} (h : (machine sup).Reach tr s) (ok : Sound tr) (k : Kind) (op : Op) (x : Sub)
    (hx : (slot k (step sup s op).2).cur = some x) (hn : (slot k s).cur ≠ some x) :
    wanted k (tr ++ [(op, (step sup s op).1)]) = some (x.broadcast, x.info) ∧
      ∃ l, (step sup s op).1 = .did l ∧ Event.subscribe k x.broadcast x.info.track ∈ l := by
  cases does_step h ok k op with
  | none h1 _ _ _ => exact absurd (h1 ▸ hx) hn
  | finish _ h1 _ => rw [h1] at hx; cases hx
  | off _ h1 _ _ => rw [h1] at hx; cases hx
  | keep b e y _ h1 _ h2 _ _ => exact absurd (h1.trans (h2.symm.trans hx)) hn
  | fresh b e n h1 _ h2 h3 _ =>
    rw [h2] at hx
    split at hx
    · cases hx
      obtain ⟨l, h4, h5⟩ := h3
      exact ⟨h1, l, h4, (h5 _ _).2 ⟨rfl, rfl⟩⟩
    · cases hx

example : (slot .audio ((machine all).run exPlay).2).cur = some ⟨1, 0, ⟨1, none, none, 7⟩⟩ ∧
    (slot .audio ((machine all).run (exPlay.take 4)).2).cur = none := by decide

/-- The subscriptions among the events. -/
def subs (k : Kind) (l : List Event) : List (Nat × Nat) :=
  l.filterMap fun e => match e with
    | .subscribe k' b t => if k' = k then some (b, t) else none
    | _ => none

theorem subs_reinit {sup : Nat → Bool} {k k' : Kind} {s : State} {r : List Event × State} (h : Reinit sup k' s r) :
    (subs k r.1).length ≤ if k' = k then 1 else 0 := by
  cases h with
  | off => exact Nat.zero_le _
  | keep => exact Nat.zero_le _
  | fresh b e t _ _ _ =>
    unfold subs
    by_cases hk : k' = k
    · simp [hk]
    · simp [hk]

theorem subs_append (k : Kind) (a b : List Event) : subs k (a ++ b) = subs k a ++ subs k b := List.filterMap_append

/-- **At most one subscription of each kind** is made in a step. -/
theorem c120_single {sup : Nat → Bool} (s : State) (op : Op) (k : Kind) (l : List Event) (hl : (step sup s op).1 = .did l) :
    (subs k l).length ≤ 1 := by
  have one : ∀ (k' : Kind) (t : State) (r : List Event × State), Reinit sup k' t r → (subs k r.1).length ≤ 1 := by
    intro k' t r hr
    have := subs_reinit (k := k) hr
    split at this <;> omega
  unfold step at hl
  split at hl
  · cases hl
  · cases op with
    | connect p => cases p <;> cases hl <;> exact Nat.zero_le _
    | established ok =>
      dsimp only at hl
      unfold established at hl
      cases hc : s.connect with
      | none => rw [hc] at hl; cases hl
      | some p =>
        rw [hc] at hl
        dsimp only at hl
        split at hl
        · cases ok <;> cases hl <;> exact Nat.zero_le _
        · cases hl
    | catalog c =>
      dsimp only at hl
      unfold catalog at hl
      cases hb : s.broadcast with
      | none => rw [hb] at hl; cases hl
      | some b =>
        rw [hb] at hl
        cases c with
        | none => cases hl; exact Nat.zero_le _
        | some c =>
          cases hl
          have ha := subs_reinit (k := k) (setCatalog_spec sup .audio { s with broadcast := if c.isSome then some b else none } b c).2.2
          have hv := subs_reinit (k := k) (setCatalog_spec sup .video (setCatalog sup .audio { s with broadcast := if c.isSome then some b else none } b c).2 b c).2.2
          have hz : ∀ l, subs k ((if c.isSome then Event.live else .offline) :: l) = subs k l := by
            intro l
            cases c <;> rfl
          rw [hz, subs_append, List.length_append]
          cases k with
          | video =>
            rw [if_neg (show ¬ Kind.audio = Kind.video by decide)] at ha
            rw [if_pos rfl] at hv
            omega
          | audio =>
            rw [if_pos rfl] at ha
            rw [if_neg (show ¬ Kind.video = Kind.audio by decide)] at hv
            omega
    | canvas b => cases hl; exact one _ _ _ (reinit_spec _ _ _).1
    | visible b => cases hl; exact one _ _ _ (reinit_spec _ _ _).1
    | worklet b => cases hl; exact one _ _ _ (reinit_spec _ _ _).1
    | muted b => cases hl; exact one _ _ _ (reinit_spec _ _ _).1
    | finish k' =>
      dsimp only at hl
      unfold finish at hl
      split at hl
      · cases hl
      · cases hl
        exact Nat.zero_le _

/-- **A track that is over or failed is given up.** -/
theorem c120_finish {sup : Nat → Bool} {tr : Trace} {s : State} (h : (machine sup).Reach tr s) (ok : Sound tr) (k : Kind) :
    (slot k (step sup s (.finish k)).2).cur = none := by
  cases does_step h ok k (.finish k) with
  | finish _ h1 _ => exact h1
  | none _ _ _ h1 => exact absurd rfl h1
  | off _ _ _ h1 => exact absurd rfl h1
  | keep _ _ _ _ _ _ _ _ h1 => exact absurd rfl h1
  | fresh _ _ _ _ _ _ _ h1 => exact absurd rfl h1

/-- After a panic every call panics. -/
theorem c120_dead {sup : Nat → Bool} {tr : Trace} {s : State} (h : (machine sup).Reach tr s) (hp : ¬ Sound tr) (op : Op) :
    (step sup s op).1 = .panic := by
  have hd : s.dead = true := by
    refine (inv_reach h).dead.2 ?_
    simpa [Sound] using hp
  unfold step
  rw [if_pos hd]

/-- Whether there is a broadcast that is neither over nor failed: the last of connecting, the end and an error. -/
def listen (b : Bool) : Op × Out → Bool
  | (.established true, .did _) => true
  | (.catalog none, .did _) => false
  | (.catalog (some none), .did _) => false
  | _ => b

def listening (tr : Trace) : Bool := tr.foldl listen false

/-- **Catalogs are taken while there is a broadcast**: until it is over or failed, any number of them. -/
theorem c120_listens {sup : Nat → Bool} {tr : Trace} {s : State} (h : (machine sup).Reach tr s) (ok : Sound tr)
    (c : Option (Option Catalog)) : (step sup s (.catalog c)).1 = .invalid ↔ listening tr = false := by
  have key : s.broadcast.isSome = listening tr := by
    refine Machine.Reach.induct (M := machine sup) (P := fun tr s => s.broadcast.isSome = listening tr) rfl ?_ h
    intro tr s op hr ih
    show (step sup s op).2.broadcast.isSome = listening (tr ++ [(op, (step sup s op).1)])
    unfold listening
    rw [List.foldl_append]
    show _ = listen (listening tr) (op, (step sup s op).1)
    rw [← ih]
    unfold step
    split
    · cases op with
      | established b => cases b <;> rfl
      | catalog c => cases c with
        | none => rfl
        | some c => cases c <;> rfl
      | _ => rfl
    · cases op with
      | connect p => cases p <;> rfl
      | established b =>
        dsimp only
        unfold established
        cases s.connect with
        | none => cases b <;> rfl
        | some p =>
          dsimp only
          split <;> cases b <;> rfl
      | catalog c =>
        dsimp only
        unfold catalog
        cases hb : s.broadcast with
        | none => cases c with
          | none => rw [hb]; rfl
          | some c => cases c <;> (rw [hb]; rfl)
        | some b =>
          cases c with
          | none => rfl
          | some c =>
            dsimp only
            have e1 := (setCatalog_spec sup .audio { s with broadcast := if c.isSome then some b else none } b c).1.2.1
            have e2 := (setCatalog_spec sup .video (setCatalog sup .audio { s with broadcast := if c.isSome then some b else none } b c).2 b c).1.2.1
            rw [e2, e1]
            cases c <;> rfl
      | canvas b => exact congrArg Option.isSome (reinit_spec _ _ _).2.1.2.1
      | visible b => exact congrArg Option.isSome (reinit_spec _ _ _).2.1.2.1
      | worklet b => exact congrArg Option.isSome (reinit_spec _ _ _).2.1.2.1
      | muted b => exact congrArg Option.isSome (reinit_spec _ _ _).2.1.2.1
      | finish k =>
        dsimp only
        unfold finish
        split
        · rfl
        · exact congrArg Option.isSome (setSlot_flags _ _ _).2.1
  rw [← key]
  unfold step
  rw [if_neg (by simp [sound_dead (inv_reach h) ok])]
  dsimp only
  unfold catalog
  cases s.broadcast with
  | none => simp
  | some b => cases c <;> simp

/-- **The end of connecting is taken once**, and only for the URL given last. -/
theorem c120_waits {sup : Nat → Bool} {tr : Trace} {s : State} (h : (machine sup).Reach tr s) (ok : Sound tr) (b : Bool) :
    (step sup s (.established b)).1 = .invalid ↔ (told tr).pending = none := by
  have v := inv_reach h
  rw [← v.pending]
  unfold step
  rw [if_neg (by simp [sound_dead v ok])]
  dsimp only
  unfold established
  cases s.connect with
  | none => simp
  | some p =>
    dsimp only
    split
    · cases b <;> simp
    · simp

end Verif.Props.WasmWatch
