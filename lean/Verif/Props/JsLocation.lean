import Verif.Js.Location

/-!
# Property C117: showing positions in the browser
-/

set_option autoImplicit false

namespace Verif.Props.JsLocation

open Verif Verif.Js.Location

/-! ## Specification -/

/-- The signals, as they were set last. -/
def sig (tr : Trace) : Sig :=
  tr.foldl (fun g e =>
    match e.1 with
    | .enable b => { g with enabled := b }
    | .catalog c => { g with catalog := c }
    | .broadcast b => { g with broadcast := b }
    | .handle h => { g with handle := h }
    | _ => g) ⟨false, none, none, none⟩

/-- It was closed. -/
def Shut (tr : Trace) : Prop := ∃ o, (.close, o) ∈ tr

/-- The section of the catalog that counts. -/
def Shown (g : Sig) (c : Section) : Prop := g.enabled = true ∧ g.catalog = some c

/-- The track of a broadcast that positions are to be read from. -/
def Asked (k : Kind) (g : Sig) (t b : Nat) : Prop :=
  g.broadcast = some b ∧ ∃ c, Shown g c ∧
    match k with
    | .own => c.updates = some t
    | .peer => ∃ h, g.handle = some h ∧ c.peers.lookup h = some t

/-- What the reader of a subscription was given last, and whether it has taken it: its last position, none if the track has
ended. -/
def view (tr : Trace) (i : Nat) : Option Next × Option Nat :=
  tr.foldl (fun v e =>
    match e with
    | (.settle j n, .ok) => if j = i then (some n, v.2) else v
    | (.go j, o) =>
      if j = i ∧ o ≠ .invalid then
        match v.1 with
        | some (.position p) => (none, some p)
        | some .done => (none, none)
        | _ => (none, v.2)
      else v
    | _ => v) (none, none)

/-! ## Lemmas -/

theorem sig_snoc (tr : Trace) (op : Op) (o : Out) : sig (tr ++ [(op, o)]) =
    match op with
    | .enable b => { sig tr with enabled := b }
    | .catalog c => { sig tr with catalog := c }
    | .broadcast b => { sig tr with broadcast := b }
    | .handle h => { sig tr with handle := h }
    | _ => sig tr := by
  unfold sig
  rw [List.foldl_append]
  cases op <;> rfl

theorem shut_snoc (tr : Trace) (op : Op) (o : Out) : Shut (tr ++ [(op, o)]) ↔ Shut tr ∨ op = .close := by
  unfold Shut
  simp only [List.mem_append, List.mem_singleton, Prod.mk.injEq]
  constructor
  · rintro ⟨x, h | h⟩
    · exact .inl ⟨x, h⟩
    · exact .inr h.1.symm
  · rintro (⟨x, h⟩ | h)
    · exact ⟨x, .inl h⟩
    · exact ⟨o, .inr ⟨h.symm, rfl⟩⟩

theorem part_iff (g : Sig) (c : Section) : part g = some c ↔ Shown g c := by
  unfold part Shown
  split <;> simp [*]

theorem key_iff (k : Kind) (g : Sig) (t b : Nat) : key k g = some (b, some t) ↔ Asked k g t b := by
  unfold key Asked
  cases hb : g.broadcast with
  | none => simp
  | some b' =>
    unfold track
    simp only [Option.some.injEq, Prod.mk.injEq, ← part_iff]
    refine and_congr_right fun _ => ?_
    cases hp : part g with
    | none => cases k <;> simp
    | some c =>
      cases k with
      | own => simp
      | peer => cases hh : g.handle <;> simp

theorem item_get (s : State) (i j : Nat) (f : Item → Item) :
    (onItem s i f).items[j]? = if i = j then (s.items[j]?).map f else s.items[j]? := by
  unfold onItem
  rw [List.getElem?_modify]
  split
  · rfl
  · simp

structure Base (k : Kind) (s : State) : Prop where
  one : ∀ (i : Nat) (x : Item), s.items[i]? = some x → x.sub = true → s.active = some i
  act : ∀ i, s.active = some i → i + 1 = s.items.length ∧ s.closed = false ∧
    ∃ x, s.items[i]? = some x ∧ key k s.sig = some (x.broadcast, some x.track) ∧ (x.sub = true ↔ x.loop ≠ .over)
  has : s.closed = false → ∀ t b, key k s.sig = some (b, some t) → ∃ i, s.active = some i

structure Inv (k : Kind) (tr : Trace) (s : State) : Prop where
  sig : s.sig = sig tr
  shut : s.closed = true ↔ Shut tr
  base : Base k s

/-- After the cleanups, nothing is open. -/
structure Idle (s t : State) : Prop where
  active : t.active = none
  off : ∀ (i : Nat) (x : Item), t.items[i]? = some x → x.sub = false
  sig : t.sig = s.sig
  closed : t.closed = s.closed
  len : t.items.length = s.items.length

theorem cleanup_idle (k : Kind) {s : State} (h : ∀ (i : Nat) (x : Item), s.items[i]? = some x → x.sub = true → s.active = some i) :
    Idle s (cleanup k s) := by
  have key : Idle s (match s.active with
      | some i => { onItem s i fun x => { x with sub := false } with active := none }
      | none => s) := by
    split
    · next i hi =>
      refine ⟨rfl, fun j x hx => ?_, rfl, rfl, by simp [onItem]⟩
      have hx : (onItem s i fun x => { x with sub := false }).items[j]? = some x := hx
      rw [item_get] at hx
      split at hx
      · cases hy : s.items[j]? with
        | none => rw [hy] at hx; cases hx
        | some y => rw [hy] at hx; cases hx; rfl
      · next hne =>
        cases hs : x.sub with
        | false => rfl
        | true =>
          have := h j x hx hs
          rw [hi] at this
          cases this
          exact absurd rfl hne
    · next hn =>
      refine ⟨hn, fun j x hx => ?_, rfl, rfl, rfl⟩
      cases hs : x.sub with
      | false => rfl
      | true =>
        have := h j x hx hs
        rw [hn] at this
        cases this
  cases k with
  | own => exact key
  | peer => exact ⟨key.active, key.off, key.sig, key.closed, key.len⟩

theorem start_base {k : Kind} {s : State} (hc : s.closed = false) (hn : s.active = none)
    (ho : ∀ (i : Nat) (x : Item), s.items[i]? = some x → x.sub = false) : Base k (start k s) := by
  unfold start
  split
  · next b t hk =>
    refine ⟨fun i x hx hs => ?_, fun i hi => ?_, fun _ _ _ _ => ⟨_, rfl⟩⟩
    · dsimp only at hx ⊢
      by_cases hl : i < s.items.length
      · rw [List.getElem?_append_left hl] at hx
        rw [ho i x hx] at hs
        cases hs
      · have : i < (s.items ++ [(⟨t, b, true, .waiting⟩ : Item)]).length := (List.getElem?_eq_some_iff.1 hx).1
        simp at this
        rw [show i = s.items.length by omega]
    · cases hi
      exact ⟨by simp, hc, ⟨t, b, true, .waiting⟩, by simp, hk, by simp⟩
  · next hk =>
    refine ⟨fun i x hx hs => ?_, fun i hi => ?_, fun _ t b h => ?_⟩
    · rw [ho i x hx] at hs
      cases hs
    · rw [hn] at hi
      cases hi
    · exact absurd h (by intro h; exact hk b t h)

theorem initial_rest (k : Kind) (s : State) : (showInitial k s).items = s.items ∧ (showInitial k s).active = s.active ∧
    (showInitial k s).closed = s.closed ∧ (showInitial k s).sig = s.sig := by
  unfold showInitial
  split
  · split <;> exact ⟨rfl, rfl, rfl, rfl⟩
  · exact ⟨rfl, rfl, rfl, rfl⟩

/-- The part of `set` before the subscription is changed. -/
def first (k : Kind) (s : State) (g : Sig) : State :=
  if part g = part s.sig then { s with sig := g } else showInitial k { s with sig := g }

theorem first_rest (k : Kind) (s : State) (g : Sig) : (first k s g).items = s.items ∧ (first k s g).active = s.active ∧
    (first k s g).closed = s.closed ∧ (first k s g).sig = g := by
  unfold first
  split
  · exact ⟨rfl, rfl, rfl, rfl⟩
  · exact initial_rest k { s with sig := g }

theorem set_eq (k : Kind) (s : State) (g : Sig) (hc : s.closed = false) : Js.Location.set k s g =
    if key k g = key k s.sig then first k s g else start k (cleanup k (first k s g)) := by
  unfold Js.Location.set
  rw [if_neg (by simp [hc])]
  rfl

theorem start_rest (k : Kind) (s : State) : (start k s).sig = s.sig ∧ (start k s).closed = s.closed ∧
    (start k s).current = s.current := by
  unfold start
  split <;> exact ⟨rfl, rfl, rfl⟩

theorem set_base {k : Kind} {s : State} (h : Base k s) (g : Sig) : Base k (Js.Location.set k s g) ∧
    (Js.Location.set k s g).sig = g ∧ (Js.Location.set k s g).closed = s.closed := by
  cases hc : s.closed with
  | true =>
    have e : Js.Location.set k s g = { s with sig := g } := by
      unfold Js.Location.set
      rw [if_pos hc]
    rw [e]
    refine ⟨⟨h.one, fun i hi => ?_, fun h' => ?_⟩, rfl, hc⟩
    · exact absurd ((h.act i hi).2.1.symm.trans hc) (by simp)
    · exact absurd (hc.symm.trans h') (by simp)
  | false =>
    rw [set_eq k s g hc]
    obtain ⟨f1, f2, f3, f4⟩ := first_rest k s g
    split
    · next he =>
      refine ⟨⟨?_, ?_, ?_⟩, f4, f3.trans hc⟩
      · rw [f1, f2]; exact h.one
      · rw [f1, f2, f3, f4, he]; exact h.act
      · rw [f2, f3, f4, he]; exact h.has
    · have w := cleanup_idle k (s := first k s g) (by rw [f1, f2]; exact h.one)
      have hcc : (cleanup k (first k s g)).closed = false := (w.closed.trans f3).trans hc
      refine ⟨start_base hcc w.active w.off, ?_, ?_⟩
      · rw [(start_rest k _).1, w.sig, f4]
      · rw [(start_rest k _).2.1, hcc]

theorem Base.item {k : Kind} {s : State} (h : Base k s) (i : Nat) (f : Item → Item) (c : Option Nat)
    (h1 : ∀ x, s.items[i]? = some x → (f x).sub = true → x.sub = true) (h2 : ∀ x, (f x).track = x.track)
    (h3 : ∀ x, (f x).broadcast = x.broadcast)
    (h4 : ∀ x, s.items[i]? = some x → (x.sub = true ↔ x.loop ≠ .over) → ((f x).sub = true ↔ (f x).loop ≠ .over)) :
    Base k { onItem s i f with current := c } := by
  refine ⟨fun j x hx hs => ?_, fun j hj => ?_, h.has⟩
  · have hx : (onItem s i f).items[j]? = some x := hx
    rw [item_get] at hx
    split at hx
    · next e =>
      subst e
      cases hy : s.items[i]? with
      | none => rw [hy] at hx; cases hx
      | some y =>
        rw [hy] at hx
        cases hx
        exact h.one i y hy (h1 y hy hs)
    · exact h.one j x hx hs
  · obtain ⟨a1, a2, x, a3, a4, a5⟩ := h.act j hj
    refine ⟨by simpa [onItem] using a1, a2, ?_⟩
    show ∃ y, (onItem s i f).items[j]? = some y ∧ _
    rw [item_get, a3]
    split
    · next e =>
      subst e
      refine ⟨f x, rfl, ?_, h4 x a3 a5⟩
      show key k s.sig = _
      rw [h2, h3]
      exact a4
    · exact ⟨x, rfl, a4, a5⟩

theorem step_inv {k : Kind} {tr : Trace} {s : State} (h : Inv k tr s) (op : Op) :
    Inv k (tr ++ [(op, (step k s op).1)]) (step k s op).2 := by
  have sets : ∀ (op : Op) (o : Out) (g : Sig), op ≠ .close → Verif.Props.JsLocation.sig (tr ++ [(op, o)]) = g →
      Inv k (tr ++ [(op, o)]) (Js.Location.set k s g) := by
    intro op o g hne hg
    obtain ⟨b1, b2, b3⟩ := set_base h.base g
    refine ⟨b2.trans hg.symm, ?_, b1⟩
    rw [b3, shut_snoc, h.shut]
    simp [hne]
  have keep : ∀ (op : Op) (o : Out) (t : State), op ≠ .close → Verif.Props.JsLocation.sig (tr ++ [(op, o)]) = s.sig →
      t.sig = s.sig → t.closed = s.closed → Base k t → Inv k (tr ++ [(op, o)]) t := by
    intro op o t hne hg h1 h2 hb
    refine ⟨h1.trans hg.symm, ?_, hb⟩
    rw [h2, shut_snoc, h.shut]
    simp [hne]
  cases op with
  | enable b => exact sets _ _ _ (by simp) (by rw [sig_snoc, h.sig])
  | catalog c => exact sets _ _ _ (by simp) (by rw [sig_snoc, h.sig])
  | broadcast b => exact sets _ _ _ (by simp) (by rw [sig_snoc, h.sig])
  | handle x => exact sets _ _ _ (by simp) (by rw [sig_snoc, h.sig])
  | settle i n =>
    have e : Verif.Props.JsLocation.sig (tr ++ [(.settle i n, (step k s (.settle i n)).1)]) = s.sig := by rw [sig_snoc, h.sig]
    unfold step settle at e ⊢
    dsimp only at e ⊢
    cases hx : s.items[i]? with
    | none =>
      rw [hx] at e
      exact keep _ _ _ (by simp) e rfl rfl h.base
    | some x =>
      rw [hx] at e
      dsimp only at e ⊢
      split
      · next hl =>
        rw [if_pos hl] at e
        refine keep _ _ _ (by simp) e rfl rfl (h.base.item i (fun x => { x with loop := .ready n }) s.current (fun _ _ h => h) (fun _ => rfl) (fun _ => rfl) ?_)
        intro y hy hs
        rw [hx] at hy
        cases hy
        rw [hl] at hs
        simpa using hs
      · next hl =>
        rw [if_neg hl] at e
        exact keep _ _ _ (by simp) e rfl rfl h.base
  | go i =>
    have e : ∀ o, Verif.Props.JsLocation.sig (tr ++ [(.go i, o)]) = s.sig := fun o => by rw [sig_snoc, h.sig]
    have fin : ∀ c, Base k { onItem s i finish with current := c } := fun c =>
      h.base.item i finish c (fun _ _ h => (by cases h)) (fun _ => rfl) (fun _ => rfl) (fun _ _ _ => by simp [finish])
    unfold step go
    dsimp only
    split
    · exact keep _ _ _ (by simp) (e _) rfl rfl h.base
    · next x hx =>
      split
      · next p hl =>
        refine keep _ _ _ (by simp) (e _) rfl rfl (h.base.item i (fun x => { x with loop := .waiting }) (some p) (fun _ _ h => h) (fun _ => rfl) (fun _ => rfl) ?_)
        intro y hy hs
        rw [hx] at hy
        cases hy
        rw [hl] at hs
        simpa using hs
      · exact keep _ _ _ (by simp) (e _) rfl rfl (fin none)
      · exact keep _ _ _ (by simp) (e _) rfl rfl (fin s.current)
      · exact keep _ _ _ (by simp) (e _) rfl rfl h.base
  | close =>
    have hs : Shut (tr ++ [(.close, (step k s .close).1)]) := by rw [shut_snoc]; exact .inr rfl
    have e : Verif.Props.JsLocation.sig (tr ++ [(.close, (step k s .close).1)]) = s.sig := by rw [sig_snoc, h.sig]
    show Inv k _ (close k s)
    unfold close
    split
    · next hc => exact ⟨e.symm, ⟨fun _ => hs, fun _ => hc⟩, h.base⟩
    · have w := cleanup_idle k h.base.one
      refine ⟨w.sig.trans e.symm, ⟨fun _ => hs, fun _ => rfl⟩, ⟨fun i x hx hs => ?_, fun i hi => ?_, fun h => (by cases h)⟩⟩
      · have := w.off i x hx
        rw [hs] at this
        cases this
      · have hi : (cleanup k s).active = some i := hi
        rw [w.active] at hi
        cases hi

theorem inv_reach {k : Kind} {tr : Trace} {s : State} (h : (machine k).Reach tr s) : Inv k tr s :=
  Machine.Reach.induct (M := machine k) (P := Inv k)
    ⟨rfl, ⟨fun h => (by cases h), fun ⟨_, h⟩ => (by cases h)⟩, ⟨fun _ _ h => (by cases h), fun _ h => (by cases h), fun _ _ _ h => (by cases h)⟩⟩
    (fun _ _ op _ ih => step_inv ih op) h

/-! ## Subscriptions -/

/-- A subscription is open only if it is the newest one, positions are to be read from it, and it is not closed; and while
positions are to be read, there is that subscription, open until its track ends. -/
theorem c117_one {k : Kind} {tr : Trace} {s : State} (h : (machine k).Reach tr s) :
    (∀ (i : Nat) (x : Item), s.items[i]? = some x → x.sub = true →
      i + 1 = s.items.length ∧ ¬ Shut tr ∧ Asked k (sig tr) x.track x.broadcast) ∧
    (¬ Shut tr → ∀ t b, Asked k (sig tr) t b →
      ∃ x, s.items.getLast? = some x ∧ x.track = t ∧ x.broadcast = b ∧ (x.sub = true ↔ x.loop ≠ .over)) := by
  have v := inv_reach h
  simp only [← key_iff, ← v.sig]
  constructor
  · intro i x hx hs
    obtain ⟨a1, a2, y, a3, a4, -⟩ := v.base.act i (v.base.one i x hx hs)
    rw [hx] at a3
    cases a3
    refine ⟨a1, ?_, a4⟩
    rw [← v.shut, a2]
    simp
  · intro hn t b hk
    have hc : s.closed = false := by
      cases hc : s.closed with
      | false => rfl
      | true => exact absurd (v.shut.1 hc) hn
    obtain ⟨i, hi⟩ := v.base.has hc t b hk
    obtain ⟨a1, -, x, a3, a4, a5⟩ := v.base.act i hi
    refine ⟨x, ?_, ?_, ?_, a5⟩
    · rw [List.getLast?_eq_getElem?, ← a1]
      exact a3
    · rw [hk] at a4
      cases a4
      rfl
    · rw [hk] at a4
      cases a4
      rfl

/-! ## Positions -/

/-- A track delivers positions. -/
def feed (i : Nat) : List Nat → List Op
  | [] => []
  | p :: ps => .settle i (.position p) :: .go i :: feed i ps

/-- The last position that a track has delivered is shown. -/
theorem c117_follow {k : Kind} (ps : List Nat) (p : Nat) (s : State) (i : Nat) (x : Item) (hx : s.items[i]? = some x)
    (hl : x.loop = .waiting) : ((machine k).runFrom s (feed i (ps ++ [p]))).2.current = some p := by
  have one : ∀ (q : Nat) (s : State), s.items[i]? = some x → ∃ t : State, t.items[i]? = some x ∧ t.current = some q ∧
      ∀ ops, ((machine k).runFrom s (.settle i (.position q) :: .go i :: ops)).2 = ((machine k).runFrom t ops).2 := by
    intro q s hs
    have e1 : step k s (.settle i (.position q)) = (.ok, onItem s i fun x => { x with loop := .ready (.position q) }) := by
      unfold step settle
      dsimp only
      rw [hs]
      simp only [hl, if_true]
    have e2 : step k (onItem s i fun x => { x with loop := .ready (.position q) }) (.go i) =
        (.ok, { onItem (onItem s i fun x => { x with loop := .ready (.position q) }) i fun x => { x with loop := .waiting } with current := some q }) := by
      unfold step go
      dsimp only
      rw [item_get, if_pos rfl, hs]
      rfl
    refine ⟨{ onItem (onItem s i fun x => { x with loop := .ready (.position q) }) i fun x => { x with loop := .waiting } with current := some q },
      ?_, rfl, fun ops => by
        show ((machine k).runFrom (step k (step k s _).2 _).2 ops).2 = _
        rw [e1]
        dsimp only
        rw [e2]⟩
    show (onItem (onItem s i _) i _).items[i]? = _
    rw [item_get, if_pos rfl, item_get, if_pos rfl, hs, ← hl]
    rfl
  induction ps generalizing s with
  | nil =>
    obtain ⟨t, -, h2, h3⟩ := one p s hx
    have := h3 []
    show ((machine k).runFrom s (.settle i (.position p) :: .go i :: [])).2.current = _
    rw [this]
    exact h2
  | cons q ps ih =>
    obtain ⟨t, h1, -, h3⟩ := one q s hx
    have := h3 (feed i (ps ++ [p]))
    show ((machine k).runFrom s (.settle i (.position q) :: .go i :: feed i (ps ++ [p]))).2.current = _
    rw [this]
    exact ih t h1

/-- When a new section of the catalog is there, its initial position is shown. -/
theorem c117_initial {tr : Trace} {s : State} (h : (machine .own).Reach tr s) (op : Op) (c : Section) (p : Nat) (hp : c.initial = some p)
    (hs : ¬ Shut tr) (h1 : ¬ Shown (sig tr) c) (h2 : Shown (sig (tr ++ [(op, (step .own s op).1)])) c) :
    (step .own s op).2.current = some p := by
  have v := inv_reach h
  have hc : s.closed = false := by
    cases hc : s.closed with
    | false => rfl
    | true => exact absurd (v.shut.1 hc) hs
  rw [← v.sig] at h1
  have sets : ∀ g, Shown g c → (Js.Location.set .own s g).current = some p := by
    intro g hg
    rw [set_eq _ _ _ hc]
    have hf : (first .own s g).current = some p := by
      unfold first
      rw [if_neg]
      · unfold showInitial
        simp only
        rw [(part_iff g c).2 hg]
        simp [hp]
      · intro he
        apply h1
        rw [← part_iff, ← he, part_iff]
        exact hg
    split
    · exact hf
    · rw [(start_rest _ _).2.2]
      unfold cleanup
      dsimp only
      split <;> exact hf
  have stay : ∀ g, g = s.sig → ¬ Shown g c := fun g hg => hg ▸ h1
  rw [sig_snoc, ← v.sig] at h2
  cases op with
  | enable b => exact sets _ h2
  | catalog b => exact sets _ h2
  | broadcast b => exact sets _ h2
  | handle b => exact sets _ h2
  | settle i n => exact absurd h2 h1
  | go i => exact absurd h2 h1
  | close => exact absurd h2 h1

/-- A location of a peer is forgotten as soon as it is no longer to be read, and on `close`. -/
theorem c117_reset {tr : Trace} {s : State} (h : (machine .peer).Reach tr s) (op : Op) (t b : Nat) (hs : ¬ Shut tr)
    (h1 : Asked .peer (sig tr) t b)
    (h2 : ¬ Asked .peer (sig (tr ++ [(op, (step .peer s op).1)])) t b ∨ op = .close) :
    (step .peer s op).2.current = none := by
  have v := inv_reach h
  have hc : s.closed = false := by
    cases hc : s.closed with
    | false => rfl
    | true => exact absurd (v.shut.1 hc) hs
  have hclean : ∀ s : State, (cleanup .peer s).current = none := fun s => rfl
  have sets : ∀ g, ¬ Asked .peer g t b → (Js.Location.set .peer s g).current = none := by
    intro g hg
    rw [set_eq _ _ _ hc, if_neg, (start_rest _ _).2.2]
    · rfl
    · intro he
      apply hg
      rw [← key_iff, he, key_iff, v.sig]
      exact h1
  have e : ∀ o, sig (tr ++ [(Op.close, o)]) = sig tr := fun o => sig_snoc ..
  cases op with
  | close =>
    show (close .peer s).current = none
    unfold close
    rw [hc]
    rfl
  | enable x => rcases h2 with h2 | h2; (· rw [sig_snoc, ← v.sig] at h2; exact sets _ h2); (· cases h2)
  | catalog x => rcases h2 with h2 | h2; (· rw [sig_snoc, ← v.sig] at h2; exact sets _ h2); (· cases h2)
  | broadcast x => rcases h2 with h2 | h2; (· rw [sig_snoc, ← v.sig] at h2; exact sets _ h2); (· cases h2)
  | handle x => rcases h2 with h2 | h2; (· rw [sig_snoc, ← v.sig] at h2; exact sets _ h2); (· cases h2)
  | settle i n => rcases h2 with h2 | h2; (· rw [sig_snoc] at h2; exact absurd h1 h2); (· cases h2)
  | go i => rcases h2 with h2 | h2; (· rw [sig_snoc] at h2; exact absurd h1 h2); (· cases h2)

/-- Unless another section of the catalog is shown that has an initial position, only what is read changes the broadcaster's
position. -/
theorem c117_kept {tr : Trace} {s : State} (h : (machine .own).Reach tr s) (op : Op) (ho : ∀ i, op ≠ .go i)
    (hs : ∀ c, Shown (sig (tr ++ [(op, (step .own s op).1)])) c → c.initial ≠ none → Shown (sig tr) c) :
    (step .own s op).2.current = s.current := by
  have v := inv_reach h
  have hclean : ∀ s : State, (cleanup .own s).current = s.current := by
    intro s
    unfold cleanup
    dsimp only
    split <;> rfl
  have sets : ∀ g, (∀ c, Shown g c → c.initial ≠ none → Shown (sig tr) c) → (Js.Location.set .own s g).current = s.current := by
    intro g hg
    cases hc : s.closed with
    | true =>
      unfold Js.Location.set
      rw [if_pos hc]
    | false =>
      rw [set_eq _ _ _ hc]
      have hf : (first .own s g).current = s.current := by
        unfold first
        split
        · rfl
        · next hne =>
          unfold showInitial
          dsimp only
          cases h1 : part g with
          | none => rfl
          | some c =>
            cases hi : c.initial with
            | none => simp [hi]
            | some p =>
              have := hg c ((part_iff g c).1 h1) (by simp [hi])
              rw [← part_iff, ← v.sig] at this
              exact absurd (h1.trans this.symm) hne
      split
      · exact hf
      · rw [(start_rest _ _).2.2, hclean, hf]
  rw [sig_snoc] at hs
  cases op with
  | enable b => exact sets _ (by rw [v.sig]; exact hs)
  | catalog b => exact sets _ (by rw [v.sig]; exact hs)
  | broadcast b => exact sets _ (by rw [v.sig]; exact hs)
  | handle b => exact sets _ (by rw [v.sig]; exact hs)
  | settle i n =>
    unfold step settle
    dsimp only
    split
    · split <;> rfl
    · rfl
  | go i => exact absurd rfl (ho i)
  | close =>
    show (close .own s).current = _
    unfold close
    split
    · rfl
    · exact hclean s

/-- A change of a signal that leaves the track to be read as it is changes no subscription, nor the location of a peer. -/
theorem c117_steady {k : Kind} {tr : Trace} {s : State} (h : (machine k).Reach tr s) (op : Op) (h1 : ∀ i, op ≠ .go i)
    (h2 : ∀ i n, op ≠ .settle i n) (h3 : op ≠ .close)
    (hs : ∀ t b, Asked k (sig tr) t b ↔ Asked k (sig (tr ++ [(op, (step k s op).1)])) t b) :
    (step k s op).2.items = s.items ∧
    (k = .peer → (∃ t b, Asked k (sig tr) t b) → (step k s op).2.current = s.current) := by
  have v := inv_reach h
  have hfi : ∀ g, (first k s g).items = s.items ∧ (first k s g).active = s.active ∧ (first k s g).sig = g ∧
      (k = .peer → (first k s g).current = s.current) := by
    intro g
    unfold first showInitial
    cases k <;> dsimp only <;> split
    · exact ⟨rfl, rfl, rfl, fun h => (by cases h)⟩
    · split
      · exact ⟨rfl, rfl, rfl, fun h => (by cases h)⟩
      · exact ⟨rfl, rfl, rfl, fun h => (by cases h)⟩
    · exact ⟨rfl, rfl, rfl, fun _ => rfl⟩
    · exact ⟨rfl, rfl, rfl, fun _ => rfl⟩
  have sets : ∀ g, (∀ t b, Asked k (sig tr) t b ↔ Asked k g t b) → (Js.Location.set k s g).items = s.items ∧
      (k = .peer → (∃ t b, Asked k (sig tr) t b) → (Js.Location.set k s g).current = s.current) := by
    intro g hg
    cases hc : s.closed with
    | true =>
      unfold Js.Location.set
      rw [if_pos hc]
      exact ⟨rfl, fun _ _ => rfl⟩
    | false =>
      rw [set_eq _ _ _ hc]
      split
      · exact ⟨(hfi g).1, fun hk _ => (hfi g).2.2.2 hk⟩
      · next hne =>
        have hno : ∀ t b, ¬ Asked k (sig tr) t b := by
          intro t b ha
          have hb := (hg t b).1 ha
          rw [← key_iff, ← v.sig] at ha
          rw [← key_iff] at hb
          exact hne (hb.trans ha.symm)
        refine ⟨?_, fun _ ⟨t, b, ha⟩ => absurd ha (hno t b)⟩
        have hact : s.active = none := by
          cases ha : s.active with
          | none => rfl
          | some i =>
            obtain ⟨-, -, x, -, a4, -⟩ := v.base.act i ha
            rw [v.sig, key_iff] at a4
            exact absurd a4 (hno _ _)
        have hci : (cleanup k (first k s g)).items = s.items ∧ (cleanup k (first k s g)).sig = g := by
          unfold cleanup
          rw [(hfi g).2.1, hact]
          cases k <;> exact ⟨(hfi g).1, (hfi g).2.2.1⟩
        unfold start
        rw [hci.2]
        split
        · next b t ht =>
          rw [key_iff, ← hg] at ht
          exact absurd ht (hno _ _)
        · exact hci.1
  rw [sig_snoc] at hs
  cases op with
  | enable b => exact sets _ (by rw [v.sig]; exact hs)
  | catalog b => exact sets _ (by rw [v.sig]; exact hs)
  | broadcast b => exact sets _ (by rw [v.sig]; exact hs)
  | handle b => exact sets _ (by rw [v.sig]; exact hs)
  | settle i n => exact absurd rfl (h2 i n)
  | go i => exact absurd rfl (h1 i)
  | close => exact absurd rfl h3

/-- When a track ends or fails, its subscription is closed and its reader stops for good; the end removes the position, a failure
leaves it. -/
theorem c117_ends {k : Kind} (s : State) (i : Nat) (n : Next) (hn : ∀ p, n ≠ .position p) (hok : (step k s (.settle i n)).1 = .ok) :
    let s' := (step k (step k s (.settle i n)).2 (.go i)).2
    (∃ x, s'.items[i]? = some x ∧ x.sub = false) ∧ s'.current = (if n = .done then none else s.current) ∧
    (∀ m, (step k s' (.settle i m)).1 = .invalid) ∧ (step k s' (.go i)).1 = .invalid := by
  unfold step settle at hok
  dsimp only at hok
  cases hx : s.items[i]? with
  | none => rw [hx] at hok; cases hok
  | some x =>
    rw [hx] at hok
    dsimp only at hok
    by_cases hl : x.loop = .waiting
    · have e1 : step k s (.settle i n) = (.ok, onItem s i fun x => { x with loop := .ready n }) := by
        unfold step settle
        dsimp only
        rw [hx]
        simp only [hl, if_true]
      rw [e1]
      dsimp only
      have hy : (onItem s i fun x => { x with loop := .ready n }).items[i]? = some { x with loop := .ready n } := by
        rw [item_get, if_pos rfl, hx]; rfl
      have key : ∀ (c : Option Nat) (s' : State), s' = { onItem (onItem s i fun x => { x with loop := .ready n }) i finish with current := c } →
          (∃ x, s'.items[i]? = some x ∧ x.sub = false) ∧ (∀ m, (step k s' (.settle i m)).1 = .invalid) ∧ (step k s' (.go i)).1 = .invalid := by
        rintro c s' rfl
        have hz : ({ onItem (onItem s i fun x => { x with loop := .ready n }) i finish with current := c } : State).items[i]? =
            some (finish { x with loop := .ready n }) := by
          show (onItem (onItem s i fun x => { x with loop := .ready n }) i finish).items[i]? = _
          rw [item_get, if_pos rfl, hy]; rfl
        refine ⟨⟨_, hz, rfl⟩, fun m => ?_, ?_⟩
        · unfold step settle
          dsimp only
          dsimp only at hz
          rw [hz]
          rfl
        · unfold step go
          dsimp only
          dsimp only at hz
          rw [hz]
          rfl
      cases n with
      | position p => exact absurd rfl (hn p)
      | done =>
        have e2 : (step k (onItem s i fun x => { x with loop := .ready .done }) (.go i)).2 =
            { onItem (onItem s i fun x => { x with loop := .ready .done }) i finish with current := none } := by
          unfold step go
          dsimp only
          rw [hy]
        obtain ⟨k1, k2⟩ := key none _ e2
        exact ⟨k1, (by rw [e2]; rfl), k2⟩
      | rejected =>
        have e2 : (step k (onItem s i fun x => { x with loop := .ready .rejected }) (.go i)).2 =
            { onItem (onItem s i fun x => { x with loop := .ready .rejected }) i finish with current := s.current } := by
          unfold step go
          dsimp only
          rw [hy]
          rfl
        obtain ⟨k1, k2⟩ := key s.current _ e2
        exact ⟨k1, (by rw [e2]; rfl), k2⟩
    · rw [if_neg hl] at hok
      cases hok

/-- Where positions come from. -/
structure Heard (k : Kind) (tr : Trace) (s : State) : Prop where
  sect : ∀ c, s.sig.catalog = some c → ∃ o, (.catalog (some c), o) ∈ tr
  ready : ∀ x ∈ s.items, ∀ p, x.loop = .ready (.position p) → ∃ i, (.settle i (.position p), .ok) ∈ tr
  current : ∀ p, s.current = some p → (∃ i, (.settle i (.position p), .ok) ∈ tr) ∨
    (k = .own ∧ ∃ c o, (.catalog (some c), o) ∈ tr ∧ c.initial = some p)

theorem modify_mem {l : List Item} {i : Nat} {f : Item → Item} {y : Item} (h : y ∈ l.modify i f) :
    y ∈ l ∨ ∃ x, l[i]? = some x ∧ y = f x := by
  obtain ⟨j, hj⟩ := List.mem_iff_getElem?.1 h
  rw [List.getElem?_modify] at hj
  cases hx : l[j]? with
  | none => rw [hx] at hj; cases hj
  | some x =>
    rw [hx] at hj
    cases hj
    by_cases he : i = j
    · subst he
      exact .inr ⟨x, hx, by simp⟩
    · simp only [he, if_false]
      exact .inl (List.mem_of_getElem? hx)

theorem Heard.mono {k : Kind} {tr : Trace} {s : State} (h : Heard k tr s) (e : Op × Out) : Heard k (tr ++ [e]) s := by
  refine ⟨fun c hc => ?_, fun x hx p hp => ?_, fun p hp => ?_⟩
  · obtain ⟨o, ho⟩ := h.sect c hc
    exact ⟨o, List.mem_append_left _ ho⟩
  · obtain ⟨i, hi⟩ := h.ready x hx p hp
    exact ⟨i, List.mem_append_left _ hi⟩
  · rcases h.current p hp with ⟨i, hi⟩ | ⟨hk, c, o, hc, hp⟩
    · exact .inl ⟨i, List.mem_append_left _ hi⟩
    · exact .inr ⟨hk, c, o, List.mem_append_left _ hc, hp⟩

theorem Heard.cleanup {k : Kind} {tr : Trace} {s : State} (h : Heard k tr s) : Heard k tr (cleanup k s) := by
  have key : Heard k tr (match s.active with
      | some i => { onItem s i fun x => { x with sub := false } with active := none }
      | none => s) := by
    split
    · refine ⟨h.sect, fun x hx p hp => ?_, h.current⟩
      rcases modify_mem hx with hx | ⟨y, hy, rfl⟩
      · exact h.ready x hx p hp
      · exact h.ready y (List.mem_of_getElem? hy) p hp
    · exact h
  unfold Js.Location.cleanup
  dsimp only
  cases k with
  | own => exact key
  | peer => exact ⟨key.sect, key.ready, fun p hp => (by cases hp)⟩

theorem Heard.start {k : Kind} {tr : Trace} {s : State} (h : Heard k tr s) : Heard k tr (start k s) := by
  unfold Js.Location.start
  split
  · refine ⟨h.sect, fun x hx p hp => ?_, h.current⟩
    rcases List.mem_append.1 hx with hx | hx
    · exact h.ready x hx p hp
    · rw [List.mem_singleton.1 hx] at hp
      cases hp
  · exact h

theorem Heard.set {k : Kind} {tr : Trace} {s : State} (h : Heard k tr s) (g : Sig)
    (hg : ∀ c, g.catalog = some c → ∃ o, (.catalog (some c), o) ∈ tr) : Heard k tr (Js.Location.set k s g) := by
  have h' : Heard k tr { s with sig := g } := ⟨hg, h.ready, h.current⟩
  have hi : Heard k tr (showInitial k { s with sig := g }) := by
    unfold showInitial
    cases k with
    | peer => exact h'
    | own =>
      dsimp only
      split
      · next p hp =>
        refine ⟨hg, h.ready, fun q hq => ?_⟩
        cases hq
        cases hc : part g with
        | none => rw [hc] at hp; cases hp
        | some c =>
          rw [hc] at hp
          obtain ⟨o, ho⟩ := hg c ((part_iff g c).1 hc).2
          exact .inr ⟨rfl, c, o, ho, hp⟩
      · exact h'
  unfold Js.Location.set
  split
  · exact h'
  · dsimp only
    have hf : Heard k tr (if part g = part s.sig then { s with sig := g } else showInitial k { s with sig := g }) := by
      split
      · exact h'
      · exact hi
    split
    · exact hf
    · exact (Heard.cleanup hf).start

theorem Heard.step {k : Kind} {tr : Trace} {s : State} (h : Heard k tr s) (op : Op) :
    Heard k (tr ++ [(op, (step k s op).1)]) (step k s op).2 := by
  have hm := h.mono (op, (Js.Location.step k s op).1)
  cases op with
  | enable b => exact hm.set _ hm.sect
  | broadcast b => exact hm.set _ hm.sect
  | handle b => exact hm.set _ hm.sect
  | catalog c =>
    refine hm.set _ fun x hx => ?_
    have hx : c = some x := hx
    subst hx
    exact ⟨_, List.mem_append_right _ (List.mem_singleton.2 rfl)⟩
  | close =>
    show Heard k _ (close k s)
    unfold close
    split
    · exact hm
    · exact ⟨hm.cleanup.sect, hm.cleanup.ready, hm.cleanup.current⟩
  | settle i n =>
    unfold Js.Location.step settle at hm ⊢
    dsimp only at hm ⊢
    cases hx : s.items[i]? with
    | none => rw [hx] at hm; exact hm
    | some x =>
      rw [hx] at hm
      dsimp only at hm ⊢
      split
      · next hl =>
        rw [if_pos hl] at hm
        refine ⟨hm.sect, fun y hy p hp => ?_, hm.current⟩
        rcases modify_mem hy with hy | ⟨z, hz, rfl⟩
        · exact hm.ready y hy p hp
        · cases hp
          exact ⟨i, List.mem_append_right _ (List.mem_singleton.2 rfl)⟩
      · next hl =>
        rw [if_neg hl] at hm
        exact hm
  | go i =>
    have hm : ∀ o, Heard k (tr ++ [(.go i, o)]) s := fun o => h.mono _
    have fin : ∀ o c, (c = none ∨ c = s.current) → Heard k (tr ++ [(.go i, o)]) { onItem s i finish with current := c } := by
      intro o c hc
      refine ⟨(hm o).sect, fun y hy p hp => ?_, fun p hp => ?_⟩
      · rcases modify_mem hy with hy | ⟨z, hz, rfl⟩
        · exact (hm o).ready y hy p hp
        · cases hp
      · have hp : c = some p := hp
        rcases hc with rfl | rfl
        · cases hp
        · exact (hm o).current p hp
    unfold Js.Location.step go
    dsimp only
    split
    · exact hm _
    · next x hx =>
      split
      · next q hl =>
        refine ⟨(hm _).sect, fun y hy p hp => ?_, fun p hp => ?_⟩
        · rcases modify_mem hy with hy | ⟨z, hz, rfl⟩
          · exact (hm _).ready y hy p hp
          · cases hp
        · cases hp
          exact .inl ((hm _).ready x (List.mem_of_getElem? hx) q hl)
      · exact fin _ none (.inl rfl)
      · exact fin _ s.current (.inr rfl)
      · exact hm _

/-- Every position that is shown was delivered by a track, or, for the broadcaster, was the initial one of a catalog. -/
theorem c117_source {k : Kind} {tr : Trace} {s : State} (h : (machine k).Reach tr s) (p : Nat) (hp : s.current = some p) :
    (∃ i, (.settle i (.position p), .ok) ∈ tr) ∨
    (k = .own ∧ ∃ c o, (.catalog (some c), o) ∈ tr ∧ c.initial = some p) :=
  (Machine.Reach.induct (M := machine k) (P := Heard k)
    ⟨fun _ h => (by cases h), fun _ h => (by cases h), fun _ h => (by cases h)⟩
    (fun _ _ op _ ih => ih.step op) h).current p hp

/-! ## The location of a peer, if loops do not continue late -/

/-- A history in which no loop continues after its subscription was closed. -/
inductive Calm (k : Kind) : Trace → State → Prop
  | init : Calm k [] init
  | step {tr : Trace} {s : State} (op : Op) (h : Calm k tr s)
      (hq : ∀ i, op = .go i → ∃ x, s.items[i]? = some x ∧ x.sub = true) : Calm k (tr ++ [(op, (step k s op).1)]) (step k s op).2

theorem Calm.reach {k : Kind} {tr : Trace} {s : State} (h : Calm k tr s) : (machine k).Reach tr s := by
  induction h with
  | init => exact .init
  | step op _ _ ih => exact Machine.Reach.step (M := machine k) op ih

theorem view_snoc (tr : Trace) (i : Nat) (op : Op) (o : Out) : view (tr ++ [(op, o)]) i =
    match (op, o) with
    | (.settle j n, .ok) => if j = i then (some n, (view tr i).2) else view tr i
    | (.go j, o) =>
      if j = i ∧ o ≠ .invalid then
        match (view tr i).1 with
        | some (.position p) => (none, some p)
        | some .done => (none, none)
        | _ => (none, (view tr i).2)
      else view tr i
    | _ => view tr i := by
  unfold view
  rw [List.foldl_append]
  rfl

/-- What a loop has at hand. -/
def hand : Loop → Option Next
  | .ready n => some n
  | _ => none

structure Views (tr : Trace) (s : State) : Prop where
  new : ∀ i, s.items.length ≤ i → view tr i = (none, none)
  hand : ∀ (i : Nat) (x : Item), s.items[i]? = some x → (view tr i).1 = hand x.loop
  active : ∀ i, s.active = some i → s.current = (view tr i).2
  idle : s.active = none → s.current = none

theorem cleanup_items (k : Kind) (s : State) (i : Nat) : ∃ f : Item → Item, (∀ x, (f x).loop = x.loop) ∧
    (cleanup k s).items[i]? = (s.items[i]?).map f := by
  unfold cleanup
  cases ha : s.active with
  | none => exact ⟨id, fun _ => rfl, by cases k <;> simp⟩
  | some j =>
    by_cases he : j = i
    · refine ⟨fun x => { x with sub := false }, fun _ => rfl, ?_⟩
      have := item_get s j i fun x => { x with sub := false }
      rw [if_pos he] at this
      cases k <;> exact this
    · refine ⟨id, fun _ => rfl, ?_⟩
      have := item_get s j i fun x => { x with sub := false }
      rw [if_neg he] at this
      cases k <;> (rw [Option.map_id_fun]; exact this)

theorem set_views {tr : Trace} {s : State} {g : Sig} (hb : Base .peer s) (h : Views tr s) : Views tr (Js.Location.set .peer s g) := by
  cases hc : s.closed with
  | true =>
    unfold Js.Location.set
    rw [if_pos hc]
    exact ⟨h.new, h.hand, h.active, h.idle⟩
  | false =>
    rw [set_eq _ _ _ hc]
    have hf : first .peer s g = { s with sig := g } := by
      unfold first showInitial
      split <;> rfl
    rw [hf]
    split
    · exact ⟨h.new, h.hand, h.active, h.idle⟩
    · have w := cleanup_idle .peer (s := { s with sig := g }) hb.one
      have hn : ∀ i, s.items.length ≤ i → view tr i = (none, none) := h.new
      have hh : ∀ (i : Nat) (x : Item), (cleanup .peer { s with sig := g }).items[i]? = some x → (view tr i).1 = JsLocation.hand x.loop := by
        intro i x hx
        obtain ⟨f, f1, f2⟩ := cleanup_items .peer { s with sig := g } i
        rw [f2] at hx
        cases hy : s.items[i]? with
        | none =>
          have : ({ s with sig := g } : State).items[i]? = none := hy
          rw [this] at hx
          cases hx
        | some y =>
          have : ({ s with sig := g } : State).items[i]? = some y := hy
          rw [this] at hx
          cases hx
          rw [f1]
          exact h.hand i y hy
      have hcur : (cleanup .peer { s with sig := g }).current = none := rfl
      have hlen : (cleanup .peer { s with sig := g }).items.length = s.items.length := w.len
      generalize cleanup .peer { s with sig := g } = t at *
      unfold start
      split
      · next b x _ =>
        refine ⟨fun i hi => ?_, fun i y hy => ?_, fun i hi => ?_, fun hi => (by cases hi)⟩
        · simp at hi
          exact hn i (by omega)
        · dsimp only at hy
          by_cases hl : i < t.items.length
          · rw [List.getElem?_append_left hl] at hy
            exact hh i y hy
          · have : i < (t.items ++ [(⟨x, b, true, .waiting⟩ : Item)]).length := (List.getElem?_eq_some_iff.1 hy).1
            simp at this
            have : i = t.items.length := by omega
            subst this
            simp at hy
            subst hy
            rw [hn _ (by omega)]
            rfl
        · cases hi
          show t.current = _
          rw [hcur, hn _ (by omega)]
      · exact ⟨fun i hi => hn i (by omega), hh, fun i hi => (by rw [w.active] at hi; cases hi), fun _ => hcur⟩

theorem Views.keep {tr : Trace} {s : State} (h : Views tr s) (e : Op × Out) (hv : ∀ i, view (tr ++ [e]) i = view tr i) :
    Views (tr ++ [e]) s := by
  refine ⟨fun i hi => ?_, fun i x hx => ?_, fun i hi => ?_, h.idle⟩
  · rw [hv]; exact h.new i hi
  · rw [hv]; exact h.hand i x hx
  · rw [hv]; exact h.active i hi

theorem calm_views {tr : Trace} {s : State} (h : Calm .peer tr s) : Views tr s := by
  induction h with
  | init => exact ⟨fun _ _ => rfl, fun _ _ h => (by cases h), fun _ h => (by cases h), fun _ => rfl⟩
  | @step tr s op hr hq ih =>
    have v := inv_reach hr.reach
    have sets : ∀ (op : Op) (o : Out) (g : Sig), (∀ i, view (tr ++ [(op, o)]) i = view tr i) →
        Views (tr ++ [(op, o)]) (Js.Location.set .peer s g) := fun op o g hv => (set_views v.base ih).keep _ hv
    cases op with
    | enable b => exact sets _ _ _ fun i => by rw [view_snoc]
    | catalog b => exact sets _ _ _ fun i => by rw [view_snoc]
    | broadcast b => exact sets _ _ _ fun i => by rw [view_snoc]
    | handle b => exact sets _ _ _ fun i => by rw [view_snoc]
    | close =>
      show Views _ (close .peer s)
      unfold close
      split
      · exact ih.keep _ fun i => by rw [view_snoc]
      · have w := cleanup_idle .peer v.base.one
        refine Views.keep ⟨fun i hi => ih.new i (by rw [← w.len]; exact hi), fun i x hx => ?_, fun i hi => ?_, fun _ => rfl⟩ _ fun i => by rw [view_snoc]
        · obtain ⟨f, f1, f2⟩ := cleanup_items .peer s i
          have hx : (cleanup .peer s).items[i]? = some x := hx
          rw [f2] at hx
          cases hy : s.items[i]? with
          | none => rw [hy] at hx; cases hx
          | some y =>
            rw [hy] at hx
            cases hx
            rw [f1]
            exact ih.hand i y hy
        · have hi : (cleanup .peer s).active = some i := hi
          rw [w.active] at hi
          cases hi
    | settle i n =>
      show Views (tr ++ [(.settle i n, (settle s i n).1)]) (settle s i n).2
      unfold settle
      split
      · next x hx =>
        split
        · next hl =>
          have hlt : i < s.items.length := (List.getElem?_eq_some_iff.1 hx).1
          refine ⟨fun j hj => ?_, fun j y hy => ?_, fun j hj => ?_, ih.idle⟩
          · have hj : s.items.length ≤ j := by simpa [onItem] using hj
            rw [view_snoc]
            simp only
            rw [if_neg (by omega)]
            exact ih.new j hj
          · rw [item_get] at hy
            rw [view_snoc]
            simp only
            split at hy
            · next e =>
              subst e
              rw [hx] at hy
              cases hy
              simp [JsLocation.hand]
            · next e =>
              rw [if_neg e]
              exact ih.hand j y hy
          · rw [view_snoc]
            simp only
            have := ih.active j hj
            split
            · exact this
            · exact this
        · exact ih.keep _ fun j => by rw [view_snoc]
      · exact ih.keep _ fun j => by rw [view_snoc]
    | go i =>
      obtain ⟨x, hx, hsub⟩ := hq i rfl
      have hact := v.base.one i x hx hsub
      have hlt : i < s.items.length := (List.getElem?_eq_some_iff.1 hx).1
      have hh := ih.hand i x hx
      have upd : ∀ (o : Out) (f : Item → Item) (c : Option Nat), o ≠ .invalid → (view (tr ++ [(.go i, o)]) i) = (none, c) →
          JsLocation.hand (f x).loop = none → Views (tr ++ [(.go i, o)]) { onItem s i f with current := c } := by
        intro o f c ho hv hf
        have other : ∀ j, i ≠ j → view (tr ++ [(.go i, o)]) j = view tr j := by
          intro j hj
          rw [view_snoc]
          simp only
          rw [if_neg (by simp [hj])]
        refine ⟨fun j hj => ?_, fun j y hy => ?_, fun j hj => ?_, fun hn => ?_⟩
        · have hj : s.items.length ≤ j := by simpa [onItem] using hj
          rw [other j (by omega)]
          exact ih.new j hj
        · have hy : (onItem s i f).items[j]? = some y := hy
          rw [item_get] at hy
          split at hy
          · next e =>
            subst e
            rw [hx] at hy
            cases hy
            rw [hv, hf]
          · next e =>
            rw [other j e]
            exact ih.hand j y hy
        · have hj : s.active = some j := hj
          rw [hact] at hj
          cases hj
          rw [hv]
        · have hn : s.active = none := hn
          rw [hact] at hn
          cases hn
      show Views (tr ++ [(.go i, (go s i).1)]) (go s i).2
      unfold go
      rw [hx]
      dsimp only
      cases hl : x.loop with
      | ready n =>
        rw [hl] at hh
        cases n with
        | position p =>
          exact upd .ok (fun x => { x with loop := .waiting }) (some p) (by simp) (by rw [view_snoc]; simp [hh, JsLocation.hand]) rfl
        | done => exact upd .ok finish none (by simp) (by rw [view_snoc]; simp [hh, JsLocation.hand]) rfl
        | rejected =>
          exact upd .warned finish s.current (by simp) (by rw [view_snoc]; simp [hh, JsLocation.hand, ih.active i hact]) rfl
      | waiting => exact ih.keep _ fun j => by rw [view_snoc]; simp
      | over => exact ih.keep _ fun j => by rw [view_snoc]; simp

/-- The location of a peer is the last position that the newest subscription has delivered, while positions are to be read,
and otherwise none, provided that no loop continues after its subscription was closed. -/
theorem c117_peer_partial {tr : Trace} {s : State} (h : Calm .peer tr s) :
    (∀ t b, Asked .peer (sig tr) t b → ¬ Shut tr → s.current = (view tr (s.items.length - 1)).2) ∧
    ((∀ t b, ¬ Asked .peer (sig tr) t b) ∨ Shut tr → s.current = none) := by
  have v := inv_reach h.reach
  have w := calm_views h
  simp only [← key_iff, ← v.sig, ← v.shut]
  constructor
  · intro t b hk hc
    obtain ⟨i, hi⟩ := v.base.has (by simpa using hc) t b hk
    rw [w.active i hi, ← (v.base.act i hi).1]
    rfl
  · intro hn
    apply w.idle
    cases ha : s.active with
    | none => rfl
    | some i =>
      obtain ⟨-, a2, x, -, a4, -⟩ := v.base.act i ha
      rcases hn with hn | hn
      · exact absurd a4 (hn _ _)
      · rw [a2] at hn
        cases hn

/-! ## Violations -/

/-- A loop that is late: it continues after its subscription was closed. -/
def late (b b' : Nat) (n : Next) (q : Nat) : List Op :=
  [.enable true, .catalog (some ⟨none, some 0, [(1, 0)], 0⟩), .handle (some 1), .broadcast (some b), .broadcast (some b'),
   .settle 1 (.position q), .go 1, .settle 0 n, .go 0]

/-- A violation: after the broadcast was replaced, the end of the old subscription removes the position of the new one. -/
theorem c117_wiped (k : Kind) (b b' q : Nat) (hb : b ≠ b') :
    ((machine k).run (late b b' .done q)).2.current = none ∧
    (view ((machine k).run (late b b' .done q)).1 1).2 = some q ∧
    ((machine k).run (late b b' .done q)).2.items = [⟨0, b, false, .over⟩, ⟨0, b', true, .waiting⟩] := by
  have hb' : ¬ b' = b := fun h => hb h.symm
  cases k <;>
    simp [late, Machine.run, Machine.runFrom, step, Js.Location.set, init, part, key, track, showInitial, cleanup, start, settle, go,
      finish, onItem, hb', view, List.modify, List.lookup]

/-- A violation: and a position of the old broadcast that comes late replaces that of the new one. -/
theorem c117_stale (k : Kind) (b b' p q : Nat) (hb : b ≠ b') :
    ((machine k).run (late b b' (.position p) q)).2.current = some p ∧
    (view ((machine k).run (late b b' (.position p) q)).1 1).2 = some q := by
  have hb' : ¬ b' = b := fun h => hb h.symm
  cases k <;>
    simp [late, Machine.run, Machine.runFrom, step, Js.Location.set, init, part, key, track, showInitial, cleanup, start, settle, go,
      onItem, hb', view, List.modify, List.lookup]

/-- A violation: a catalog with another track and another initial position replaces one, and the initial position is lost when
the loop of the old track ends, as it does since its subscription was closed. -/
theorem c117_lost (p q t u : Nat) (ht : t ≠ u) :
    let ops : List Op := [.enable true, .broadcast (some 0), .catalog (some ⟨some p, some t, [], 0⟩),
      .catalog (some ⟨some q, some u, [], 0⟩)]
    ((machine .own).run ops).2.current = some q ∧ ((machine .own).run (ops ++ [.settle 0 .done, .go 0])).2.current = none := by
  have ht' : ¬ u = t := fun h => ht h.symm
  simp [Machine.run, Machine.runFrom, step, Js.Location.set, init, part, key, track, showInitial, cleanup, start, settle, go, finish,
    onItem, ht', List.modify]

/-- A catalog that changes in another respect. -/
def touch (p q : Nat) : List Op :=
  [.enable true, .broadcast (some 0), .catalog (some ⟨some p, some 0, [], 0⟩), .settle 0 (.position q), .go 0,
   .catalog (some ⟨some p, some 0, [], 1⟩)]

/-- A violation: when the catalog changes in another respect, its initial position is shown again although a newer one was
delivered; no subscription is closed. -/
theorem c117_back (p q : Nat) :
    ((machine .own).run (touch p q)).2.current = some p ∧ (view ((machine .own).run (touch p q)).1 0).2 = some q ∧
    ((machine .own).run (touch p q)).2.items = [⟨0, 0, true, .waiting⟩] := by
  simp [touch, Machine.run, Machine.runFrom, step, Js.Location.set, init, part, key, track, showInitial, cleanup, start, settle, go,
    onItem, view, List.modify]

/-- A violation: a location is shown although it is disabled and closed, if a loop continues afterwards. -/
theorem c117_closed (k : Kind) (p : Nat) :
    ((machine k).run [.enable true, .catalog (some ⟨none, some 0, [(1, 0)], 0⟩), .handle (some 1), .broadcast (some 0),
      .settle 0 (.position p), .enable false, .close, .go 0]).2.current = some p := by
  cases k <;>
    simp [Machine.run, Machine.runFrom, step, Js.Location.set, init, part, key, track, showInitial, cleanup, start, settle, go, close,
      onItem, List.modify, List.lookup]

/-! ## Examples -/

def c₀ : Section := ⟨some 5, some 2, [(7, 3), (8, 4)], 0⟩

def ops₁ : List Op :=
  [.broadcast (some 1), .catalog (some c₀), .handle (some 7), .enable true, .settle 0 (.position 10), .go 0, .settle 0 (.position 11), .go 0]

example : ((machine .own).run (ops₁.take 4)).2.current = some 5 ∧ ((machine .own).run ops₁).2.current = some 11 ∧
    ((machine .own).run ops₁).2.items = [⟨2, 1, true, .waiting⟩] := by decide +kernel

example : ((machine .peer).run (ops₁.take 4)).2.current = none ∧ ((machine .peer).run ops₁).2.current = some 11 ∧
    ((machine .peer).run ops₁).2.items = [⟨3, 1, true, .waiting⟩] := by decide +kernel

/-- The hypotheses of `c117_one` and `c117_reset`: another handle, and none. -/
example : Asked .peer (sig ((machine .peer).run ops₁).1) 3 1 ∧ ¬ Asked .peer { sig ((machine .peer).run ops₁).1 with handle := some 8 } 3 1 := by
  have e : sig ((machine .peer).run ops₁).1 = ⟨true, some c₀, some 1, some 7⟩ := by decide +kernel
  rw [e]
  refine ⟨⟨rfl, c₀, ⟨rfl, rfl⟩, 7, rfl, by decide +kernel⟩, ?_⟩
  rintro ⟨-, c, ⟨-, h1⟩, x, h2, h3⟩
  cases h1
  cases h2
  exact absurd h3 (by decide +kernel)

example : ((machine .peer).run (ops₁ ++ [.handle (some 8)])).2.current = none ∧
    ((machine .peer).run (ops₁ ++ [.handle (some 8)])).2.items = [⟨3, 1, false, .waiting⟩, ⟨4, 1, true, .waiting⟩] := by decide +kernel

/-- The hypotheses of `c117_initial`. -/
example : ¬ Shown (sig ((machine .own).run (ops₁.take 3)).1) c₀ ∧ Shown (sig ((machine .own).run (ops₁.take 4)).1) c₀ := by
  have e : sig ((machine .own).run (ops₁.take 3)).1 = ⟨false, some c₀, some 1, some 7⟩ ∧
      sig ((machine .own).run (ops₁.take 4)).1 = ⟨true, some c₀, some 1, some 7⟩ := by decide +kernel
  rw [e.1, e.2]
  exact ⟨fun h => (by cases h.1), rfl, rfl⟩

/-- The hypotheses of `c117_kept` and `c117_steady`: the section changes, to one without an initial position and the same track. -/
example : ((machine .own).run (ops₁ ++ [.catalog (some ⟨none, some 2, [(7, 3)], 1⟩)])).2.current = some 11 ∧
    ((machine .own).run (ops₁ ++ [.catalog (some ⟨none, some 2, [(7, 3)], 1⟩)])).2.items = [⟨2, 1, true, .waiting⟩] ∧
    ((machine .peer).run (ops₁ ++ [.catalog (some ⟨none, some 2, [(7, 3)], 1⟩)])).2.current = some 11 := by decide +kernel

/-- The hypothesis of `c117_ends`. -/
example : (step .own ((machine .own).run ops₁).2 (.settle 0 .rejected)).1 = .ok ∧
    ((machine .own).run (ops₁ ++ [.settle 0 .rejected, .go 0])).2.items = [⟨2, 1, false, .over⟩] := by decide +kernel

/-- A calm history. -/
example : ∃ s, Calm .peer ((machine .peer).run (ops₁.take 6)).1 s ∧ s.current = some 10 := by
  have h0 : Calm .peer _ _ := .init
  have h1 := Calm.step (.broadcast (some 1)) h0 (fun _ h => (by cases h))
  have h2 := Calm.step (.catalog (some c₀)) h1 (fun _ h => (by cases h))
  have h3 := Calm.step (.handle (some 7)) h2 (fun _ h => (by cases h))
  have h4 := Calm.step (.enable true) h3 (fun _ h => (by cases h))
  have h5 := Calm.step (.settle 0 (.position 10)) h4 (fun _ h => (by cases h))
  have h6 := Calm.step (.go 0) h5 (fun _ h => (by cases h; exact ⟨⟨3, 1, true, .ready (.position 10)⟩, by decide +kernel, rfl⟩))
  exact ⟨_, h6, by decide +kernel⟩

end Verif.Props.JsLocation
