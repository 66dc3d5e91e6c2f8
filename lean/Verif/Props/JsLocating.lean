import Verif.Js.Locating

/-!
# C118: publishing positions in the browser
-/

set_option autoImplicit false

namespace Verif.Props.JsLocating

open Verif Verif.Js.Locating

/-! ## Specification -/

/-- `enabled` as set last. -/
def on (tr : Trace) : Bool :=
  tr.foldl (fun b e => match e.1 with | .enable b => b | _ => b) false

def Shut (tr : Trace) : Prop := ∃ o, (Op.close, o) ∈ tr

/-- Whether the location was closed, and the last position that was set before. -/
def told (tr : Trace) : Bool × Option Nat :=
  tr.foldl (fun v e =>
    match e.1 with
    | .close => (true, v.2)
    | .current (some p) => if v.1 then v else (v.1, some p)
    | _ => v) (false, none)

/-- What is known of a peer: its handle, all handles it has had, the last position written since it has this handle, and whether
it is closed. -/
structure Obj where
  handle : Option Nat
  had : List Nat
  last : Option Nat
  closed : Bool

def objs (tr : Trace) : List Obj :=
  tr.foldl (fun os e =>
    match e with
    | (.peer h, _) => os ++ [⟨h, h.toList, none, false⟩]
    | (.handle i h, _) => os.modify i fun o => if o.closed ∨ o.handle = h then o else ⟨h, o.had ++ h.toList, none, false⟩
    | (.update i p, .ok) => os.modify i fun o => { o with last := some p }
    | (.leave i, _) => os.modify i fun o => { o with closed := true }
    | _ => os) []

/-- Only the peer `i` has ever had a handle. -/
def Sole (tr : Trace) (h i : Nat) : Prop := ∀ (j : Nat) (o : Obj), (objs tr)[j]? = some o → h ∈ o.had → j = i

/-! ## Lists -/

theorem modify_set {α : Type} (l : List α) (i : Nat) (x : α) (f : α → α) (h : l[i]? = some x) : l.modify i f = l.set i (f x) := by
  apply List.ext_getElem?
  intro j
  have hlt : i < l.length := (List.getElem?_eq_some_iff.1 h).1
  rw [List.getElem?_modify, List.getElem?_set]
  by_cases e : i = j
  · subst e
    have := (List.getElem?_eq_some_iff.1 h).2
    simp [hlt, this]
  · simp [e]

theorem get_set {α : Type} {l : List α} {i : Nat} {x : α} (h : l[i]? = some x) (q : α) (j : Nat) :
    (l.set i q)[j]? = if i = j then some q else l[j]? := by
  have hlt : i < l.length := (List.getElem?_eq_some_iff.1 h).1
  rw [List.getElem?_set]
  simp [hlt]

theorem get_snoc {α : Type} (l : List α) (x : α) (j : Nat) : (l ++ [x])[j]? = if j = l.length then some x else l[j]? := by
  by_cases e : j = l.length
  · subst e; simp
  · rw [if_neg e]
    by_cases hl : j < l.length
    · rw [List.getElem?_append_left hl]
    · rw [List.getElem?_eq_none (by simp; omega), List.getElem?_eq_none (by omega)]

theorem lt_of_get {α : Type} {l : List α} {i : Nat} {x : α} (h : l[i]? = some x) : i < l.length :=
  (List.getElem?_eq_some_iff.1 h).1

/-! ## The invariant -/

def Cur (T : List Track) (i : Nat) (p : Peer) (o : Obj) : Prop :=
  (p.handle = none ∧ p.cur = none) ∨
  ∃ h t, p.handle = some h ∧ p.cur = some (h, t) ∧ h ∈ o.had ∧ T[t]? = some ⟨.peer h, some (i, false), true, o.last⟩

def First (T : List Track) (i : Nat) (p : Peer) (o : Obj) : Prop :=
  ∀ h t, p.first = some (h, t) → h ∈ o.had ∧ T[t]? = some ⟨.peer h, some (i, true), true, none⟩

structure PInv (own : Track) (T : List Track) (V : Nat → Option Nat) (L : Nat → Bool) (P : List Peer) (os : List Obj) : Prop where
  zero : T[0]? = some own
  anon : own.made = none
  len : P.length = os.length
  rel : ∀ (i : Nat) (p : Peer), P[i]? = some p → ∃ o, os[i]? = some o ∧ p.closed = o.closed ∧
    (p.closed = false → p.handle = o.handle ∧ Cur T i p o ∧ First T i p o)
  owner : ∀ (t : Nat) (x : Track), T[t]? = some x → x.open_ = true → ∀ i f, x.made = some (i, f) →
    ∃ p, P[i]? = some p ∧ p.closed = false ∧ ∃ h, (if f then p.first else p.cur) = some (h, t)
  listed : ∀ h, L h = (V h).isSome
  served : ∀ h t, V h = some t → ∃ (i : Nat) (p : Peer), P[i]? = some p ∧ p.closed = false ∧ p.cur = some (h, t)
  sole : ∀ (h i : Nat) (o : Obj), os[i]? = some o → o.closed = false → o.handle = some h →
    (∀ (j : Nat) (o' : Obj), os[j]? = some o' → h ∈ o'.had → j = i) → L h = true
  dead : ∀ (i : Nat) (p : Peer), P[i]? = some p → p.closed = true → ∀ h t, p.cur = some (h, t) →
    ∃ x, T[t]? = some x ∧ x.open_ = false ∧ x.made ≠ none

variable {own : Track} {T : List Track} {V : Nat → Option Nat} {L : Nat → Bool} {P : List Peer} {os : List Obj}

theorem modify_ne {T : List Track} {t t' : Nat} {a b : Track} {f : Track → Track} (h : T[t]? = some a) (h' : T[t']? = some b)
    (hn : a.made ≠ b.made) : (T.modify t f)[t']? = some b := by
  have : t ≠ t' := by
    rintro rfl
    rw [h] at h'
    cases h'
    exact hn rfl
  rw [List.getElem?_modify]
  simp [this, h']

theorem PInv.add (v : PInv own T V L P os) : PInv own T V L (P ++ [⟨none, none, none, false⟩]) (os ++ [⟨none, [], none, false⟩]) := by
  refine ⟨v.zero, v.anon, by simp [v.len], fun i p hp => ?_, fun t x hx hop i f hm => ?_, v.listed, fun h t ht => ?_, fun h i o ho hc hh hs => ?_, fun i p hp hc => ?_⟩
  · rw [get_snoc] at hp
    rw [get_snoc, ← v.len]
    split at hp
    · next e =>
      cases hp
      rw [if_pos e]
      exact ⟨_, rfl, rfl, fun _ => ⟨rfl, .inl ⟨rfl, rfl⟩, fun _ _ h => (by cases h)⟩⟩
    · next e =>
      rw [if_neg e]
      exact v.rel i p hp
  · obtain ⟨p, hp, h⟩ := v.owner t x hx hop i f hm
    exact ⟨p, by rw [List.getElem?_append_left (lt_of_get hp)]; exact hp, h⟩
  · obtain ⟨i, p, hp, h⟩ := v.served h t ht
    exact ⟨i, p, by rw [List.getElem?_append_left (lt_of_get hp)]; exact hp, h⟩
  · rw [get_snoc] at ho
    split at ho
    · cases ho
      cases hh
    · exact v.sole h i o ho hc hh fun j o' ho' hm => hs j o' (by rw [List.getElem?_append_left (lt_of_get ho')]; exact ho') hm
  · rw [get_snoc] at hp
    split at hp
    · cases hp
      cases hc
    · exact v.dead i p hp hc

theorem PInv.first (v : PInv own T V L P os) {i : Nat} {p : Peer} {o : Obj} (hp : P[i]? = some p) (ho : os[i]? = some o)
    (hc : p.closed = false) (hh : p.handle = none) (hf : p.first = none) (h : Nat) :
    PInv own (T ++ [⟨.peer h, some (i, true), true, none⟩]) V L (P.set i { p with first := some (h, T.length) })
      (os.set i { o with had := o.had ++ [h] }) := by
  have grow : ∀ (t : Nat) (x : Track), T[t]? = some x → (T ++ [(⟨.peer h, some (i, true), true, none⟩ : Track)])[t]? = some x :=
    fun t x hx => by rw [List.getElem?_append_left (lt_of_get hx)]; exact hx
  obtain ⟨o', ho', hco, hrest⟩ := v.rel i p hp
  rw [ho] at ho'
  cases ho'
  obtain ⟨r1, r2, r3⟩ := hrest hc
  have hcur : p.cur = none := by
    rcases r2 with r2 | ⟨h', t, e1, _⟩
    · exact r2.2
    · rw [hh] at e1; cases e1
  refine ⟨grow _ _ v.zero, v.anon, by simp [v.len], fun j q hq => ?_, fun t x hx hop j f hm => ?_, v.listed, fun x t ht => ?_, fun x j q hq hqc hqh hs => ?_, fun j q hq hqc h' t' he => ?_⟩
  · rw [get_set hp] at hq
    rw [get_set ho]
    split at hq
    · next e =>
      subst e
      cases hq
      rw [if_pos rfl]
      refine ⟨_, rfl, hco, fun _ => ⟨r1, .inl ⟨hh, hcur⟩, fun h' t he => ?_⟩⟩
      cases he
      refine ⟨by simp, ?_⟩
      rw [get_snoc, if_pos rfl]
    · next e =>
      rw [if_neg e]
      obtain ⟨o'', a1, a2, a3⟩ := v.rel j q hq
      refine ⟨o'', a1, a2, fun hqc => ?_⟩
      obtain ⟨b1, b2, b3⟩ := a3 hqc
      refine ⟨b1, ?_, fun h' t he => ⟨(b3 h' t he).1, grow _ _ (b3 h' t he).2⟩⟩
      rcases b2 with b2 | ⟨h', t, e1, e2, e3, e4⟩
      · exact .inl b2
      · exact .inr ⟨h', t, e1, e2, e3, grow _ _ e4⟩
  · rw [get_snoc] at hx
    split at hx
    · next e =>
      cases hx
      cases hm
      exact ⟨_, (get_set hp _ _).trans (if_pos rfl), hc, h, by simp [e]⟩
    · obtain ⟨q, hq, hqc, h', he⟩ := v.owner t x hx hop j f hm
      by_cases e : i = j
      · subst e
        rw [hp] at hq
        cases hq
        cases f with
        | false => rw [hcur] at he; simp at he
        | true => rw [hf] at he; simp at he
      · exact ⟨q, by rw [get_set hp, if_neg e]; exact hq, hqc, h', he⟩
  · obtain ⟨j, q, hq, hqc, hqq⟩ := v.served x t ht
    have e : i ≠ j := by
      rintro rfl
      rw [hp] at hq
      cases hq
      rw [hcur] at hqq
      cases hqq
    exact ⟨j, q, by rw [get_set hp, if_neg e]; exact hq, hqc, hqq⟩
  · rw [get_set ho] at hq
    split at hq
    · cases hq
      rw [← r1, hh] at hqh
      cases hqh
    · next e =>
      refine v.sole x j q hq hqc hqh fun l o' ho' hm => ?_
      by_cases el : i = l
      · subst el
        rw [ho] at ho'
        cases ho'
        exact hs i _ ((get_set ho _ _).trans (if_pos rfl)) (by simp [hm])
      · exact hs l o' (by rw [get_set ho, if_neg el]; exact ho') hm
  · rw [get_set hp] at hq
    split at hq
    · cases hq
      exact absurd (hc.symm.trans hqc) (by simp)
    · obtain ⟨x, hx, hr⟩ := v.dead j q hq hqc h' t' he
      exact ⟨x, grow _ _ hx, hr⟩

theorem PInv.gain (v : PInv own T V L P os) {i : Nat} {p : Peer} {o : Obj} (hp : P[i]? = some p) (ho : os[i]? = some o)
    (hc : p.closed = false) (hh : p.handle = none) (h : Nat) (had : List Nat)
    (hhad : ∀ x, x ∈ had ↔ x ∈ o.had ∨ x = h) :
    PInv own (T ++ [⟨.peer h, some (i, false), true, none⟩]) (fun x => if x = h then some T.length else V x)
      (fun x => if x = h then true else L x) (P.set i { p with handle := some h, cur := some (h, T.length) })
      (os.set i ⟨some h, had, none, false⟩) := by
  have grow : ∀ (t : Nat) (x : Track), T[t]? = some x → (T ++ [(⟨.peer h, some (i, false), true, none⟩ : Track)])[t]? = some x :=
    fun t x hx => by rw [List.getElem?_append_left (lt_of_get hx)]; exact hx
  obtain ⟨o', ho', hco, hrest⟩ := v.rel i p hp
  rw [ho] at ho'
  cases ho'
  obtain ⟨r1, r2, r3⟩ := hrest hc
  have hcur : p.cur = none := by
    rcases r2 with r2 | ⟨h', t, e1, _⟩
    · exact r2.2
    · rw [hh] at e1; cases e1
  refine ⟨grow _ _ v.zero, v.anon, by simp [v.len], fun j q hq => ?_, fun t x hx hop j f hm => ?_, fun x => ?_, fun x t ht => ?_, fun x j q hq hqc hqh hs => ?_, fun j q hq hqc h' t' he => ?_⟩
  · rw [get_set hp] at hq
    rw [get_set ho]
    split at hq
    · next e =>
      subst e
      cases hq
      rw [if_pos rfl]
      refine ⟨_, rfl, hc, fun _ => ⟨rfl, .inr ⟨h, T.length, rfl, rfl, (hhad h).2 (.inr rfl), ?_⟩, fun h' t he => ?_⟩⟩
      · rw [get_snoc, if_pos rfl]
      · have := r3 h' t he
        exact ⟨(hhad _).2 (.inl this.1), grow _ _ this.2⟩
    · next e =>
      rw [if_neg e]
      obtain ⟨o'', a1, a2, a3⟩ := v.rel j q hq
      refine ⟨o'', a1, a2, fun hqc => ?_⟩
      obtain ⟨b1, b2, b3⟩ := a3 hqc
      refine ⟨b1, ?_, fun h' t he => ⟨(b3 h' t he).1, grow _ _ (b3 h' t he).2⟩⟩
      rcases b2 with b2 | ⟨h', t, e1, e2, e3, e4⟩
      · exact .inl b2
      · exact .inr ⟨h', t, e1, e2, e3, grow _ _ e4⟩
  · rw [get_snoc] at hx
    split at hx
    · next e =>
      cases hx
      cases hm
      exact ⟨_, (get_set hp _ _).trans (if_pos rfl), hc, h, by simp [e]⟩
    · obtain ⟨q, hq, hqc, h', he⟩ := v.owner t x hx hop j f hm
      by_cases e : i = j
      · subst e
        rw [hp] at hq
        cases hq
        cases f with
        | false => rw [hcur] at he; simp at he
        | true => exact ⟨_, (get_set hp _ _).trans (if_pos rfl), hc, h', he⟩
      · exact ⟨q, by rw [get_set hp, if_neg e]; exact hq, hqc, h', he⟩
  · split
    · rfl
    · exact v.listed x
  · split at ht
    · next e =>
      subst e
      cases ht
      exact ⟨i, _, (get_set hp _ _).trans (if_pos rfl), hc, rfl⟩
    · obtain ⟨j, q, hq, hqc, hqq⟩ := v.served x t ht
      have e : i ≠ j := by
        rintro rfl
        rw [hp] at hq
        cases hq
        rw [hcur] at hqq
        cases hqq
      exact ⟨j, q, by rw [get_set hp, if_neg e]; exact hq, hqc, hqq⟩
  · split
    · rfl
    · next hne =>
      rw [get_set ho] at hq
      split at hq
      · cases hq
        cases hqh
        exact absurd rfl hne
      · next e =>
        refine v.sole x j q hq hqc hqh fun l o' ho' hm => ?_
        by_cases el : i = l
        · subst el
          rw [ho] at ho'
          cases ho'
          exact hs i _ ((get_set ho _ _).trans (if_pos rfl)) ((hhad x).2 (.inl hm))
        · exact hs l o' (by rw [get_set ho, if_neg el]; exact ho') hm
  · rw [get_set hp] at hq
    split at hq
    · cases hq
      exact absurd (hc.symm.trans hqc) (by simp)
    · obtain ⟨x, hx, hr⟩ := v.dead j q hq hqc h' t' he
      exact ⟨x, grow _ _ hx, hr⟩

theorem PInv.drop (v : PInv own T V L P os) {i : Nat} {p : Peer} {o : Obj} (hp : P[i]? = some p) (ho : os[i]? = some o)
    (hc : p.closed = false) (h t : Nat) (hcur : p.cur = some (h, t)) :
    PInv own (T.modify t fun x => { x with open_ := false }) (fun x => if x = h then none else V x)
      (fun x => if x = h then false else L x) (P.set i { p with handle := none, cur := none })
      (os.set i { o with handle := none }) := by
  obtain ⟨o', ho', hco, hrest⟩ := v.rel i p hp
  rw [ho] at ho'
  cases ho'
  obtain ⟨r1, r2, r3⟩ := hrest hc
  rcases r2 with r2 | ⟨h', t', e1, e2, e3, e4⟩
  · rw [r2.2] at hcur; cases hcur
  rw [hcur] at e2
  cases e2
  have keep : ∀ (t' : Nat) (x : Track), T[t']? = some x → x.made ≠ some (i, false) →
      (T.modify t fun x => { x with open_ := false })[t']? = some x := fun t' x hx hn => modify_ne e4 hx fun e => hn e.symm
  refine ⟨keep _ _ v.zero (by rw [v.anon]; simp), v.anon, by simp [v.len], fun j q hq => ?_, fun t' x hx hop j f hm => ?_, fun x => ?_, fun x t' ht => ?_, fun x j q hq hqc hqh hs => ?_, fun j q hq hqc h' t' he => ?_⟩
  · rw [get_set hp] at hq
    rw [get_set ho]
    split at hq
    · next e =>
      subst e
      cases hq
      rw [if_pos rfl]
      refine ⟨_, rfl, hco, fun _ => ⟨rfl, .inl ⟨rfl, rfl⟩, fun h' t' he => ?_⟩⟩
      have := r3 h' t' he
      exact ⟨this.1, keep _ _ this.2 (by simp)⟩
    · next e =>
      rw [if_neg e]
      obtain ⟨o'', a1, a2, a3⟩ := v.rel j q hq
      refine ⟨o'', a1, a2, fun hqc => ?_⟩
      obtain ⟨b1, b2, b3⟩ := a3 hqc
      refine ⟨b1, ?_, fun h' t he => ⟨(b3 h' t he).1, keep _ _ (b3 h' t he).2 (by simp)⟩⟩
      rcases b2 with b2 | ⟨h', t, e1, e2, e3, e4⟩
      · exact .inl b2
      · exact .inr ⟨h', t, e1, e2, e3, keep _ _ e4 (by simpa using fun h => e h.symm)⟩
  · rw [modify_set _ _ _ _ e4, get_set e4] at hx
    split at hx
    · cases hx
      cases hop
    · next hne =>
      obtain ⟨q, hq, hqc, h', he⟩ := v.owner t' x hx hop j f hm
      by_cases e : i = j
      · subst e
        rw [hp] at hq
        cases hq
        cases f with
        | false =>
          simp only [Bool.false_eq_true, if_false] at he
          rw [hcur] at he
          cases he
          exact absurd rfl hne
        | true => exact ⟨_, (get_set hp _ _).trans (if_pos rfl), hc, h', he⟩
      · exact ⟨q, by rw [get_set hp, if_neg e]; exact hq, hqc, h', he⟩
  · split
    · rfl
    · exact v.listed x
  · split at ht
    · cases ht
    · next hne =>
      obtain ⟨j, q, hq, hqc, hqq⟩ := v.served x t' ht
      have e : i ≠ j := by
        rintro rfl
        rw [hp] at hq
        cases hq
        rw [hcur] at hqq
        cases hqq
        exact hne rfl
      exact ⟨j, q, by rw [get_set hp, if_neg e]; exact hq, hqc, hqq⟩
  · rw [get_set ho] at hq
    split at hq
    · cases hq
      cases hqh
    · next e =>
      split
      · next hx =>
        subst hx
        exact absurd (hs i _ ((get_set ho _ _).trans (if_pos rfl)) e3) e
      · refine v.sole x j q hq hqc hqh fun l o' ho' hm => ?_
        by_cases el : i = l
        · subst el
          rw [ho] at ho'
          cases ho'
          exact hs i _ ((get_set ho _ _).trans (if_pos rfl)) hm
        · exact hs l o' (by rw [get_set ho, if_neg el]; exact ho') hm
  · rw [get_set hp] at hq
    split at hq
    · cases hq
      exact absurd (hc.symm.trans hqc) (by simp)
    · obtain ⟨x, hx, hr, hm⟩ := v.dead j q hq hqc h' t' he
      rw [modify_set _ _ _ _ e4, get_set e4]
      split
      · exact ⟨_, rfl, rfl, by simp⟩
      · exact ⟨x, hx, hr, hm⟩

/-- A map without a key. -/
def without {α : Type} (d : α) (f : Nat → α) (c : Option (Nat × Nat)) (x : Nat) : α :=
  match c with
  | none => f x
  | some (h, _) => if x = h then d else f x

/-- The peer is closed and its first track with it. -/
theorem PInv.shut (v : PInv own T V L P os) {i : Nat} {p : Peer} {o : Obj} (hp : P[i]? = some p) (ho : os[i]? = some o)
    (hc : p.closed = false) (hcur : p.cur = none) (q' : Peer) (hq' : q'.closed = true)
    (hdead : ∀ h t, q'.cur = some (h, t) → ∃ x, T[t]? = some x ∧ x.open_ = false ∧ x.made ≠ none) (o' : Obj) (ho' : o'.closed = true)
    (hhad : o'.had = o.had) :
    PInv own (match p.first with | none => T | some (_, t) => T.modify t fun x => { x with open_ := false })
      (without none V p.first) (without false L p.first) (P.set i q') (os.set i o') := by
  obtain ⟨o', ho', hco, hrest⟩ := v.rel i p hp
  rw [ho] at ho'
  cases ho'
  obtain ⟨r1, r2, r3⟩ := hrest hc
  have keep : ∀ (t' : Nat) (x : Track), T[t']? = some x → x.made ≠ some (i, true) →
      (match p.first with | none => T | some (_, t) => T.modify t fun x => { x with open_ := false })[t']? = some x := by
    intro t' x hx hn
    split
    · exact hx
    · next h t he => exact modify_ne (r3 h t he).2 hx fun e => hn e.symm
  refine ⟨keep _ _ v.zero (by rw [v.anon]; simp), v.anon, by simp [v.len], fun j q hq => ?_, fun t' x hx hop j f hm => ?_, fun x => ?_, fun x t' ht => ?_, fun x j q hq hqc hqh hs => ?_, fun j q hq hqc h' t' he => ?_⟩
  · rw [get_set hp] at hq
    rw [get_set ho]
    split at hq
    · next e =>
      subst e
      cases hq
      rw [if_pos rfl]
      exact ⟨_, rfl, by simp [*], fun h => by rw [hq'] at h; cases h⟩
    · next e =>
      rw [if_neg e]
      obtain ⟨o'', a1, a2, a3⟩ := v.rel j q hq
      refine ⟨o'', a1, a2, fun hqc => ?_⟩
      obtain ⟨b1, b2, b3⟩ := a3 hqc
      refine ⟨b1, ?_, fun h' t he => ⟨(b3 h' t he).1, keep _ _ (b3 h' t he).2 (by simpa using fun h => e h.symm)⟩⟩
      rcases b2 with b2 | ⟨h', t, e1, e2, e3, e4⟩
      · exact .inl b2
      · exact .inr ⟨h', t, e1, e2, e3, keep _ _ e4 (by simp)⟩
  · have hx' : T[t']? = some x ∧ ∀ h, p.first ≠ some (h, t') := by
      split at hx
      · next e => exact ⟨hx, fun h he => (by rw [e] at he; cases he)⟩
      · next h t e =>
        have e4 := (r3 h t e).2
        rw [modify_set _ _ _ _ e4, get_set e4] at hx
        split at hx
        · cases hx
          cases hop
        · next hne =>
          refine ⟨hx, fun h' he => ?_⟩
          rw [e] at he
          cases he
          exact hne rfl
    obtain ⟨q, hq, hqc, h', he⟩ := v.owner t' x hx'.1 hop j f hm
    have e : i ≠ j := by
      rintro rfl
      rw [hp] at hq
      cases hq
      cases f with
      | false => rw [hcur] at he; simp at he
      | true => exact hx'.2 h' he
    exact ⟨q, by rw [get_set hp, if_neg e]; exact hq, hqc, h', he⟩
  · unfold without
    split
    · exact v.listed x
    · split
      · rfl
      · exact v.listed x
  · have ht' : V x = some t' := by
      unfold without at ht
      split at ht
      · exact ht
      · split at ht
        · cases ht
        · exact ht
    obtain ⟨j, q, hq, hqc, hqq⟩ := v.served x t' ht'
    have e : i ≠ j := by
      rintro rfl
      rw [hp] at hq
      cases hq
      rw [hcur] at hqq
      cases hqq
    exact ⟨j, q, by rw [get_set hp, if_neg e]; exact hq, hqc, hqq⟩
  · rw [get_set ho] at hq
    split at hq
    · cases hq
      simp [*] at hqc
    · next e =>
      have key : L x = true := by
        refine v.sole x j q hq hqc hqh fun l o'' ho'' hm => ?_
        by_cases el : i = l
        · subst el
          rw [ho] at ho''
          cases ho''
          exact hs i _ ((get_set ho _ _).trans (if_pos rfl)) (by rw [hhad]; exact hm)
        · exact hs l o'' (by rw [get_set ho, if_neg el]; exact ho'') hm
      unfold without
      split
      · exact key
      · next h t he =>
        split
        · next hx =>
          subst hx
          exact absurd (hs i _ ((get_set ho _ _).trans (if_pos rfl)) (by rw [hhad]; exact (r3 _ _ he).1)) e
        · exact key
  · have key : ∃ x, T[t']? = some x ∧ x.open_ = false ∧ x.made ≠ none := by
      rw [get_set hp] at hq
      split at hq
      · cases hq
        exact hdead h' t' he
      · exact v.dead j q hq hqc h' t' he
    obtain ⟨x, hx, hr, hm⟩ := key
    split
    · exact ⟨x, hx, hr, hm⟩
    · next h t hf =>
      have e4 := (r3 h t hf).2
      rw [modify_set _ _ _ _ e4, get_set e4]
      split
      · exact ⟨_, rfl, rfl, by simp⟩
      · exact ⟨x, hx, hr, hm⟩

/-- The handle of a closed peer does not matter. -/
theorem PInv.stale (v : PInv own T V L P os) {i : Nat} {p : Peer} (hp : P[i]? = some p) (hc : p.closed = true) (q : Peer)
    (hq : q.cur = p.cur) (hqc : q.closed = true) : PInv own T V L (P.set i q) os := by
  have other : ∀ (j : Nat) (x : Peer), P[j]? = some x → x.closed = false → (P.set i q)[j]? = some x := by
    intro j x hx hxc
    rw [get_set hp, if_neg]
    · exact hx
    · rintro rfl
      rw [hp] at hx
      cases hx
      exact absurd (hc.symm.trans hxc) (by simp)
  refine ⟨v.zero, v.anon, by simp [v.len], fun j x hx => ?_, fun t x hx hop j f hm => ?_, v.listed, fun h t ht => ?_, v.sole, fun j x hx hxc => ?_⟩
  · rw [get_set hp] at hx
    split at hx
    · next e =>
      subst e
      cases hx
      obtain ⟨o, ho, c1, -⟩ := v.rel i p hp
      exact ⟨o, ho, by rw [hqc, ← c1, hc], fun h => absurd (hqc.symm.trans h) (by simp)⟩
    · exact v.rel j x hx
  · obtain ⟨y, hy, hyc, hr⟩ := v.owner t x hx hop j f hm
    exact ⟨y, other j y hy hyc, hyc, hr⟩
  · obtain ⟨j, y, hy, hyc, hr⟩ := v.served h t ht
    exact ⟨j, y, other j y hy hyc, hyc, hr⟩
  · rw [get_set hp] at hx
    split at hx
    · cases hx
      rw [hq]
      exact v.dead i p hp hc
    · exact v.dead j x hx hxc

/-- A position is written. -/
theorem PInv.write (v : PInv own T V L P os) {i : Nat} {p : Peer} {o : Obj} (hp : P[i]? = some p) (ho : os[i]? = some o)
    (hc : p.closed = false) (h t : Nat) (hcur : p.cur = some (h, t)) (a : Nat) :
    PInv own (T.modify t fun x => { x with last := some a }) V L P (os.set i { o with last := some a }) := by
  obtain ⟨o', ho', hco, hrest⟩ := v.rel i p hp
  rw [ho] at ho'
  cases ho'
  obtain ⟨r1, r2, r3⟩ := hrest hc
  rcases r2 with r2 | ⟨h', t', e1, e2, e3, e4⟩
  · rw [r2.2] at hcur; cases hcur
  rw [hcur] at e2
  cases e2
  have keep : ∀ (t' : Nat) (x : Track), T[t']? = some x → x.made ≠ some (i, false) →
      (T.modify t fun x => { x with last := some a })[t']? = some x := fun t' x hx hn => modify_ne e4 hx fun e => hn e.symm
  have mine : (T.modify t fun x => { x with last := some a })[t]? = some ⟨.peer h, some (i, false), true, some a⟩ := by
    rw [modify_set _ _ _ _ e4, get_set e4, if_pos rfl]
  refine ⟨keep _ _ v.zero (by rw [v.anon]; simp), v.anon, by simp [v.len], fun j q hq => ?_, fun t' x hx hop j f hm => ?_, v.listed, v.served, fun x j q hq hqc hqh hs => ?_, fun j q hq hqc h' t' he => ?_⟩
  · rw [get_set ho]
    split
    · next e =>
      subst e
      rw [hp] at hq
      cases hq
      refine ⟨_, rfl, hco, fun _ => ⟨r1, .inr ⟨h, t, e1, hcur, e3, mine⟩, fun h' t' he => ?_⟩⟩
      have := r3 h' t' he
      exact ⟨this.1, keep _ _ this.2 (by simp)⟩
    · next e =>
      obtain ⟨o'', a1, a2, a3⟩ := v.rel j q hq
      refine ⟨o'', a1, a2, fun hqc => ?_⟩
      obtain ⟨b1, b2, b3⟩ := a3 hqc
      refine ⟨b1, ?_, fun h' t he => ⟨(b3 h' t he).1, keep _ _ (b3 h' t he).2 (by simp)⟩⟩
      rcases b2 with b2 | ⟨h', t, e1, e2, e3, e4⟩
      · exact .inl b2
      · exact .inr ⟨h', t, e1, e2, e3, keep _ _ e4 (by simpa using fun h => e h.symm)⟩
  · rw [modify_set _ _ _ _ e4, get_set e4] at hx
    split at hx
    · next e =>
      cases hx
      cases hm
      subst e
      exact ⟨p, hp, hc, h, hcur⟩
    · exact v.owner t' x hx hop j f hm
  · rw [get_set ho] at hq
    have sub : ∀ l o', os[l]? = some o' → x ∈ o'.had → l = j := by
      intro l o' ho' hm
      by_cases el : i = l
      · subst el
        rw [ho] at ho'
        cases ho'
        exact hs i _ ((get_set ho _ _).trans (if_pos rfl)) hm
      · exact hs l o' (by rw [get_set ho, if_neg el]; exact ho') hm
    split at hq
    · next e =>
      subst e
      cases hq
      exact v.sole x i o ho hqc hqh sub
    · exact v.sole x j q hq hqc hqh sub
  · obtain ⟨x, hx, hr, hm⟩ := v.dead j q hq hqc h' t' he
    rw [modify_set _ _ _ _ e4, get_set e4]
    split
    · next e =>
      subst e
      rw [hx] at e4
      cases e4
      cases hr
    · exact ⟨x, hx, hr, hm⟩

/-- The own track changes. -/
theorem PInv.own_change (v : PInv own T V L P os) (f : Track → Track) (hf : (f own).made = none) :
    PInv (f own) (T.modify 0 f) V L P os := by
  have keep : ∀ (t' : Nat) (x : Track), T[t']? = some x → x.made ≠ none → (T.modify 0 f)[t']? = some x :=
    fun t' x hx hn => modify_ne v.zero hx fun e => hn (by rw [← e, v.anon])
  refine ⟨by rw [modify_set _ _ _ _ v.zero, get_set v.zero, if_pos rfl], hf, v.len, fun j q hq => ?_, fun t' x hx hop j g hm => ?_,
    v.listed, v.served, v.sole, fun j q hq hqc h' t' he => ?_⟩
  · obtain ⟨o'', a1, a2, a3⟩ := v.rel j q hq
    refine ⟨o'', a1, a2, fun hqc => ?_⟩
    obtain ⟨b1, b2, b3⟩ := a3 hqc
    refine ⟨b1, ?_, fun h' t he => ⟨(b3 h' t he).1, keep _ _ (b3 h' t he).2 (by simp)⟩⟩
    rcases b2 with b2 | ⟨h', t, e1, e2, e3, e4⟩
    · exact .inl b2
    · exact .inr ⟨h', t, e1, e2, e3, keep _ _ e4 (by simp)⟩
  · rw [modify_set _ _ _ _ v.zero, get_set v.zero] at hx
    split at hx
    · cases hx
      rw [hf] at hm
      cases hm
    · exact v.owner t' x hx hop j g hm
  · obtain ⟨x, hx, hr, hm⟩ := v.dead j q hq hqc h' t' he
    exact ⟨x, keep _ _ hx hm, hr, hm⟩

/-! ## The steps -/

theorem objs_snoc (tr : Trace) (op : Op) (o : Out) : objs (tr ++ [(op, o)]) =
    match (op, o) with
    | (.peer h, _) => objs tr ++ [⟨h, h.toList, none, false⟩]
    | (.handle i h, _) => (objs tr).modify i fun o => if o.closed ∨ o.handle = h then o else ⟨h, o.had ++ h.toList, none, false⟩
    | (.update i p, .ok) => (objs tr).modify i fun o => { o with last := some p }
    | (.leave i, _) => (objs tr).modify i fun o => { o with closed := true }
    | _ => objs tr := by
  unfold objs
  rw [List.foldl_append]
  rfl

theorem told_snoc (tr : Trace) (op : Op) (o : Out) : told (tr ++ [(op, o)]) =
    match op with
    | .close => (true, (told tr).2)
    | .current (some p) => if (told tr).1 then told tr else ((told tr).1, some p)
    | _ => told tr := by
  unfold told
  rw [List.foldl_append]
  rfl

theorem on_snoc (tr : Trace) (op : Op) (o : Out) : on (tr ++ [(op, o)]) =
    match op with
    | .enable b => b
    | _ => on tr := by
  unfold on
  rw [List.foldl_append]
  rfl

/-- What does not concern peers. -/
structure Weak (s : State) : Prop where
  served : s.served .own = if s.enabled = true ∧ s.closed = false then some 0 else none
  has : s.closed = false → s.catalog.isSome = s.enabled
  peering : s.closed = false → ∀ c, s.catalog = some c → c.peering = s.peering

structure Own (s : State) : Prop extends Weak s where
  peers : s.closed = false → ∀ c, s.catalog = some c → c.peers = s.listed

/-- The parts that `publish` leaves. -/
theorem publish_rest (s : State) : (publish s).tracks = s.tracks ∧ (publish s).listed = s.listed ∧ (publish s).peers = s.peers ∧
    (publish s).enabled = s.enabled ∧ (publish s).closed = s.closed ∧ (publish s).current = s.current ∧
    (publish s).peering = s.peering ∧ ∀ h, (publish s).served (.peer h) = s.served (.peer h) := by
  unfold publish Js.Locating.insert
  split
  · exact ⟨rfl, rfl, rfl, rfl, rfl, rfl, rfl, fun _ => rfl⟩
  · split
    · exact ⟨rfl, rfl, rfl, rfl, rfl, rfl, rfl, fun _ => by simp⟩
    · exact ⟨rfl, rfl, rfl, rfl, rfl, rfl, rfl, fun _ => rfl⟩

theorem publish_own {s : State} (h1 : s.closed = true → s.served .own = none) (h2 : s.closed = false → s.enabled = false → s.served .own = none ∧ s.catalog = none) :
    Own (publish s) := by
  unfold publish Js.Locating.insert
  split
  · next hc => exact ⟨⟨by simp [hc, h1 hc], fun h => (by simp [hc] at h), fun h => (by simp [hc] at h)⟩, fun h => (by simp [hc] at h)⟩
  · next hc =>
    have hc : s.closed = false := by simpa using hc
    split
    · next he =>
      refine ⟨⟨by simp [he, hc], fun _ => he.symm, fun _ c h => ?_⟩, fun _ c h => ?_⟩ <;> (cases h; rfl)
    · next he =>
      have he : s.enabled = false := by simpa using he
      obtain ⟨a, b⟩ := h2 hc he
      exact ⟨⟨by simp [he, a], fun _ => by simp [b, he], fun _ c h => (by rw [b] at h; cases h)⟩, fun _ c h => (by rw [b] at h; cases h)⟩

theorem Weak.publish {s : State} (h : Weak s) : Own (publish s) := by
  apply publish_own
  · intro hc
    rw [h.served]
    simp [hc]
  · intro hc he
    rw [h.served]
    refine ⟨by simp [he], ?_⟩
    have := h.has hc
    rw [he] at this
    cases hcat : s.catalog with
    | none => rfl
    | some c => rw [hcat] at this; cases this

theorem run_rest (s : State) (m : Nat × Bool) (h : Option Nat) : (run s m h).1.peers = s.peers ∧ (run s m h).1.enabled = s.enabled ∧
    (run s m h).1.closed = s.closed ∧ (run s m h).1.current = s.current ∧ (run s m h).1.peering = s.peering := by
  unfold run
  cases h with
  | none => exact ⟨rfl, rfl, rfl, rfl, rfl⟩
  | some h =>
    dsimp only
    have := publish_rest { Js.Locating.insert { s with tracks := s.tracks ++ [⟨.peer h, some m, true, none⟩] } (.peer h) s.tracks.length with
      listed := fun x => if x = h then true else s.listed x }
    exact ⟨this.2.2.1, this.2.2.2.1, this.2.2.2.2.1, this.2.2.2.2.2.1, this.2.2.2.2.2.2.1⟩

theorem run_some (s : State) (m : Nat × Bool) (h : Nat) : (run s m (some h)).2 = some (h, s.tracks.length) ∧
    (run s m (some h)).1.tracks = s.tracks ++ [⟨.peer h, some m, true, none⟩] ∧
    ((run s m (some h)).1.listed = fun x => if x = h then true else s.listed x) ∧
    (fun x => (run s m (some h)).1.served (.peer x)) = fun x => if x = h then some s.tracks.length else s.served (.peer x) := by
  unfold run
  dsimp only
  have := publish_rest { Js.Locating.insert { s with tracks := s.tracks ++ [⟨.peer h, some m, true, none⟩] } (.peer h) s.tracks.length with
    listed := fun x => if x = h then true else s.listed x }
  refine ⟨rfl, this.1, this.2.1, funext fun x => ?_⟩
  have := this.2.2.2.2.2.2.2 x
  refine this.trans ?_
  simp [Js.Locating.insert]

theorem run_own {s : State} (w : Own s) (m : Nat × Bool) (h : Option Nat) : Own (run s m h).1 := by
  unfold run
  cases h with
  | none => exact w
  | some h =>
    apply Weak.publish
    refine ⟨?_, w.has, w.peering⟩
    have := w.served
    simpa [Js.Locating.insert] using this

theorem clean_rest (s : State) (c : Option (Nat × Nat)) : (clean s c).peers = s.peers ∧ (clean s c).enabled = s.enabled ∧
    (clean s c).closed = s.closed ∧ (clean s c).current = s.current ∧ (clean s c).peering = s.peering ∧
    (clean s c).listed = without false s.listed c ∧
    (fun x => (clean s c).served (.peer x)) = without none (fun x => s.served (.peer x)) c ∧
    (clean s c).tracks = (match c with | none => s.tracks | some (_, t) => s.tracks.modify t fun x => { x with open_ := false }) := by
  unfold clean
  cases c with
  | none => exact ⟨rfl, rfl, rfl, rfl, rfl, rfl, rfl, rfl⟩
  | some c =>
    obtain ⟨h, t⟩ := c
    dsimp only
    have := publish_rest { onTrack s t fun x => { x with open_ := false } with
      listed := fun x => if x = h then false else (onTrack s t fun x => { x with open_ := false }).listed x }
    refine ⟨this.2.2.1, this.2.2.2.1, this.2.2.2.2.1, this.2.2.2.2.2.1, this.2.2.2.2.2.2.1, this.2.1, funext fun x => ?_, this.1⟩
    have := this.2.2.2.2.2.2.2 x
    simp only [remove, without, Name.peer.injEq]
    split
    · rfl
    · exact this

theorem clean_own {s : State} (w : Own s) (c : Option (Nat × Nat)) : Own (clean s c) := by
  unfold clean
  cases c with
  | none => exact w
  | some c =>
    obtain ⟨h, t⟩ := c
    dsimp only
    have key : Own (publish { onTrack s t fun x => { x with open_ := false } with
        listed := fun x => if x = h then false else (onTrack s t fun x => { x with open_ := false }).listed x }) :=
      Weak.publish ⟨w.served, w.has, w.peering⟩
    refine ⟨⟨?_, key.has, key.peering⟩, key.peers⟩
    have := key.served
    simpa [remove] using this

structure Inv (tr : Trace) (s : State) : Prop where
  p : PInv ⟨.own, none, !s.closed, (told tr).2⟩ s.tracks (fun h => s.served (.peer h)) s.listed s.peers (objs tr)
  shut : s.closed = (told tr).1
  on : s.enabled = on tr
  own : Own s
  cur : s.closed = false → ∀ p, s.current = some p → (told tr).2 = some p

theorem PInv.cast {T T' : List Track} {V V' : Nat → Option Nat} {L L' : Nat → Bool} {P P' : List Peer} {os os' : List Obj}
    (v : PInv own T V L P os) (h1 : T' = T) (h2 : V' = V) (h3 : L' = L) (h4 : P' = P) (h5 : os' = os) : PInv own T' V' L' P' os' := by
  subst h1 h2 h3 h4 h5
  exact v

/-- The obj that belongs to a peer. -/
theorem PInv.obj (v : PInv own T V L P os) {i : Nat} {p : Peer} (hp : P[i]? = some p) :
    ∃ o, os[i]? = some o ∧ p.closed = o.closed ∧ (p.closed = false → p.handle = o.handle ∧ Cur T i p o ∧ First T i p o) := v.rel i p hp

/-- The peer gives up its handle. -/
theorem PInv.release (v : PInv own T V L P os) {i : Nat} {p : Peer} {o : Obj} (hp : P[i]? = some p) (ho : os[i]? = some o)
    (hc : p.closed = false) :
    PInv own (match p.cur with | none => T | some (_, t) => T.modify t fun x => { x with open_ := false })
      (without none V p.cur) (without false L p.cur) (P.set i { p with handle := none, cur := none }) (os.set i { o with handle := none }) := by
  cases hcur : p.cur with
  | some c =>
    obtain ⟨h, t⟩ := c
    exact v.drop hp ho hc h t hcur
  | none =>
    obtain ⟨o', ho', a, b⟩ := v.rel i p hp
    rw [ho] at ho'
    cases ho'
    obtain ⟨b1, b2, b3⟩ := b hc
    have hh : p.handle = none := by
      rcases b2 with b2 | ⟨h, t, e1, e2, _⟩
      · exact b2.1
      · rw [hcur] at e2; cases e2
    have e1 : P.set i { p with handle := none, cur := none } = P := by
      have : ({ p with handle := none, cur := none } : Peer) = p := by
        cases p
        simp_all
      rw [this]
      apply List.ext_getElem?
      intro j
      rw [get_set hp]
      split
      · next e => rw [← e, hp]
      · rfl
    have e2 : os.set i { o with handle := none } = os := by
      have : ({ o with handle := none } : Obj) = o := by
        cases o
        simp_all
      rw [this]
      apply List.ext_getElem?
      intro j
      rw [get_set ho]
      split
      · next e => rw [← e, ho]
      · rfl
    rw [e1, e2]
    exact v

/-- The peer takes a handle. -/
theorem PInv.take (v : PInv own T V L P os) {i : Nat} {p : Peer} {o : Obj} (hp : P[i]? = some p) (ho : os[i]? = some o)
    (hc : p.closed = false) (hh : p.handle = none) (s : State) (h : Option Nat) (h1 : s.tracks = T) (h2 : (fun x => s.served (.peer x)) = V)
    (h3 : s.listed = L) :
    PInv own (run s (i, false) h).1.tracks (fun x => (run s (i, false) h).1.served (.peer x)) (run s (i, false) h).1.listed
      (P.set i { p with handle := h, cur := (run s (i, false) h).2 }) (os.set i ⟨h, o.had ++ h.toList, none, false⟩) := by
  subst h1 h2 h3
  cases h with
  | some h =>
    obtain ⟨r1, r2, r3, r4⟩ := run_some s (i, false) h
    rw [r1, r2, r3, r4]
    exact v.gain hp ho hc hh h _ (by simp)
  | none =>
    obtain ⟨o', ho', a, b⟩ := v.rel i p hp
    rw [ho] at ho'
    cases ho'
    obtain ⟨b1, b2, b3⟩ := b hc
    have hcur : p.cur = none := by
      rcases b2 with b2 | ⟨h, t, e1, e2, _⟩
      · exact b2.2
      · rw [hh] at e1; cases e1
    have e1 : P.set i { p with handle := none, cur := none } = P := by
      have : ({ p with handle := none, cur := none } : Peer) = p := by
        cases p
        simp_all
      rw [this]
      apply List.ext_getElem?
      intro j
      rw [get_set hp]
      split
      · next e => rw [← e, hp]
      · rfl
    show PInv own s.tracks _ s.listed (P.set i { p with handle := none, cur := none }) _
    rw [e1]
    refine ⟨v.zero, v.anon, by simp [v.len], fun j q hq => ?_, v.owner, v.listed, v.served, fun x j q hq hqc hqh hs => ?_, v.dead⟩
    · rw [get_set ho]
      split
      · next e =>
        subst e
        rw [hp] at hq
        cases hq
        refine ⟨_, rfl, by rw [hc], fun _ => ⟨hh, .inl ⟨hh, hcur⟩, fun h t he => ?_⟩⟩
        exact ⟨by simpa using (b3 h t he).1, (b3 h t he).2⟩
      · exact v.rel j q hq
    · rw [get_set ho] at hq
      split at hq
      · cases hq
        cases hqh
      · refine v.sole x j q hq hqc hqh fun l o' ho' hm => ?_
        by_cases el : i = l
        · subst el
          rw [ho] at ho'
          cases ho'
          exact hs i _ ((get_set ho _ _).trans (if_pos rfl)) (by simp [hm])
        · exact hs l o' (by rw [get_set ho, if_neg el]; exact ho') hm

theorem told_same (tr : Trace) (op : Op) (o : Out) (h1 : op ≠ .close) (h2 : ∀ p, op ≠ .current (some p)) :
    told (tr ++ [(op, o)]) = told tr := by
  rw [told_snoc]
  split
  · exact absurd rfl h1
  · exact absurd rfl (h2 _)
  · rfl

theorem on_same (tr : Trace) (op : Op) (o : Out) (h1 : ∀ b, op ≠ .enable b) : on (tr ++ [(op, o)]) = on tr := by
  rw [on_snoc]
  split
  · exact absurd rfl (h1 _)
  · rfl

/-- Only peers are concerned. -/
theorem Inv.peers {tr : Trace} {s s' : State} (v : Inv tr s) (op : Op) (o : Out) (h1 : op ≠ .close)
    (h2 : ∀ p, op ≠ .current (some p)) (h3 : ∀ b, op ≠ .enable b) (c1 : s'.closed = s.closed) (c2 : s'.enabled = s.enabled)
    (c3 : s'.current = s.current) (w : Own s')
    (p : PInv ⟨.own, none, !s.closed, (told tr).2⟩ s'.tracks (fun h => s'.served (.peer h)) s'.listed s'.peers (objs (tr ++ [(op, o)]))) :
    Inv (tr ++ [(op, o)]) s' := by
  refine ⟨?_, ?_, ?_, w, ?_⟩
  · rw [c1, told_same tr op o h1 h2]
    exact p
  · rw [c1, told_same tr op o h1 h2, v.shut]
  · rw [c2, on_same tr op o h3, v.on]
  · rw [c1, c3, told_same tr op o h1 h2]
    exact v.cur

theorem step_inv {tr : Trace} {s : State} (v : Inv tr s) (op : Op) : Inv (tr ++ [(op, (step s op).1)]) (step s op).2 := by
  cases op with
  | enable b =>
    have ho : objs (tr ++ [(.enable b, (step s (.enable b)).1)]) = objs tr := by rw [objs_snoc]
    have ht := told_same tr (.enable b) (step s (.enable b)).1 (by simp) (by simp)
    have hon : on (tr ++ [(.enable b, (step s (.enable b)).1)]) = b := by rw [on_snoc]
    have key : ∀ s' : State, s'.closed = s.closed → s'.enabled = b → s'.current = s.current → s'.tracks = s.tracks →
        s'.listed = s.listed → s'.peers = s.peers → (∀ h, s'.served (.peer h) = s.served (.peer h)) → Own s' →
        Inv (tr ++ [(.enable b, (step s (.enable b)).1)]) s' := by
      intro s' c1 c2 c3 c4 c5 c6 c7 w
      refine ⟨?_, by rw [ht, c1, v.shut], by rw [hon, c2], w, by rw [ht, c1, c3]; exact v.cur⟩
      rw [ht, c1, ho]
      exact v.p.cast c4 (funext c7) c5 c6 rfl
    show Inv _ (enable s b)
    unfold enable
    split
    · next hc =>
      refine key _ rfl rfl rfl rfl rfl rfl (fun _ => rfl) ?_
      rcases hc with hc | hc
      · exact ⟨⟨by simp [v.own.served, hc], fun h => (by simp [hc] at h), fun h => (by simp [hc] at h)⟩, fun h => (by simp [hc] at h)⟩
      · subst hc
        exact v.own
    · next hc =>
      have hc : s.closed = false ∧ s.enabled = !b := by
        cases h1 : s.closed <;> cases h2 : s.enabled <;> cases b <;> simp_all
      split
      · next hb =>
        subst hb
        obtain ⟨r1, r2, r3, r4, r5, r6, r7, r8⟩ := publish_rest { s with enabled := true }
        refine key _ r5 r4 r6 r1 r2 r3 r8 (publish_own ?_ ?_)
        · intro h
          exact absurd (hc.1.symm.trans h) (by simp)
        · intro _ h
          cases h
      · next hb =>
        have hb : b = false := by simpa using hb
        subst hb
        refine key _ rfl rfl rfl rfl rfl rfl (fun _ => by simp [remove]) ?_
        exact ⟨⟨by simp [remove], fun _ => rfl, fun _ c h => (by cases h)⟩, fun _ c h => (by cases h)⟩
  | current p =>
    have ho : objs (tr ++ [(.current p, (step s (.current p)).1)]) = objs tr := by rw [objs_snoc]
    have hon := on_same tr (.current p) (step s (.current p)).1 (by simp)
    show Inv _ (current s p)
    unfold current
    cases p with
    | none =>
      have ht := told_same tr (.current none) (step s (.current none)).1 (by simp) (by simp)
      refine ⟨?_, ?_, ?_, ?_, ?_⟩
      all_goals (first | rw [ht] | skip)
      · rw [ho]
        dsimp only
        split <;> exact v.p
      · dsimp only
        split <;> exact v.shut
      · rw [hon]
        dsimp only
        split <;> exact v.on
      · dsimp only
        split <;> exact ⟨⟨v.own.served, v.own.has, v.own.peering⟩, v.own.peers⟩
      · dsimp only
        split <;> (intro _ p h; cases h)
    | some q =>
      have ht : told (tr ++ [(.current (some q), (step s (.current (some q))).1)]) = if (told tr).1 then told tr else ((told tr).1, some q) := by
        rw [told_snoc]
      rw [← v.shut] at ht
      dsimp only
      by_cases hc : s.closed = true
      · rw [if_pos hc] at ht ⊢
        refine ⟨?_, by rw [ht, ← v.shut], by rw [hon]; exact v.on, ⟨⟨v.own.served, v.own.has, v.own.peering⟩, v.own.peers⟩, fun h => ?_⟩
        · rw [ht, ho]
          exact v.p
        · exact absurd (hc.symm.trans h) (by simp)
      · rw [if_neg hc] at ht ⊢
        refine ⟨?_, by rw [ht]; rfl, by rw [hon]; exact v.on, ⟨⟨v.own.served, v.own.has, v.own.peering⟩, v.own.peers⟩, fun _ p h => ?_⟩
        · rw [ht, ho]
          exact v.p.own_change (fun t => { t with last := some q }) rfl
        · rw [ht]
          exact h
  | peering b =>
    show Inv _ (peering s b)
    unfold peering
    have ho : objs (tr ++ [(.peering b, (step s (.peering b)).1)]) = objs tr := by rw [objs_snoc]
    split
    · refine v.peers _ _ (by simp) (by simp) (by simp) rfl rfl rfl v.own ?_
      rw [ho]
      exact v.p
    · obtain ⟨r1, r2, r3, r4, r5, r6, r7, r8⟩ := publish_rest { s with peering := b }
      refine v.peers _ _ (by simp) (by simp) (by simp) r5 r4 r6 (publish_own ?_ ?_) ?_
      · intro h
        have h : s.closed = true := h
        show s.served .own = none
        rw [v.own.served]
        simp [h]
      · intro h1 h2
        have h1 : s.closed = false := h1
        have h2 : s.enabled = false := h2
        refine ⟨?_, ?_⟩
        · show s.served .own = none
          rw [v.own.served]
          simp [h2]
        · have := v.own.has h1
          rw [h2] at this
          cases hcat : s.catalog with
          | none => rfl
          | some c => rw [hcat] at this; cases this
      · rw [ho]
        exact v.p.cast r1 (funext r8) r2 r3 rfl
  | peer h =>
    have hob : objs (tr ++ [(.peer h, (step s (.peer h)).1)]) = objs tr ++ [⟨h, h.toList, none, false⟩] := by rw [objs_snoc]
    have hlen := v.p.len
    show Inv _ (peer s h)
    unfold peer
    dsimp only
    obtain ⟨a1, a2, a3, a4, a5⟩ := run_rest s (s.peers.length, true) h
    obtain ⟨b1, b2, b3, b4, b5⟩ := run_rest (run s (s.peers.length, true) h).1 (s.peers.length, false) h
    have w := run_own (run_own v.own (s.peers.length, true) h) (s.peers.length, false) h
    refine v.peers _ _ (by simp) (by simp) (by simp) (b3.trans a3) (b2.trans a2) (b4.trans a4)
      ⟨⟨w.served, w.has, w.peering⟩, w.peers⟩ ?_
    rw [hob]
    dsimp only
    rw [b1, a1]
    have va := v.p.add
    have hp : (s.peers ++ [(⟨none, none, none, false⟩ : Peer)])[s.peers.length]? = some ⟨none, none, none, false⟩ := by simp
    have hq : (objs tr ++ [(⟨none, [], none, false⟩ : Obj)])[s.peers.length]? = some ⟨none, [], none, false⟩ := by rw [hlen]; simp
    cases h with
    | none => exact va
    | some h =>
      have vf := va.first hp hq rfl rfl rfl h
      have hp' := (get_set hp { (⟨none, none, none, false⟩ : Peer) with first := some (h, s.tracks.length) } s.peers.length).trans (if_pos rfl)
      have hq' := (get_set hq { (⟨none, [], none, false⟩ : Obj) with had := [] ++ [h] } s.peers.length).trans (if_pos rfl)
      have vg := vf.gain hp' hq' rfl rfl h [h] (by simp)
      obtain ⟨r1, r2, r3, r4⟩ := run_some s (s.peers.length, true) h
      obtain ⟨q1, q2, q3, q4⟩ := run_some (run s (s.peers.length, true) (some h)).1 (s.peers.length, false) h
      have r4' : ∀ x, (run s (s.peers.length, true) (some h)).1.served (.peer x) = if x = h then some s.tracks.length else s.served (.peer x) :=
        fun x => congrFun r4 x
      rw [q1, r1, q4, q3, q2, r2, r3]
      refine vg.cast rfl ?_ ?_ ?_ ?_
      · funext x
        rw [r4']
        split <;> rfl
      · funext x
        dsimp only
        split
        · rfl
        · rfl
      · simp
      · rw [hlen]
        simp
  | handle i h =>
    have hob : ∀ o, objs (tr ++ [(.handle i h, o)]) =
        (objs tr).modify i fun o => if o.closed ∨ o.handle = h then o else ⟨h, o.had ++ h.toList, none, false⟩ := fun o => by rw [objs_snoc]
    show Inv (tr ++ [(.handle i h, (handle s i h).1)]) (handle s i h).2
    unfold handle
    cases hp : s.peers[i]? with
    | none =>
      dsimp only
      refine v.peers _ _ (by simp) (by simp) (by simp) rfl rfl rfl v.own ?_
      rw [hob]
      refine v.p.cast rfl rfl rfl rfl ?_
      have : (objs tr).length ≤ i := by rw [← v.p.len]; exact List.getElem?_eq_none_iff.1 hp
      rw [List.modify_eq_self this]
    | some p =>
      dsimp only
      obtain ⟨o, ho, c1, c2⟩ := v.p.rel i p hp
      rw [modify_set _ _ _ _ ho] at hob
      split
      · next hcl =>
        refine v.peers _ _ (by simp) (by simp) (by simp) rfl rfl rfl ⟨⟨v.own.served, v.own.has, v.own.peering⟩, v.own.peers⟩ ?_
        have he : (if o.closed = true ∨ o.handle = h then o else ⟨h, o.had ++ h.toList, none, false⟩) = o := by
          apply if_pos
          rcases hcl with hcl | hcl
          · exact .inl (by rw [← c1]; exact hcl)
          · cases hc : p.closed with
            | true => exact .inl (by rw [← c1]; exact hc)
            | false => exact .inr (by rw [← (c2 hc).1]; exact hcl)
        have hself : (objs tr).set i o = objs tr := by
          apply List.ext_getElem?
          intro j
          rw [get_set ho]
          split
          · next e => rw [← e, ho]
          · rfl
        rw [hob, he, hself]
        show PInv _ s.tracks _ s.listed (s.peers.modify i _) _
        rw [modify_set _ _ _ _ hp]
        by_cases hc : p.closed = true
        · exact v.p.stale hp hc _ rfl (by simpa using hc)
        · have : p.handle = h := by
            rcases hcl with hcl | hcl
            · exact absurd hcl hc
            · exact hcl
          subst this
          refine v.p.cast rfl rfl rfl ?_ rfl
          apply List.ext_getElem?
          intro j
          rw [get_set hp]
          split
          · next e => rw [← e, hp]
          · rfl
      · next hcl =>
        have hc : p.closed = false := by
          cases hc : p.closed with
          | false => rfl
          | true => exact absurd (.inl hc) hcl
        have hne : ¬ (o.closed = true ∨ o.handle = h) := by
          rw [← c1, hc, ← (c2 hc).1]
          rintro (h' | h')
          · cases h'
          · exact hcl (.inr h')
        rw [if_neg hne] at hob
        obtain ⟨a1, a2, a3, a4, a5, a6, a7, a8⟩ := clean_rest s p.cur
        obtain ⟨b1, b2, b3, b4, b5⟩ := run_rest (clean s p.cur) (i, false) h
        have w := run_own (clean_own v.own p.cur) (i, false) h
        refine v.peers _ _ (by simp) (by simp) (by simp) (b3.trans a3) (b2.trans a2) (b4.trans a4)
          ⟨⟨w.served, w.has, w.peering⟩, w.peers⟩ ?_
        have vr := v.p.release hp ho hc
        have vt := vr.take ((get_set hp _ i).trans (if_pos rfl)) ((get_set ho _ i).trans (if_pos rfl)) hc rfl (clean s p.cur) h a8 a7 a6
        rw [hob]
        refine vt.cast rfl rfl rfl ?_ ?_
        · show (run (clean s p.cur) (i, false) h).1.peers.modify i _ = _
          rw [b1, a1, modify_set _ _ _ _ hp]
          simp
        · simp
  | update i a =>
    show Inv (tr ++ [(.update i a, (update s i a).1)]) (update s i a).2
    unfold update
    have same : ∀ o, o ≠ .ok → Inv (tr ++ [(.update i a, o)]) s := by
      intro o ho
      refine v.peers _ _ (by simp) (by simp) (by simp) rfl rfl rfl v.own ?_
      rw [objs_snoc]
      cases o with
      | ok => exact absurd rfl ho
      | _ => exact v.p
    cases hp : s.peers[i]? with
    | none => exact same _ (by simp)
    | some p =>
      dsimp only
      cases hcur : p.cur with
      | none => exact same _ (by simp)
      | some c =>
        obtain ⟨h, t⟩ := c
        dsimp only
        split
        · next hop =>
          have hc : p.closed = false := by
            cases hc : p.closed with
            | false => rfl
            | true =>
              obtain ⟨x, hx, hr, -⟩ := v.p.dead i p hp hc h t hcur
              rw [hx] at hop
              simp [hr] at hop
          obtain ⟨o, ho, -, -⟩ := v.p.rel i p hp
          refine v.peers _ _ (by simp) (by simp) (by simp) rfl rfl rfl ⟨⟨v.own.served, v.own.has, v.own.peering⟩, v.own.peers⟩ ?_
          rw [objs_snoc]
          dsimp only
          rw [modify_set _ _ _ _ ho]
          exact v.p.write hp ho hc h t hcur a
        · exact same _ (by simp)
  | leave i =>
    have hob : ∀ o, objs (tr ++ [(.leave i, o)]) = (objs tr).modify i fun o => { o with closed := true } := fun o => by rw [objs_snoc]
    show Inv (tr ++ [(.leave i, (leave s i).1)]) (leave s i).2
    unfold leave
    cases hp : s.peers[i]? with
    | none =>
      dsimp only
      refine v.peers _ _ (by simp) (by simp) (by simp) rfl rfl rfl v.own ?_
      rw [hob]
      refine v.p.cast rfl rfl rfl rfl ?_
      have : (objs tr).length ≤ i := by rw [← v.p.len]; exact List.getElem?_eq_none_iff.1 hp
      rw [List.modify_eq_self this]
    | some p =>
      dsimp only
      obtain ⟨o, ho, c1, c2⟩ := v.p.rel i p hp
      rw [modify_set _ _ _ _ ho] at hob
      split
      · next hc =>
        refine v.peers _ _ (by simp) (by simp) (by simp) rfl rfl rfl v.own ?_
        rw [hob]
        refine v.p.cast rfl rfl rfl rfl ?_
        have : ({ o with closed := true } : Obj) = o := by
          rw [c1] at hc
          cases o
          simp_all
        rw [this]
        apply List.ext_getElem?
        intro j
        rw [get_set ho]
        split
        · next e => rw [← e, ho]
        · rfl
      · next hc =>
        have hc : p.closed = false := by simpa using hc
        obtain ⟨a1, a2, a3, a4, a5, a6, a7, a8⟩ := clean_rest s p.cur
        obtain ⟨b1, b2, b3, b4, b5, b6, b7, b8⟩ := clean_rest (clean s p.cur) p.first
        have w := clean_own (clean_own v.own p.cur) p.first
        refine v.peers _ _ (by simp) (by simp) (by simp) (b3.trans a3) (b2.trans a2) (b4.trans a4)
          ⟨⟨w.served, w.has, w.peering⟩, w.peers⟩ ?_
        have vr := v.p.release hp ho hc
        have vs := vr.shut ((get_set hp _ i).trans (if_pos rfl)) ((get_set ho _ i).trans (if_pos rfl)) hc rfl
          { p with closed := true } rfl (by
            intro h t hcur
            have hcur : p.cur = some (h, t) := hcur
            rcases (c2 hc).2.1 with r2 | ⟨h', t', e1, e2, e3, e4⟩
            · rw [r2.2] at hcur; cases hcur
            · rw [hcur] at e2
              cases e2
              rw [hcur]
              dsimp only
              rw [modify_set _ _ _ _ e4, get_set e4, if_pos rfl]
              exact ⟨_, rfl, rfl, by simp⟩) { o with closed := true } rfl rfl
        rw [hob]
        refine vs.cast ?_ ?_ ?_ ?_ ?_
        · show (clean (clean s p.cur) p.first).tracks = _
          rw [b8, a8]
        · show (fun x => (clean (clean s p.cur) p.first).served (.peer x)) = _
          rw [b7, a7]
        · show (clean (clean s p.cur) p.first).listed = _
          rw [b6, a6]
        · show (clean (clean s p.cur) p.first).peers.modify i _ = _
          rw [b1, a1, modify_set _ _ _ _ hp]
          simp
        · simp
  | close =>
    have ho : objs (tr ++ [(.close, (step s .close).1)]) = objs tr := by rw [objs_snoc]
    have hon := on_same tr .close (step s .close).1 (by simp)
    have ht : told (tr ++ [(.close, (step s .close).1)]) = (true, (told tr).2) := by rw [told_snoc]
    show Inv _ (close s)
    unfold close
    split
    · next hc =>
      refine ⟨by rw [ho, ht]; exact v.p, by rw [ht]; exact hc, by rw [hon]; exact v.on, v.own, fun h => ?_⟩
      exact absurd (hc.symm.trans h) (by simp)
    · next hc =>
      dsimp only
      have hc : s.closed = false := by simpa using hc
      have vo := v.p.own_change (fun t => { t with open_ := false }) rfl
      refine ⟨?_, by rw [ht], ?_, ⟨⟨?_, fun h => (by cases h), fun h => (by cases h)⟩, fun h => (by cases h)⟩, fun h => (by cases h)⟩
      · rw [ho, ht]
        split
        · exact vo.cast rfl (funext fun h => by simp [remove, onTrack]) rfl rfl rfl
        · exact vo
      · rw [hon]
        split <;> exact v.on
      · split
        · simp [remove]
        · next he =>
          have he : s.enabled = false := by simpa [onTrack] using he
          have := v.own.served
          rw [he] at this
          simpa [onTrack] using this

theorem inv_reach {tr : Trace} {s : State} (h : machine.Reach tr s) : Inv tr s := by
  refine Machine.Reach.induct (M := machine) (P := Inv) ?_ (fun _ _ op _ ih => step_inv ih op) h
  refine ⟨⟨rfl, rfl, rfl, fun i p h => ?_, fun t x hx _ i f hm => ?_, fun _ => rfl, fun h t ht => (by cases ht), fun h i o ho => ?_, fun i p h => ?_⟩,
    rfl, rfl, ⟨⟨rfl, fun _ => rfl, fun _ _ h => (by cases h)⟩, fun _ _ h => (by cases h)⟩, fun _ _ h => (by cases h)⟩
  · exact absurd h (by simp [init])
  · have : t = 0 := by
      have := lt_of_get hx
      simp [init] at this
      omega
    subst this
    simp [init] at hx
    subst hx
    cases hm
  · simp [objs] at ho
  · exact absurd h (by simp [init])

theorem told_from (tr : Trace) (v : Bool × Option Nat) : (tr.foldl (fun v e =>
    match e.1 with
    | .close => (true, v.2)
    | .current (some p) => if v.1 then v else (v.1, some p)
    | _ => v) v).1 = true ↔ v.1 = true ∨ Shut tr := by
  induction tr generalizing v with
  | nil => simp [Shut]
  | cons e tr ih =>
    obtain ⟨op, o⟩ := e
    rw [List.foldl_cons, ih]
    unfold Shut
    cases op with
    | close => simp
    | current p =>
      cases p with
      | none => simp
      | some p =>
        dsimp only
        split <;> simp
    | _ => simp

theorem told_shut (tr : Trace) : (told tr).1 = true ↔ Shut tr := by
  unfold told
  rw [told_from]
  simp

/-! ## Theorems -/

/-- The broadcaster's track is in the broadcast exactly while it is enabled and not closed; it is the same track all the time,
it is open until it is closed, and its newest group is the last position that was set before. -/
theorem c118_own {tr : Trace} {s : State} (h : machine.Reach tr s) :
    (s.served .own = some 0 ↔ on tr = true ∧ ¬ Shut tr) ∧ (s.served .own = none ↔ ¬ (on tr = true ∧ ¬ Shut tr)) ∧
    ∃ x, s.tracks[0]? = some x ∧ x.name = .own ∧ (x.open_ = true ↔ ¬ Shut tr) ∧ x.last = (told tr).2 := by
  have v := inv_reach h
  have hs := told_shut tr
  rw [← v.shut] at hs
  rw [v.own.served, v.on, ← hs]
  refine ⟨by simp, by simp, _, v.p.zero, rfl, ?_, rfl⟩
  simp

/-- While not closed there is a section of the catalog exactly while enabled, and it lists the handles of exactly the peers'
tracks that are in the broadcast. -/
theorem c118_catalog {tr : Trace} {s : State} (h : machine.Reach tr s) (hs : ¬ Shut tr) :
    (s.catalog.isSome = on tr) ∧ ∀ c, s.catalog = some c → c.peering = s.peering ∧
      ∀ x, c.peers x = true ↔ ∃ t, s.served (.peer x) = some t := by
  have v := inv_reach h
  have hc : s.closed = false := by
    cases hc : s.closed with
    | false => rfl
    | true => exact absurd ((told_shut tr).1 (by rw [← v.shut]; exact hc)) hs
  refine ⟨by rw [v.own.has hc, v.on], fun c hcat => ⟨v.own.peering hc c hcat, fun x => ?_⟩⟩
  rw [v.own.peers hc c hcat, v.p.listed, Option.isSome_iff_exists]

/-- Every track of a peer in the broadcast is that of an open peer with this handle, is open, and its newest group is the last
position that the peer has written since it has the handle. -/
theorem c118_served {tr : Trace} {s : State} (h : machine.Reach tr s) (x t : Nat) (ht : s.served (.peer x) = some t) :
    ∃ (i : Nat) (o : Obj), (objs tr)[i]? = some o ∧ o.closed = false ∧ o.handle = some x ∧
      s.tracks[t]? = some ⟨.peer x, some (i, false), true, o.last⟩ := by
  have v := inv_reach h
  obtain ⟨i, p, hp, hc, hcur⟩ := v.p.served x t ht
  obtain ⟨o, ho, c1, c2⟩ := v.p.rel i p hp
  obtain ⟨d1, d2, -⟩ := c2 hc
  rcases d2 with d2 | ⟨h', t', e1, e2, e3, e4⟩
  · rw [d2.2] at hcur; cases hcur
  · rw [hcur] at e2
    cases e2
    exact ⟨i, o, ho, by rw [← c1, hc], by rw [← d1, e1], e4⟩

/-- An open peer has its track in the broadcast, if no other peer has ever had its handle. -/
theorem c118_sole_partial {tr : Trace} {s : State} (h : machine.Reach tr s) (i x : Nat) (o : Obj) (ho : (objs tr)[i]? = some o)
    (hc : o.closed = false) (hh : o.handle = some x) (hs : Sole tr x i) :
    ∃ t, s.served (.peer x) = some t ∧ s.tracks[t]? = some ⟨.peer x, some (i, false), true, o.last⟩ := by
  have v := inv_reach h
  have hl := v.p.sole x i o ho hc hh hs
  rw [v.p.listed, Option.isSome_iff_exists] at hl
  obtain ⟨t, ht⟩ := hl
  obtain ⟨j, o', h1, h2, h3, h4⟩ := c118_served h x t ht
  have : x ∈ o'.had := by
    obtain ⟨k, p, hp, hc, hcur⟩ := v.p.served x t ht
    obtain ⟨o'', ho'', c1, c2⟩ := v.p.rel k p hp
    obtain ⟨d1, d2, -⟩ := c2 hc
    rcases d2 with d2 | ⟨h', t', e1, e2, e3, e4⟩
    · rw [d2.2] at hcur; cases hcur
    · rw [hcur] at e2
      cases e2
      rw [e4] at h4
      simp only [Option.some.injEq, Track.mk.injEq, Prod.mk.injEq, true_and, and_true] at h4
      obtain ⟨rfl, -⟩ := h4
      rw [ho''] at h1
      cases h1
      exact e3
  have := hs j o' h1 this
  subst this
  rw [ho] at h1
  cases h1
  exact ⟨t, ht, h4⟩

/-- A position of an open peer with a handle is written without an error; without a handle there is no producer; and after
`close` nothing is written. -/
theorem c118_update {tr : Trace} {s : State} (h : machine.Reach tr s) (i a : Nat) (o : Obj) (ho : (objs tr)[i]? = some o) :
    (o.closed = false → o.handle ≠ none → (step s (.update i a)).1 = .ok) ∧
    (o.closed = false → o.handle = none → (step s (.update i a)).1 = .nothing) ∧
    (o.closed = true → (step s (.update i a)).1 ≠ .ok ∧ (step s (.update i a)).2 = s) := by
  have v := inv_reach h
  have hlt : i < s.peers.length := by rw [v.p.len]; exact lt_of_get ho
  have hp : s.peers[i]? = some s.peers[i] := List.getElem?_eq_getElem hlt
  generalize s.peers[i] = p at hp
  obtain ⟨o', ho', c1, c2⟩ := v.p.rel i p hp
  rw [ho] at ho'
  cases ho'
  show (_ → _ → (update s i a).1 = _) ∧ (_ → _ → (update s i a).1 = _) ∧ (_ → (update s i a).1 ≠ _ ∧ (update s i a).2 = _)
  unfold update
  rw [hp]
  dsimp only
  refine ⟨fun hc hh => ?_, fun hc hh => ?_, fun hc => ?_⟩
  · rw [← c1] at hc
    obtain ⟨d1, d2, -⟩ := c2 hc
    rcases d2 with d2 | ⟨h', t', e1, e2, e3, e4⟩
    · rw [← d1] at hh
      exact absurd d2.1 hh
    · rw [e2]
      dsimp only
      rw [if_pos (by rw [e4]; rfl)]
  · rw [← c1] at hc
    obtain ⟨d1, d2, -⟩ := c2 hc
    rcases d2 with d2 | ⟨h', t', e1, e2, e3, e4⟩
    · rw [d2.2]
    · rw [d1, hh] at e1
      cases e1
  · rw [← c1] at hc
    cases hcur : p.cur with
    | none => exact ⟨by simp, rfl⟩
    | some c =>
      obtain ⟨x, t⟩ := c
      obtain ⟨y, hy, hr, -⟩ := v.p.dead i p hp hc x t hcur
      dsimp only
      rw [if_neg (by rw [hy]; simp [hr])]
      exact ⟨by simp, rfl⟩

/-- The tracks of a peer are closed when it is closed. -/
theorem c118_released {tr : Trace} {s : State} (h : machine.Reach tr s) (t : Nat) (x : Track) (hx : s.tracks[t]? = some x)
    (hop : x.open_ = true) (i : Nat) (f : Bool) (hm : x.made = some (i, f)) :
    ∃ o, (objs tr)[i]? = some o ∧ o.closed = false := by
  have v := inv_reach h
  obtain ⟨p, hp, hc, -⟩ := v.p.owner t x hx hop i f hm
  obtain ⟨o, ho, c1, -⟩ := v.p.rel i p hp
  exact ⟨o, ho, by rw [← c1, hc]⟩

/-- A peer that takes a handle has its track in the broadcast, whatever was there before. -/
theorem c118_takes {tr : Trace} {s : State} (h : machine.Reach tr s) (i x : Nat) (o : Obj) (ho : (objs tr)[i]? = some o)
    (hc : o.closed = false) (hh : o.handle ≠ some x) :
    ∃ t, (step s (.handle i (some x))).2.served (.peer x) = some t ∧
      (step s (.handle i (some x))).2.tracks[t]? = some ⟨.peer x, some (i, false), true, none⟩ := by
  have v := inv_reach h
  have hlt : i < s.peers.length := by rw [v.p.len]; exact lt_of_get ho
  have hp : s.peers[i]? = some s.peers[i] := List.getElem?_eq_getElem hlt
  generalize s.peers[i] = p at hp
  obtain ⟨o', ho', c1, c2⟩ := v.p.rel i p hp
  rw [ho] at ho'
  cases ho'
  rw [← c1] at hc
  rw [← (c2 hc).1] at hh
  obtain ⟨r1, r2, r3, r4⟩ := run_some (clean s p.cur) (i, false) x
  have e : (step s (.handle i (some x))).2 = onPeer (run (clean s p.cur) (i, false) (some x)).1 i
      fun q => { q with handle := some x, cur := (run (clean s p.cur) (i, false) (some x)).2 } := by
    show (handle s i (some x)).2 = _
    unfold handle
    rw [hp]
    dsimp only
    rw [if_neg (by simp [hc, hh])]
  rw [e]
  refine ⟨(clean s p.cur).tracks.length, ?_, ?_⟩
  · have := congrFun r4 x
    rw [if_pos rfl] at this
    exact this
  · show (run (clean s p.cur) (i, false) (some x)).1.tracks[_]? = _
    rw [r2]
    simp

/-- So has a new peer. -/
theorem c118_created (s : State) (x : Nat) :
    ∃ t, (step s (.peer (some x))).2.served (.peer x) = some t ∧
      (step s (.peer (some x))).2.tracks[t]? = some ⟨.peer x, some (s.peers.length, false), true, none⟩ := by
  obtain ⟨r1, r2, r3, r4⟩ := run_some (run s (s.peers.length, true) (some x)).1 (s.peers.length, false) x
  refine ⟨(run s (s.peers.length, true) (some x)).1.tracks.length, ?_, ?_⟩
  · have := congrFun r4 x
    rw [if_pos rfl] at this
    exact this
  · show (run (run s (s.peers.length, true) (some x)).1 (s.peers.length, false) (some x)).1.tracks[_]? = _
    rw [r2]
    simp

/-- A peer that never had a handle, and does not take it, leaves what is in the broadcast for it. -/
theorem c118_others {tr : Trace} {s : State} (h : machine.Reach tr s) (i x : Nat) (o : Obj) (ho : (objs tr)[i]? = some o)
    (hx : x ∉ o.had) (op : Op) (hop : op = .leave i ∨ ∃ y, op = .handle i y ∧ y ≠ some x) :
    (step s op).2.served (.peer x) = s.served (.peer x) := by
  have v := inv_reach h
  have hlt : i < s.peers.length := by rw [v.p.len]; exact lt_of_get ho
  have hp : s.peers[i]? = some s.peers[i] := List.getElem?_eq_getElem hlt
  generalize s.peers[i] = p at hp
  obtain ⟨o', ho', c1, c2⟩ := v.p.rel i p hp
  rw [ho] at ho'
  cases ho'
  have hclean : ∀ (s : State) (c : Option (Nat × Nat)), (∀ y t, c = some (y, t) → y ∈ o.had) →
      (clean s c).served (.peer x) = s.served (.peer x) := by
    intro s c hc
    have := congrFun (clean_rest s c).2.2.2.2.2.2.1 x
    refine this.trans ?_
    unfold without
    split
    · rfl
    · next y t =>
      rw [if_neg]
      rintro rfl
      exact hx (hc _ _ rfl)
  have hcur : p.closed = false → ∀ y t, p.cur = some (y, t) → y ∈ o.had := by
    intro hc y t he
    rcases (c2 hc).2.1 with d2 | ⟨h', t', e1, e2, e3, e4⟩
    · rw [d2.2] at he; cases he
    · rw [he] at e2
      cases e2
      exact e3
  have hfirst : p.closed = false → ∀ y t, p.first = some (y, t) → y ∈ o.had := fun hc y t he => ((c2 hc).2.2 y t he).1
  rcases hop with rfl | ⟨y, rfl, hy⟩
  · show (leave s i).2.served _ = _
    unfold leave
    rw [hp]
    dsimp only
    split
    · rfl
    · next hc =>
      have hc : p.closed = false := by simpa using hc
      show (clean (clean s p.cur) p.first).served _ = _
      rw [hclean _ _ (hfirst hc), hclean _ _ (hcur hc)]
  · show (handle s i y).2.served _ = _
    unfold handle
    rw [hp]
    dsimp only
    split
    · rfl
    · next hc =>
      have hc : p.closed = false := by
        cases hc' : p.closed with
        | false => rfl
        | true => exact absurd (.inl hc') hc
      show (run (clean s p.cur) (i, false) y).1.served _ = _
      rw [← hclean s p.cur (hcur hc)]
      cases y with
      | none => rfl
      | some y =>
        have := congrFun (run_some (clean s p.cur) (i, false) y).2.2.2 x
        refine this.trans ?_
        rw [if_neg]
        rintro rfl
        exact hy rfl

/-- The section is left or made again. -/
def Again (s s' : State) : Prop :=
  s'.current = s.current ∧ (s'.catalog = s.catalog ∨ ∀ c, s'.catalog = some c → c.initial = s'.current)

theorem Again.trans {a b c : State} (h1 : Again a b) (h2 : Again b c) : Again a c := by
  refine ⟨h2.1.trans h1.1, ?_⟩
  rcases h2.2 with h | h
  · rw [h, h2.1]
    exact h1.2
  · exact .inr h

theorem publish_again (s : State) : Again s (publish s) := by
  refine ⟨(publish_rest s).2.2.2.2.2.1, ?_⟩
  unfold publish
  split
  · exact .inl rfl
  · split
    · refine .inr fun c h => ?_
      cases h
      rfl
    · exact .inl rfl

theorem run_again (s : State) (m : Nat × Bool) (h : Option Nat) : Again s (run s m h).1 := by
  unfold run
  cases h with
  | none => exact ⟨rfl, .inl rfl⟩
  | some h => exact (show Again s _ from ⟨rfl, .inl rfl⟩).trans (publish_again _)

theorem clean_again (s : State) (c : Option (Nat × Nat)) : Again s (clean s c) := by
  unfold clean
  cases c with
  | none => exact ⟨rfl, .inl rfl⟩
  | some c =>
    have h := (show Again s { onTrack s c.2 fun x => { x with open_ := false } with
      listed := fun x => if x = c.1 then false else s.listed x } from ⟨rfl, .inl rfl⟩).trans (publish_again _)
    exact ⟨h.1, h.2⟩

/-- Whenever the section of the catalog is made, its initial position is the current one. -/
theorem c118_initial (s : State) (op : Op) : (step s op).2.catalog = s.catalog ∨
    ∀ c, (step s op).2.catalog = some c → c.initial = (step s op).2.current := by
  cases op with
  | enable b =>
    show (enable s b).catalog = _ ∨ _
    unfold step enable
    dsimp only
    split
    · exact .inl rfl
    · split
      · exact (publish_again { s with enabled := true }).2
      · exact .inr fun c h => (by cases h)
  | current p =>
    left
    show (current s p).catalog = _
    unfold current
    dsimp only
    split
    · rfl
    · split <;> rfl
  | peering b =>
    unfold step peering
    dsimp only
    split
    · exact .inl rfl
    · exact (publish_again { s with peering := b }).2
  | peer h => exact ((run_again s (s.peers.length, true) h).trans (run_again _ (s.peers.length, false) h)).2
  | handle i h =>
    unfold step handle
    dsimp only
    split
    · exact .inl rfl
    · next p _ =>
      split
      · exact .inl rfl
      · exact ((clean_again s p.cur).trans (run_again _ (i, false) h)).2
  | update i a =>
    left
    show (update s i a).2.catalog = _
    unfold update
    split
    · rfl
    · split
      · rfl
      · split <;> rfl
  | leave i =>
    unfold step leave
    dsimp only
    split
    · exact .inl rfl
    · next p _ =>
      split
      · exact .inl rfl
      · exact ((clean_again s p.cur).trans (clean_again _ p.first)).2
  | close =>
    left
    show (close s).catalog = _
    unfold close
    split
    · rfl
    · dsimp only
      split <;> rfl

theorem run_frozen (s : State) (m : Nat × Bool) (h : Option Nat) (hc : s.closed = true) : (run s m h).1.catalog = s.catalog := by
  unfold run
  cases h with
  | none => rfl
  | some h =>
    dsimp only
    unfold publish
    rw [if_pos]
    · rfl
    · exact hc

theorem clean_frozen (s : State) (c : Option (Nat × Nat)) (hc : s.closed = true) : (clean s c).catalog = s.catalog := by
  unfold clean
  cases c with
  | none => rfl
  | some c =>
    dsimp only
    unfold publish
    rw [if_pos]
    · rfl
    · exact hc

/-- `close` leaves the section of the catalog as it is, and nothing changes it afterwards. -/
theorem c118_frozen {tr : Trace} {s : State} (h : machine.Reach tr s) (op : Op) (hs : Shut tr ∨ op = .close) :
    (step s op).2.catalog = s.catalog := by
  have v := inv_reach h
  rcases hs with hs | rfl
  · have hc : s.closed = true := by
      rw [v.shut]
      exact (told_shut tr).2 hs
    cases op with
    | enable b =>
      show (enable s b).catalog = _
      unfold enable
      rw [if_pos (.inl hc)]
    | current p =>
      show (current s p).catalog = _
      unfold current
      rw [if_pos hc]
    | peering b =>
      show (peering s b).catalog = _
      unfold peering
      split
      · rfl
      · unfold publish
        rw [if_pos hc]
    | peer h =>
      show (run (run s (s.peers.length, true) h).1 (s.peers.length, false) h).1.catalog = _
      rw [run_frozen _ _ _ (by rw [(run_rest _ _ _).2.2.1]; exact hc), run_frozen _ _ _ hc]
    | handle i h =>
      show (handle s i h).2.catalog = _
      unfold handle
      split
      · rfl
      · next p _ =>
        split
        · rfl
        · show (run (clean s p.cur) (i, false) h).1.catalog = _
          rw [run_frozen _ _ _ (by rw [(clean_rest _ _).2.2.1]; exact hc), clean_frozen _ _ hc]
    | update i a =>
      show (update s i a).2.catalog = _
      unfold update
      split
      · rfl
      · split
        · rfl
        · split <;> rfl
    | leave i =>
      show (leave s i).2.catalog = _
      unfold leave
      split
      · rfl
      · next p _ =>
        split
        · rfl
        · show (clean (clean s p.cur) p.first).catalog = _
          rw [clean_frozen _ _ (by rw [(clean_rest _ _).2.2.1]; exact hc), clean_frozen _ _ hc]
    | close =>
      show (close s).catalog = _
      unfold close
      rw [if_pos hc]
  · show (close s).catalog = _
    unfold close
    split
    · rfl
    · dsimp only
      split <;> rfl

/-- A closed peer changes nothing any more. -/
theorem c118_left {tr : Trace} {s : State} (h : machine.Reach tr s) (i : Nat) (o : Obj) (ho : (objs tr)[i]? = some o)
    (hc : o.closed = true) (op : Op) (hop : op = .leave i ∨ (∃ y, op = .handle i y) ∨ ∃ a, op = .update i a) :
    (step s op).2.served = s.served ∧ (step s op).2.tracks = s.tracks ∧ (step s op).2.catalog = s.catalog := by
  have v := inv_reach h
  have hlt : i < s.peers.length := by rw [v.p.len]; exact lt_of_get ho
  have hp : s.peers[i]? = some s.peers[i] := List.getElem?_eq_getElem hlt
  generalize s.peers[i] = p at hp
  obtain ⟨o', ho', c1, -⟩ := v.p.rel i p hp
  rw [ho] at ho'
  cases ho'
  rcases hop with rfl | ⟨y, rfl⟩ | ⟨a, rfl⟩
  · have e : (step s (.leave i)).2 = s := by
      show (leave s i).2 = s
      unfold leave
      rw [hp]
      dsimp only
      rw [if_pos (by rw [c1, hc])]
    rw [e]
    exact ⟨rfl, rfl, rfl⟩
  · have e : (step s (.handle i y)).2 = onPeer s i fun p => { p with handle := y } := by
      show (handle s i y).2 = _
      unfold handle
      rw [hp]
      dsimp only
      rw [if_pos (.inl (by rw [c1, hc]))]
    rw [e]
    exact ⟨rfl, rfl, rfl⟩
  · rw [((c118_update h i a o ho).2.2 hc).2]
    exact ⟨rfl, rfl, rfl⟩

/-! ## Violations -/

/-- A violation: a peer that had a handle when it was created, and has another one now, takes the track and the entry of the
peer that has the handle now with it when it is closed. -/
theorem c118_gone (x y a : Nat) (hxy : x ≠ y) :
    let r := machine.run [.enable true, .peer (some x), .handle 0 (some y), .peer (some x), .update 1 a, .leave 0]
    (∃ o, (objs r.1)[1]? = some o ∧ o.closed = false ∧ o.handle = some x ∧ o.last = some a) ∧
    r.2.served (.peer x) = none ∧ ∃ c, r.2.catalog = some c ∧ c.peers x = false := by
  simp [Machine.run, Machine.runFrom, step, init, enable, publish, peer, run, handle, clean, update, leave, Js.Locating.insert, remove, onTrack,
    onPeer, objs, hxy, List.modify]

/-- A violation: of two peers with the same handle, either takes the track and the entry with it, whichever came last. -/
theorem c118_shared (x : Nat) (i j : Nat) (hi : i < 2) (hj : j = 1 - i) :
    let r := machine.run [.enable true, .peer (some x), .peer (some x), .leave i]
    (∃ o, (objs r.1)[j]? = some o ∧ o.closed = false ∧ o.handle = some x) ∧
    r.2.served (.peer x) = none ∧ ∃ c, r.2.catalog = some c ∧ c.peers x = false := by
  have : (i = 0 ∧ j = 1) ∨ (i = 1 ∧ j = 0) := by omega
  rcases this with ⟨rfl, rfl⟩ | ⟨rfl, rfl⟩ <;>
    simp [Machine.run, Machine.runFrom, step, init, enable, publish, peer, run, clean, leave, Js.Locating.insert, remove, onTrack,
      onPeer, objs, List.modify]

/-- A violation: a peer with a handle has two open tracks, one of which is never in the broadcast. -/
theorem c118_double (x : Nat) :
    let r := machine.run [.peer (some x)]
    r.2.tracks = [⟨.own, none, true, none⟩, ⟨.peer x, some (0, true), true, none⟩, ⟨.peer x, some (0, false), true, none⟩] ∧
    r.2.served (.peer x) = some 2 := by
  simp [Machine.run, Machine.runFrom, step, init, publish, peer, run, Js.Locating.insert]

/-- A violation: when the position is unset, the last one is still in the newest group of the track. -/
theorem c118_unset (p : Nat) :
    let r := machine.run [.enable true, .current (some p), .current none]
    r.2.current = none ∧ r.2.served .own = some 0 ∧ r.2.tracks = [⟨.own, none, true, some p⟩] := by
  simp [Machine.run, Machine.runFrom, step, init, enable, publish, current, Js.Locating.insert, onTrack, List.modify]

/-! ## Examples -/

def ops₁ : List Op :=
  [.current (some 5), .enable true, .peer (some 7), .peer none, .handle 1 (some 8), .update 1 30, .update 0 40, .current (some 6),
   .handle 0 (some 9), .update 0 50]

example : let s := (machine.run ops₁).2
    s.served .own = some 0 ∧ s.served (.peer 7) = none ∧ s.served (.peer 8) = some 3 ∧ s.served (.peer 9) = some 4 ∧
    s.tracks = [⟨.own, none, true, some 6⟩, ⟨.peer 7, some (0, true), true, none⟩, ⟨.peer 7, some (0, false), false, some 40⟩,
      ⟨.peer 8, some (1, false), true, some 30⟩, ⟨.peer 9, some (0, false), true, some 50⟩] := by
  refine ⟨?_, ?_, ?_, ?_, ?_⟩ <;> decide +kernel

/-- The hypotheses of `c118_sole_partial`. -/
example : Sole (machine.run ops₁).1 9 0 ∧ Sole (machine.run ops₁).1 8 1 := by
  have e : objs (machine.run ops₁).1 = [⟨some 9, [7, 9], some 50, false⟩, ⟨some 8, [8], some 30, false⟩] := by
    simp [ops₁, Machine.run, Machine.runFrom, step, init, enable, publish, peer, run, clean, handle, update, current, Js.Locating.insert, remove, onTrack,
      onPeer, objs, List.modify]
  unfold Sole
  rw [e]
  constructor
  · intro j o ho hm
    match j, ho with
    | 0, _ => rfl
    | 1, ho => cases ho; simp at hm
    | j + 2, ho => simp at ho
  · intro j o ho hm
    match j, ho with
    | 0, ho => cases ho; simp at hm
    | 1, _ => rfl
    | j + 2, ho => simp at ho

example : (machine.run (ops₁ ++ [.leave 0, .leave 1])).2.tracks.map (·.open_) = [true, false, false, false, false] := by decide +kernel

end Verif.Props.JsLocating
