import Verif.Base

/-!
# Handle tables

Handles (producers, consumers, futures) are numbered in order of creation.  A table holds
`some` data for a live handle and `none` for a dropped one.
-/

namespace Verif

/-- A table of handles. -/
abbrev Slots (α : Type) := List (Option α)

namespace Slots

variable {α : Type}

/-- The data of handle `i`, if it is live. -/
def get (s : Slots α) (i : Nat) : Option α := (s[i]?).join

/-- Change the data of handle `i`, or drop it (`none`). -/
def put (s : Slots α) (i : Nat) (v : Option α) : Slots α := s.set i v

/-- Create a handle; its number is the length of the table. -/
def add (s : Slots α) (v : α) : Slots α := s ++ [some v]

/-- The number of live handles. -/
def count (s : Slots α) : Nat := s.countP Option.isSome

theorem get_some_lt {s : Slots α} {i a} (h : s.get i = some a) : i < s.length := by
  unfold get at h
  refine Nat.lt_of_not_le fun hn => ?_
  rw [List.getElem?_eq_none hn] at h
  cases h

theorem get_put (s : Slots α) (i : Nat) (v : Option α) (j : Nat) :
    (s.put i v).get j = if i = j then (if i < s.length then v else none) else s.get j := by
  unfold get put
  rw [List.getElem?_set]
  split
  · rename_i h
    subst h
    split
    · rfl
    · rfl
  · rfl

theorem get_put_self {s : Slots α} {i a} (v : Option α) (h : s.get i = some a) :
    (s.put i v).get i = v := by
  rw [get_put, if_pos rfl, if_pos (get_some_lt h)]

theorem get_put_ne {s : Slots α} {i j} (v : Option α) (h : i ≠ j) :
    (s.put i v).get j = s.get j := by
  rw [get_put, if_neg h]

theorem get_add (s : Slots α) (v : α) (j : Nat) :
    (s.add v).get j = if j = s.length then some v else s.get j := by
  unfold get add
  by_cases h : j = s.length
  · subst h; simp
  · rw [if_neg h]
    by_cases h2 : j < s.length
    · rw [List.getElem?_append_left h2]
    · rw [List.getElem?_eq_none (by simp; omega), List.getElem?_eq_none (by omega)]

theorem get_length (s : Slots α) : s.get s.length = none := by
  unfold get; simp

@[simp] theorem length_put (s : Slots α) (i v) : (s.put i v).length = s.length := by simp [put]
@[simp] theorem length_add (s : Slots α) (v) : (s.add v).length = s.length + 1 := by simp [add]

theorem count_add (s : Slots α) (v : α) : (s.add v).count = s.count + 1 := by
  unfold count add
  rw [List.countP_append]
  simp

theorem get_cons_zero (x : Option α) (s : Slots α) : Slots.get (x :: s) 0 = x := by
  unfold get; simp

theorem get_cons_succ (x : Option α) (s : Slots α) (i : Nat) :
    Slots.get (x :: s) (i + 1) = Slots.get s i := by
  unfold get; simp

theorem count_put {s : Slots α} {i a} (v : Option α) (h : s.get i = some a) :
    (s.put i v).count + 1 = s.count + (if v.isSome then 1 else 0) := by
  induction s generalizing i with
  | nil => cases h
  | cons x s ih =>
    cases i with
    | zero =>
      rw [get_cons_zero] at h
      subst h
      unfold put count
      simp only [List.set_cons_zero, List.countP_cons, Option.isSome_some, if_true]
      omega
    | succ i =>
      rw [get_cons_succ] at h
      have := ih h
      unfold put count at this ⊢
      simp only [List.set_cons_succ, List.countP_cons]
      omega

theorem count_put_some {s : Slots α} {i a} (v : α) (h : s.get i = some a) :
    (s.put i (some v)).count = s.count := by
  have := count_put (some v) h
  simpa using this

theorem count_put_none {s : Slots α} {i a} (h : s.get i = some a) :
    (s.put i none).count + 1 = s.count := by
  have := count_put none h
  simpa using this

theorem count_pos {s : Slots α} {i a} (h : s.get i = some a) : 0 < s.count := by
  have := count_put_none h
  omega

theorem count_eq_zero {s : Slots α} : s.count = 0 ↔ ∀ i, s.get i = none := by
  constructor
  · intro h i
    cases hg : s.get i with
    | none => rfl
    | some a => have := count_pos hg; omega
  · intro h
    induction s with
    | nil => rfl
    | cons x s ih =>
      have hx : x = none := by have := h 0; rwa [get_cons_zero] at this
      subst hx
      have := ih fun i => by have := h (i + 1); rwa [get_cons_succ] at this
      unfold count at this ⊢
      simpa using this

/-- The table agrees with a history in which the handles `created` were made and the handles
`ended` were given up. -/
structure Tracks (s : Slots α) (created ended : Nat → Prop) : Prop where
  live : ∀ i, (s.get i).isSome ↔ created i ∧ ¬ ended i
  bound : ∀ i, created i ∨ ended i → i < s.length

theorem Tracks.congr {s : Slots α} {cr en cr' en' : Nat → Prop} (h : s.Tracks cr en)
    (hc : ∀ i, cr' i ↔ cr i) (he : ∀ i, en' i ↔ en i) : s.Tracks cr' en' := by
  constructor
  · intro i; rw [hc, he]; exact h.live i
  · intro i; rw [hc, he]; exact h.bound i

theorem Tracks.add {s : Slots α} {cr en : Nat → Prop} (h : s.Tracks cr en) (v : α)
    {cr' en' : Nat → Prop} (hc : ∀ i, cr' i ↔ cr i ∨ i = s.length) (he : ∀ i, en' i ↔ en i) :
    (s.add v).Tracks cr' en' := by
  constructor
  · intro i
    rw [get_add, hc, he]
    split
    · rename_i hi
      subst hi
      have : ¬ en s.length := fun hx => Nat.lt_irrefl _ (h.bound _ (.inr hx))
      simp [this]
    · rename_i hi
      rw [h.live]
      simp [hi]
  · intro i
    rw [hc, he, length_add]
    rintro ((hi | hi) | hi)
    · have := h.bound i (.inl hi); omega
    · omega
    · have := h.bound i (.inr hi); omega

theorem Tracks.put_some {s : Slots α} {cr en : Nat → Prop} (h : s.Tracks cr en) {j a} (v : α)
    (hj : s.get j = some a) {cr' en' : Nat → Prop} (hc : ∀ i, cr' i ↔ cr i)
    (he : ∀ i, en' i ↔ en i) : (s.put j (some v)).Tracks cr' en' := by
  constructor
  · intro i
    rw [hc, he, ← h.live, get_put]
    split
    · rename_i hi
      subst hi
      rw [if_pos (get_some_lt hj), hj]
      simp
    · rfl
  · intro i
    rw [hc, he, length_put]
    exact h.bound i

theorem Tracks.put_none {s : Slots α} {cr en : Nat → Prop} (h : s.Tracks cr en) {j a}
    (hj : s.get j = some a) {cr' en' : Nat → Prop} (hc : ∀ i, cr' i ↔ cr i)
    (he : ∀ i, en' i ↔ en i ∨ i = j) : (s.put j none).Tracks cr' en' := by
  constructor
  · intro i
    rw [hc, he, get_put]
    split
    · rename_i hi
      subst hi
      simp
    · rename_i hi
      rw [h.live]
      have : i ≠ j := fun hx => hi hx.symm
      simp [this]
  · intro i
    rw [hc, he, length_put]
    rintro (hi | hi | hi)
    · exact h.bound i (.inl hi)
    · exact h.bound i (.inr hi)
    · subst hi; exact get_some_lt hj

end Slots

end Verif
