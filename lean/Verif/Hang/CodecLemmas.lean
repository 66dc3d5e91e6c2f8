import Verif.Hang.Codec

/-!
# Lemmas about codec strings
-/

set_option autoImplicit false

namespace Verif.Hang

open Verif

/-! ## Splitting -/

theorem split_ne_nil (c : Char) (s : Text) : split c s ≠ [] := by
  cases s with
  | nil => simp [split]
  | cons x xs =>
    simp only [split]
    split
    · simp
    · split <;> simp

theorem split_noSep {c : Char} {s : Text} (h : c ∉ s) : split c s = [s] := by
  induction s with
  | nil => rfl
  | cons x xs ih =>
    simp only [List.mem_cons, not_or] at h
    simp [split, Ne.symm h.1, ih h.2]

theorem split_append {c : Char} {p rest : Text} (h : c ∉ p) :
    split c (p ++ c :: rest) = p :: split c rest := by
  induction p with
  | nil => simp [split]
  | cons x xs ih =>
    simp only [List.mem_cons, not_or] at h
    simp [split, Ne.symm h.1, ih h.2]

/-- Splitting undoes joining. -/
theorem split_eq_iff {c : Char} {s p : Text} {ps : List Text} :
    split c s = p :: ps ↔
      c ∉ p ∧ ((ps = [] ∧ s = p) ∨ ∃ rest, s = p ++ c :: rest ∧ split c rest = ps) := by
  constructor
  · intro h
    induction s generalizing p ps with
    | nil =>
      simp only [split, List.cons.injEq] at h
      obtain ⟨rfl, rfl⟩ := h
      simp
    | cons x xs ih =>
      simp only [split] at h
      by_cases hx : x = c
      · rw [if_pos hx] at h
        simp only [List.cons.injEq] at h
        obtain ⟨rfl, rfl⟩ := h
        exact ⟨by simp, Or.inr ⟨xs, by simp [hx], rfl⟩⟩
      · rw [if_neg hx] at h
        cases hxs : split c xs with
        | nil => exact absurd hxs (split_ne_nil _ _)
        | cons q qs =>
          rw [hxs] at h
          simp only [List.cons.injEq] at h
          obtain ⟨rfl, rfl⟩ := h
          obtain ⟨h1, h2⟩ := ih hxs
          refine ⟨by simp [Ne.symm hx, h1], ?_⟩
          rcases h2 with ⟨rfl, rfl⟩ | ⟨rest, rfl, hr⟩
          · exact Or.inl ⟨rfl, rfl⟩
          · exact Or.inr ⟨rest, rfl, hr⟩
  · rintro ⟨h1, ⟨rfl, rfl⟩ | ⟨rest, rfl, hr⟩⟩
    · exact split_noSep h1
    · rw [split_append h1, hr]

/-! ## Numbers -/

theorem parseU8_dec : ∀ b : UInt8, parseU8 (dec b) = .ok b := by
  have h : ∀ n : Fin 256, parseU8 (dec (UInt8.ofNat n.1)) = .ok (UInt8.ofNat n.1) := by
    decide +kernel
  intro b
  have := h ⟨b.toNat, b.toNat_lt⟩
  simpa using this

theorem parseU8_dec2 : ∀ b : UInt8, parseU8 (dec2 b) = .ok b := by
  have h : ∀ n : Fin 256, parseU8 (dec2 (UInt8.ofNat n.1)) = .ok (UInt8.ofNat n.1) := by
    decide +kernel
  intro b
  have := h ⟨b.toNat, b.toNat_lt⟩
  simpa using this

theorem parseHex8_hex2 : ∀ b : UInt8, parseHex8 (hex2 b) = .ok b := by
  have h : ∀ n : Fin 256, parseHex8 (hex2 (UInt8.ofNat n.1)) = .ok (UInt8.ofNat n.1) := by
    decide +kernel
  intro b
  have := h ⟨b.toNat, b.toNat_lt⟩
  simpa using this

theorem parseHex8_hexUpper : ∀ b : UInt8, parseHex8 (hexUpper b) = .ok b := by
  have h : ∀ n : Fin 256, parseHex8 (hexUpper (UInt8.ofNat n.1)) = .ok (UInt8.ofNat n.1) := by
    decide +kernel
  intro b
  have := h ⟨b.toNat, b.toNat_lt⟩
  simpa using this

theorem noDot_dec : ∀ b : UInt8, '.' ∉ dec b := by
  have h : ∀ n : Fin 256, '.' ∉ dec (UInt8.ofNat n.1) := by decide +kernel
  intro b
  have := h ⟨b.toNat, b.toNat_lt⟩
  simpa using this

theorem noDot_dec2 : ∀ b : UInt8, '.' ∉ dec2 b := by
  have h : ∀ n : Fin 256, '.' ∉ dec2 (UInt8.ofNat n.1) := by decide +kernel
  intro b
  have := h ⟨b.toNat, b.toNat_lt⟩
  simpa using this

theorem noDot_hexUpper : ∀ b : UInt8, '.' ∉ hexUpper b := by
  have h : ∀ n : Fin 256, '.' ∉ hexUpper (UInt8.ofNat n.1) := by decide +kernel
  intro b
  have := h ⟨b.toNat, b.toNat_lt⟩
  simpa using this

/-- The value of a text of digits. -/
def value (radix : Nat) (acc : Nat) : Text → Nat
  | [] => acc
  | c :: cs => value radix (acc * radix + (toDigit radix c).getD 0) cs

theorem value_mono {radix acc acc' : Nat} {s : Text} (h : acc ≤ acc') :
    value radix acc s ≤ value radix acc' s := by
  induction s generalizing acc acc' with
  | nil => exact h
  | cons c cs ih =>
    apply ih
    exact Nat.add_le_add_right (Nat.mul_le_mul_right _ h) _

theorem le_value {radix acc : Nat} {s : Text} (hr : 1 ≤ radix) : acc ≤ value radix acc s := by
  induction s generalizing acc with
  | nil => exact Nat.le_refl _
  | cons c cs ih =>
    refine Nat.le_trans ?_ ih
    have := Nat.mul_le_mul_left acc hr
    omega

theorem digits_eq_some {radix bound acc : Nat} {s : Text} {n : Nat} (hr : 1 ≤ radix) (hb : acc < bound) :
    digits radix bound acc s = some n ↔
      (∀ c ∈ s, (toDigit radix c).isSome) ∧ value radix acc s = n ∧ n < bound := by
  induction s generalizing acc with
  | nil =>
    simp only [digits, value, Option.some.injEq, List.not_mem_nil, false_implies, implies_true,
      true_and]
    constructor
    · rintro rfl; exact ⟨rfl, hb⟩
    · rintro ⟨rfl, _⟩; rfl
  | cons c cs ih =>
    simp only [digits, value, List.mem_cons, forall_eq_or_imp]
    cases hd : toDigit radix c with
    | none => simp
    | some d =>
      simp only [Option.isSome_some, true_and, Option.getD_some]
      by_cases hlt : acc * radix + d < bound
      · rw [if_pos hlt, ih hlt]
      · rw [if_neg hlt]
        simp only [false_iff, reduceCtorEq]
        rintro ⟨_, rfl, hn⟩
        have := le_value (acc := acc * radix + d) (s := cs) hr
        omega

end Verif.Hang
