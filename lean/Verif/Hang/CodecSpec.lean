import Verif.Hang.CodecLemmas

/-!
# Numerals and separated fields

A small specification of what a numeral denotes and of texts with separators, independent of the
parsers, with its relation to them.
-/

set_option autoImplicit false

namespace Verif.Hang

open Verif

/-- The character `c` is a digit with value `d`. -/
def IsDigit (radix : Nat) (c : Char) (d : Nat) : Prop :=
  d < radix ∧ ("0123456789abcdef".toList[d]? = some c ∨ "0123456789ABCDEF".toList[d]? = some c)

/-- A sequence of digits denotes a number. -/
inductive Denotes (radix : Nat) : Text → Nat → Prop
  | nil : Denotes radix [] 0
  | snoc {s : Text} {n : Nat} {c : Char} {d : Nat} :
      Denotes radix s n → IsDigit radix c d → Denotes radix (s ++ [c]) (n * radix + d)

/-- A numeral: at least one digit, possibly after a plus sign, with a value below the bound. -/
def Numeral (radix bound : Nat) (s : Text) (n : Nat) : Prop :=
  ∃ ds, ds ≠ [] ∧ (s = ds ∨ s = '+' :: ds) ∧ Denotes radix ds n ∧ n < bound

/-- Fields separated by a character that does not occur in them. -/
inductive Fields (sep : Char) : Text → List Text → Prop
  | one {p : Text} : sep ∉ p → Fields sep p [p]
  | more {p rest : Text} {ps : List Text} :
      sep ∉ p → Fields sep rest ps → Fields sep (p ++ sep :: rest) (p :: ps)

/-- A list of decimal numerals of bytes. -/
inductive Numerals : List Text → List UInt8 → Prop
  | nil : Numerals [] []
  | cons {p : Text} {b : UInt8} {ps : List Text} {bs : List UInt8} :
      Numeral 10 256 p b.toNat → Numerals ps bs → Numerals (p :: ps) (b :: bs)

/-! ## Relation to the parsers -/

theorem split_iff {c : Char} {s : Text} {ps : List Text} : split c s = ps ↔ Fields c s ps := by
  constructor
  · intro h
    induction ps generalizing s with
    | nil => exact absurd h (split_ne_nil _ _)
    | cons p ps ih =>
      obtain ⟨h1, ⟨rfl, rfl⟩ | ⟨rest, rfl, hr⟩⟩ := split_eq_iff.1 h
      · exact .one h1
      · exact .more h1 (ih hr)
  · intro h
    induction h with
    | one h => exact split_noSep h
    | more h _ ih => rw [split_append h, ih]

theorem toNat_eq {c : Char} {n : Nat} (h : c.toNat = n) : c = Char.ofNat n := by
  rw [← h, Char.ofNat_toNat]

theorem toDigit_iff {radix : Nat} {c : Char} {d : Nat} (hr : radix ≤ 16) :
    toDigit radix c = some d ↔ IsDigit radix c d := by
  constructor
  · intro h
    unfold toDigit at h
    by_cases hlt : rawDigit radix c.toNat < radix
    · rw [if_pos hlt] at h
      simp only [Option.some.injEq] at h
      rw [h] at hlt
      refine ⟨hlt, ?_⟩
      unfold rawDigit at h
      by_cases h1 : 48 ≤ c.toNat ∧ c.toNat ≤ 57
      · rw [if_pos h1] at h
        left
        have hc' := toNat_eq (c := c) (n := 48 + d) (by omega)
        have hd : d < 10 := by omega
        have : d = 0 ∨ d = 1 ∨ d = 2 ∨ d = 3 ∨ d = 4 ∨ d = 5 ∨ d = 6 ∨ d = 7 ∨ d = 8 ∨ d = 9 := by
          omega
        rcases this with h | h | h | h | h | h | h | h | h | h <;> subst h <;> rw [hc'] <;> rfl
      · rw [if_neg h1] at h
        by_cases h2 : 97 ≤ c.toNat ∧ c.toNat ≤ 122
        · rw [if_pos h2] at h
          left
          have hc' := toNat_eq (c := c) (n := 87 + d) (by omega)
          have : d = 10 ∨ d = 11 ∨ d = 12 ∨ d = 13 ∨ d = 14 ∨ d = 15 := by omega
          rcases this with h | h | h | h | h | h <;> subst h <;> rw [hc'] <;> rfl
        · rw [if_neg h2] at h
          by_cases h3 : 65 ≤ c.toNat ∧ c.toNat ≤ 90
          · rw [if_pos h3] at h
            right
            have hc' := toNat_eq (c := c) (n := 55 + d) (by omega)
            have : d = 10 ∨ d = 11 ∨ d = 12 ∨ d = 13 ∨ d = 14 ∨ d = 15 := by omega
            rcases this with h | h | h | h | h | h <;> subst h <;> rw [hc'] <;> rfl
          · rw [if_neg h3] at h
            omega
    · rw [if_neg hlt] at h
      cases h
  · rintro ⟨hd, h⟩
    have hall : ∀ d : Fin 16, ∀ c, ("0123456789abcdef".toList[d.1]? = some c ∨
        "0123456789ABCDEF".toList[d.1]? = some c) → toDigit 16 c = some d.1 := by
      have h1 : ∀ d : Fin 16, ("0123456789abcdef".toList[d.1]?).bind (toDigit 16) = some d.1 := by
        decide +kernel
      have h2 : ∀ d : Fin 16, ("0123456789ABCDEF".toList[d.1]?).bind (toDigit 16) = some d.1 := by
        decide +kernel
      rintro d c (h | h)
      · have := h1 d; rw [h] at this; exact this
      · have := h2 d; rw [h] at this; exact this
    have h16 := hall ⟨d, by omega⟩ c h
    unfold toDigit at h16 ⊢
    have hx : rawDigit 16 c.toNat = d := by
      by_cases hlt : rawDigit 16 c.toNat < 16
      · rw [if_pos hlt] at h16
        exact Option.some.inj h16
      · rw [if_neg hlt] at h16
        cases h16
    have hy : rawDigit radix c.toNat = d := by
      unfold rawDigit at hx ⊢
      revert hx
      (repeat' split) <;> omega
    rw [hy, if_pos hd]

theorem value_append {radix acc : Nat} {s : Text} {c : Char} :
    value radix acc (s ++ [c]) = value radix acc s * radix + (toDigit radix c).getD 0 := by
  induction s generalizing acc with
  | nil => rfl
  | cons x xs ih => exact ih

theorem denotes_iff {radix : Nat} {s : Text} {n : Nat} (hr : radix ≤ 16) :
    Denotes radix s n ↔ (∀ c ∈ s, (toDigit radix c).isSome) ∧ value radix 0 s = n := by
  constructor
  · intro h
    induction h with
    | nil => simp [value]
    | @snoc s n c d _ hd ih =>
      have := (toDigit_iff hr).2 hd
      refine ⟨?_, ?_⟩
      · intro x hx
        rcases List.mem_append.1 hx with hx | hx
        · exact ih.1 x hx
        · simp only [List.mem_singleton] at hx
          rw [hx, this]; rfl
      · rw [value_append, ih.2, this]; rfl
  · rintro ⟨h1, rfl⟩
    induction hl : s.length generalizing s with
    | zero =>
      rw [List.length_eq_zero_iff] at hl
      subst hl
      exact .nil
    | succ k ih =>
      obtain ⟨s, c, rfl⟩ : ∃ t c, s = t ++ [c] :=
        ⟨s.dropLast, s.getLast (by intro h; rw [h] at hl; cases hl),
          (List.dropLast_concat_getLast _).symm⟩
      have hc := h1 c (by simp)
      cases hd : toDigit radix c with
      | none => rw [hd] at hc; cases hc
      | some d =>
        rw [value_append, hd]
        exact .snoc (ih (fun x hx => h1 x (by simp [hx])) (by simpa using hl)) ((toDigit_iff hr).1 hd)

theorem parseInt_iff {radix bound : Nat} {s : Text} {n : Nat} (h1 : 1 ≤ radix) (hr : radix ≤ 16)
    (hb : 0 < bound) : parseInt radix bound s = .ok n ↔ Numeral radix bound s n := by
  have key : ∀ ds : Text, parseDigits radix bound ds = .ok n ↔
      ds ≠ [] ∧ Denotes radix ds n ∧ n < bound := by
    intro ds
    unfold parseDigits
    cases ds with
    | nil => simp
    | cons x xs =>
      have := digits_eq_some (s := x :: xs) (n := n) h1 hb
      rw [denotes_iff hr, and_assoc, if_neg (by simp)]
      constructor
      · intro h
        refine ⟨by simp, this.1 ?_⟩
        revert h
        cases digits radix bound 0 (x :: xs) <;> simp
      · rintro ⟨_, h⟩
        rw [this.2 h]
  have plus : ¬ ∃ d, IsDigit radix '+' d := by
    rintro ⟨d, hd⟩
    have := (toDigit_iff hr).2 hd
    simp only [toDigit] at this
    have h43 : rawDigit radix '+'.toNat = radix := rfl
    rw [h43] at this
    simp at this
  have head : ∀ (xs : Text) (n : Nat), ¬ Denotes radix ('+' :: xs) n := by
    intro xs n h
    have := ((denotes_iff hr).1 h).1 '+' (by simp)
    cases hd : toDigit radix '+' with
    | none => rw [hd] at this; cases this
    | some d => exact plus ⟨d, (toDigit_iff hr).1 hd⟩
  unfold parseInt Numeral
  rw [key]
  unfold unsign
  split
  · rename_i s rest
    constructor
    · rintro ⟨h1, h2⟩; exact ⟨rest, h1, Or.inr rfl, h2⟩
    · rintro ⟨ds, h1, rfl | h2, h3⟩
      · exact absurd h3.1 (head _ _)
      · simp only [List.cons.injEq, true_and] at h2
        subst h2
        exact ⟨h1, h3⟩
  · rename_i hne
    constructor
    · rintro ⟨h1, h2⟩; exact ⟨s, h1, Or.inl rfl, h2⟩
    · rintro ⟨ds, h1, rfl | rfl, h3⟩
      · exact ⟨h1, h3⟩
      · exact absurd rfl (hne ds)

theorem parseU8_iff {s : Text} {b : UInt8} : parseU8 s = .ok b ↔ Numeral 10 256 s b.toNat := by
  rw [← parseInt_iff (by decide) (by decide) (by decide)]
  unfold parseU8
  cases h : parseInt 10 256 s with
  | error e => simp [Except.map]
  | ok n =>
    have hn : n < 256 := by
      obtain ⟨_, _, _, _, h⟩ := (parseInt_iff (by decide) (by decide) (by decide)).1 h
      exact h
    simp only [Except.map, Except.ok.injEq]
    constructor
    · rintro rfl; exact (UInt8.toNat_ofNat_of_lt hn).symm
    · rintro rfl; simp

theorem parseHex8_iff {s : Text} {b : UInt8} : parseHex8 s = .ok b ↔ Numeral 16 256 s b.toNat := by
  rw [← parseInt_iff (by decide) (by decide) (by decide)]
  unfold parseHex8
  cases h : parseInt 16 256 s with
  | error e => simp [Except.map]
  | ok n =>
    have hn : n < 256 := by
      obtain ⟨_, _, _, _, h⟩ := (parseInt_iff (by decide) (by decide) (by decide)).1 h
      exact h
    simp only [Except.map, Except.ok.injEq]
    constructor
    · rintro rfl; exact (UInt8.toNat_ofNat_of_lt hn).symm
    · rintro rfl; simp

theorem parseAll_iff {ps : List Text} {bs : List UInt8} :
    parseAll ps = .ok bs ↔ Numerals ps bs := by
  induction ps generalizing bs with
  | nil =>
    simp only [parseAll, Except.ok.injEq]
    constructor
    · rintro rfl; exact .nil
    · intro h; cases h; rfl
  | cons p ps ih =>
    simp only [parseAll]
    cases hp : parseU8 p with
    | error e =>
      simp only [reduceCtorEq, false_iff]
      intro h
      cases h with
      | cons h1 _ => rw [parseU8_iff.2 h1] at hp; cases hp
    | ok b =>
      cases hps : parseAll ps with
      | error e =>
        simp only [reduceCtorEq, false_iff]
        intro h
        cases h with
        | cons _ h2 => rw [ih.2 h2] at hps; cases hps
      | ok bs' =>
        simp only [Except.ok.injEq]
        constructor
        · rintro rfl; exact .cons (parseU8_iff.1 hp) (ih.1 hps)
        · intro h
          cases h with
          | cons h1 h2 =>
            rw [parseU8_iff.2 h1] at hp
            rw [ih.2 h2] at hps
            cases hp; cases hps; rfl

theorem stripPrefix_iff {pre s rest : Text} : stripPrefix pre s = some rest ↔ s = pre ++ rest := by
  unfold stripPrefix
  by_cases h : pre.isPrefixOf s
  · rw [if_pos h]
    rw [List.isPrefixOf_iff_prefix] at h
    obtain ⟨t, rfl⟩ := h
    simp
  · rw [if_neg h]
    simp only [reduceCtorEq, false_iff]
    rintro rfl
    exact h (by simp [List.isPrefixOf_iff_prefix])

theorem stripPrefix_append (pre rest : Text) : stripPrefix pre (pre ++ rest) = some rest :=
  stripPrefix_iff.2 rfl

end Verif.Hang
