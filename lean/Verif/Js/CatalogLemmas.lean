import Verif.Js.Catalog
import Verif.JsonLemmas
import Verif.Hang.CodecLemmas

/-! # Facts about the browser's catalogs -/

set_option autoImplicit false

namespace Verif.Js.Catalog

open Verif Verif.Json

/-- A number that is an integer below 2^32. -/
def U32 (x : Num) : Prop := ∃ n : Nat, n < 2 ^ 32 ∧ x = .fin n

/-- A finite number. -/
def Finite (x : Num) : Prop := ∃ q : Rat, x = .fin q

theorem uint32_iff (x : Rat) : (x.den = 1 ∧ 0 ≤ x ∧ x ≤ 4294967295) ↔ ∃ n : Nat, n < 2 ^ 32 ∧ x = n := by
  constructor
  · rintro ⟨h1, h2, h3⟩
    have h4 : x = (x.num : Rat) := by
      apply Rat.ext <;> simp [h1]
    have h5 : 0 ≤ x.num := Rat.num_nonneg.2 h2
    refine ⟨x.num.toNat, ?_, ?_⟩
    · rw [h4] at h3
      have : x.num ≤ 4294967295 := Rat.intCast_le_intCast.1 h3
      omega
    · have h6 : ((x.num.toNat : Nat) : Int) = x.num := Int.toNat_of_nonneg h5
      calc x = ((x.num : Int) : Rat) := h4
        _ = (((x.num.toNat : Nat) : Int) : Rat) := by rw [h6]
        _ = _ := by norm_cast
  · rintro ⟨n, hn, rfl⟩
    refine ⟨by simp, by exact_mod_cast Nat.zero_le n, ?_⟩
    have : n ≤ 4294967295 := by omega
    exact_mod_cast this

theorem readNumber_num (x y : Num) : readNumber (num x) = some y ↔ Finite x ∧ y = x := by
  cases x with
  | nan => simp [num, readNumber, Finite]
  | inf b => simp [num, readNumber, Finite]
  | fin q =>
    have : readNumber (num (.fin q)) = some (.fin q) := by
      show readNumber (if q.den = 1 ∧ q.num.natAbs < 2 ^ 53 then .int q.num else .dec q) = _
      split
      · next h =>
        rw [readNumber, double_small h.2]
        congr 2
        apply Rat.ext <;> simp [h.1]
      · rfl
    rw [this]
    constructor
    · intro h; injection h with h; exact ⟨⟨q, rfl⟩, h.symm⟩
    · rintro ⟨-, rfl⟩; rfl

theorem readUint32_num (x y : Num) : readUint32 (num x) = some y ↔ U32 x ∧ y = x := by
  unfold readUint32
  cases h : readNumber (num x) with
  | none =>
    have : ¬ U32 x := by
      rintro ⟨n, -, rfl⟩
      have := (readNumber_num (.fin n) (.fin n)).2 ⟨⟨n, rfl⟩, rfl⟩
      rw [this] at h
      cases h
    simp [this]
  | some z =>
    obtain ⟨⟨q, rfl⟩, rfl⟩ := (readNumber_num _ _).1 h
    dsimp only
    split
    · next hq =>
      obtain ⟨n, hn, rfl⟩ := (uint32_iff q).1 hq
      constructor
      · intro h; injection h with h; exact ⟨⟨n, hn, rfl⟩, h.symm⟩
      · rintro ⟨-, rfl⟩; rfl
    · next hq =>
      constructor
      · intro h; cases h
      · rintro ⟨⟨n, hn, h⟩, -⟩
        injection h with h
        exact absurd ((uint32_iff q).2 ⟨n, hn, h⟩) hq

theorem opt_map {α β : Type} (p : Json → Option β) (f : α → Json) (o : Option α) (r : Option β) :
    opt p (o.map f) = some r ↔ OptRel (fun a b => p (f a) = some b) o r := by
  cases o with
  | none =>
    constructor
    · intro h; injection h with h; subst h; exact .none
    · intro h; cases h; rfl
  | some a =>
    constructor
    · intro h
      obtain ⟨b, hb, rfl⟩ := Option.map_eq_some_iff.1 h
      exact .some hb
    · intro h
      cases h with
      | some h => simp [opt, h]

theorem opt_same {α : Type} {p : Json → Option α} {f : α → Json} {P : α → Prop}
    (h : ∀ a b, p (f a) = some b ↔ P a ∧ b = a) (o r : Option α) :
    opt p (o.map f) = some r ↔ (∀ a, o = some a → P a) ∧ r = o := by
  rw [opt_map, optRel_congr h, optRel_eq_iff]

theorem array_same {α : Type} {p : Json → Option α} {f : α → Json} {P : α → Prop}
    (h : ∀ a b, p (f a) = some b ↔ P a ∧ b = a) (l r : List α) :
    readArray p (.arr (l.map f)) = some r ↔ (∀ a ∈ l, P a) ∧ r = l := by
  rw [readArray, all_map, listRel_congr h, listRel_eq_iff]

theorem str_same (a b : String) : readStr (.str a) = some b ↔ True ∧ b = a := by
  simp [readStr, eq_comm]

theorem bool_same (a b : Bool) : readBool (.bool a) = some b ↔ True ∧ b = a := by
  simp [readBool, eq_comm]

end Verif.Js.Catalog
