import Verif.Json

/-! # Facts about JSON documents -/

set_option autoImplicit false

namespace Verif

/-- Two options are alike: both are none, or the values are related. -/
inductive OptRel {α β : Type} (R : α → β → Prop) : Option α → Option β → Prop
  | none : OptRel R none none
  | some {a : α} {b : β} : R a b → OptRel R (some a) (some b)

/-- Two lists are alike: equally long, with related elements. -/
inductive ListRel {α β : Type} (R : α → β → Prop) : List α → List β → Prop
  | nil : ListRel R [] []
  | cons {a : α} {b : β} {l : List α} {m : List β} : R a b → ListRel R l m → ListRel R (a :: l) (b :: m)

section
variable {α β γ : Type}

theorem OptRel.mono {R S : α → β → Prop} (h : ∀ a b, R a b → S a b) {o : Option α} {p : Option β} (x : OptRel R o p) :
    OptRel S o p := by
  cases x with
  | none => exact .none
  | some x => exact .some (h _ _ x)

theorem optRel_congr {R S : α → β → Prop} (h : ∀ a b, R a b ↔ S a b) {o : Option α} {p : Option β} :
    OptRel R o p ↔ OptRel S o p := ⟨OptRel.mono fun a b => (h a b).1, OptRel.mono fun a b => (h a b).2⟩

theorem ListRel.mono {R S : α → β → Prop} (h : ∀ a b, R a b → S a b) {o : List α} {p : List β} (x : ListRel R o p) :
    ListRel S o p := by
  induction x with
  | nil => exact .nil
  | cons x _ ih => exact .cons (h _ _ x) ih

theorem listRel_congr {R S : α → β → Prop} (h : ∀ a b, R a b ↔ S a b) {o : List α} {p : List β} :
    ListRel R o p ↔ ListRel S o p := ⟨ListRel.mono fun a b => (h a b).1, ListRel.mono fun a b => (h a b).2⟩

theorem ListRel.nil_iff {R : α → β → Prop} {m : List β} : ListRel R [] m ↔ m = [] :=
  ⟨fun h => by cases h; rfl, fun h => h ▸ .nil⟩

theorem ListRel.left_nil {R : α → β → Prop} {l : List α} : ListRel R l [] ↔ l = [] :=
  ⟨fun h => by cases h; rfl, fun h => h ▸ .nil⟩

theorem ListRel.left {R : α → β → Prop} {l : List α} {m : List β} (h : ListRel R l m) : ∀ a ∈ l, ∃ b ∈ m, R a b := by
  induction h with
  | nil => simp
  | cons x _ ih =>
    intro a ha
    rcases List.mem_cons.1 ha with rfl | ha
    · exact ⟨_, List.mem_cons_self, x⟩
    · obtain ⟨b, hb, hr⟩ := ih a ha
      exact ⟨b, List.mem_cons_of_mem _ hb, hr⟩

theorem ListRel.total {R : α → β → Prop} : ∀ {l : List α}, (∀ a ∈ l, ∃ b, R a b) → ∃ m, ListRel R l m
  | [], _ => ⟨[], .nil⟩
  | a :: l, h => by
    obtain ⟨b, hb⟩ := h a List.mem_cons_self
    obtain ⟨m, hm⟩ := ListRel.total (l := l) fun x hx => h x (List.mem_cons_of_mem _ hx)
    exact ⟨b :: m, .cons hb hm⟩

theorem listRel_eq_iff {P : α → Prop} {l m : List α} : ListRel (fun a b => P a ∧ b = a) l m ↔ (∀ a ∈ l, P a) ∧ m = l := by
  constructor
  · intro h
    induction h with
    | nil => simp
    | cons x _ ih => simp [x.1, x.2, ih.2]; exact ih.1
  · rintro ⟨h, rfl⟩
    induction m with
    | nil => exact .nil
    | cons a l ih => exact .cons ⟨h a (by simp), rfl⟩ (ih fun x hx => h x (by simp [hx]))

theorem optRel_eq_iff {P : α → Prop} {l m : Option α} : OptRel (fun a b => P a ∧ b = a) l m ↔ (∀ a, l = some a → P a) ∧ m = l := by
  constructor
  · intro h
    cases h with
    | none => simp
    | some x => simp [x.1, x.2]
  · rintro ⟨h, rfl⟩
    cases m with
    | none => exact .none
    | some a => exact .some ⟨h a rfl, rfl⟩

namespace Json

theorem all_map (p : β → Option γ) (f : α → β) (l : List α) (m : List γ) :
    all p (l.map f) = some m ↔ ListRel (fun a b => p (f a) = some b) l m := by
  induction l generalizing m with
  | nil =>
    rw [ListRel.nil_iff]
    simp [all, eq_comm]
  | cons a l ih =>
    rw [List.map_cons, all]
    constructor
    · intro h
      obtain ⟨b, hb, h⟩ := Option.bind_eq_some_iff.1 h
      obtain ⟨r, hr, h⟩ := Option.map_eq_some_iff.1 h
      subst h
      exact .cons hb ((ih r).1 hr)
    · intro h
      cases h with
      | cons hb hr => simp [hb, (ih _).2 hr]

@[simp] theorem lookup_nil (k : String) : lookup k [] = none := rfl

theorem lookup_cons (k k' : String) (v : Json) (r : List (String × Json)) :
    lookup k ((k', v) :: r) = if k' = k then some v else lookup k r := rfl

@[simp] theorem lookup_fields_nil (k : String) : lookup k (fields []) = none := rfl

theorem lookup_fields_cons (k k' : String) (o : Option Json) (r : List (String × Option Json)) :
    lookup k (fields ((k', o) :: r)) = if k' = k then o.or (lookup k (fields r)) else lookup k (fields r) := by
  cases o with
  | none => simp [fields]
  | some v => simp only [fields, lookup_cons, Option.some_or]

theorem lookup_append (k : String) (a b : List (String × Json)) : lookup k (a ++ b) = (lookup k a).or (lookup k b) := by
  induction a with
  | nil => simp
  | cons x a ih =>
    obtain ⟨k', v⟩ := x
    rw [List.cons_append, lookup_cons, lookup_cons]
    split
    · rfl
    · exact ih

theorem nearest_small {a : Nat} (h : a < 2 ^ 53) : nearest a = a := by
  unfold nearest
  rw [if_pos h]

theorem nearest_big {a : Nat} (h : 2 ^ 53 ≤ a) : 2 ^ 53 ≤ nearest a := by
  have h0 : a ≠ 0 := by omega
  have hl : 53 ≤ a.log2 := (Nat.le_log2 h0).2 h
  have h1 : 2 ^ a.log2 ≤ a := Nat.log2_self_le h0
  have h2 : 2 ^ 52 * 2 ^ (a.log2 - 52) = 2 ^ a.log2 := by rw [← Nat.pow_add]; congr 1; omega
  have h3 : 2 ^ 52 ≤ a / 2 ^ (a.log2 - 52) := (Nat.le_div_iff_mul_le (Nat.two_pow_pos _)).2 (by omega)
  have h4 : 2 ^ 53 ≤ a / 2 ^ (a.log2 - 52) * 2 ^ (a.log2 - 52) :=
    Nat.le_trans (Nat.le_trans (Nat.pow_le_pow_right (by omega) hl) (Nat.le_of_eq h2.symm)) (Nat.mul_le_mul_right _ h3)
  unfold nearest
  rw [if_neg (by omega)]
  dsimp only
  split
  · exact Nat.le_trans h4 (Nat.mul_le_mul_right _ (by omega))
  · exact h4

theorem double_small {n : Int} (h : n.natAbs < 2 ^ 53) : double n = n := by
  unfold double
  rw [nearest_small h]
  split <;> omega

theorem double_nat_big {a : Nat} (h : 2 ^ 53 ≤ a) : (2 ^ 53 : Int) ≤ double a := by
  unfold double
  rw [if_neg (by omega)]
  have := nearest_big h
  simp only [Int.natAbs_natCast]
  exact_mod_cast this

end Json

end

end Verif
