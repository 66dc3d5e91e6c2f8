import Verif.Relay.Auth

/-!
# Lemmas about splitting texts
-/

set_option autoImplicit false

namespace Verif.Relay.Token

open Verif

theorem reverse_split {c : Char} {s : Text} (h : c ∈ s) :
    s = (s.reverse.dropWhile (· != c)).tail.reverse ++
      c :: (s.reverse.takeWhile (· != c)).reverse := by
  have hr : c ∈ s.reverse := List.mem_reverse.2 h
  generalize hl : s.reverse = l at hr
  have hs : s = l.reverse := by rw [← hl, List.reverse_reverse]
  subst hs
  clear hl h
  induction l with
  | nil => cases hr
  | cons a l ih =>
    by_cases ha : a = c
    · subst ha
      simp
    · have hc : c ∈ l := by
        rcases List.mem_cons.1 hr with h | h
        · exact absurd h.symm ha
        · exact h
      have := ih hc
      simp only [List.reverse_cons, List.dropWhile_cons, List.takeWhile_cons]
      simp only [bne_iff_ne, ne_eq, ha, not_false_eq_true, if_true, List.reverse_cons]
      rw [← List.cons_append, ← List.append_assoc, ← this]

theorem rsplitOnce_some {c : Char} {s a b : Text} :
    rsplitOnce c s = some (a, b) ↔ s = a ++ c :: b ∧ c ∉ b := by
  unfold rsplitOnce
  constructor
  · intro h
    split at h
    · rename_i hc
      injection h with h
      injection h with h1 h2
      subst h1 h2
      refine ⟨reverse_split hc, ?_⟩
      rw [List.mem_reverse]
      intro hm
      have := List.all_takeWhile (p := (· != c)) (l := s.reverse)
      rw [List.all_eq_true] at this
      simpa using this c hm
    · cases h
  · rintro ⟨rfl, hb⟩
    have hm : c ∈ a ++ c :: b := by simp
    have hne : ∀ x ∈ b.reverse, (x != c) = true := by
      intro x hx
      rw [List.mem_reverse] at hx
      simp only [bne_iff_ne, ne_eq]
      rintro rfl
      exact hb hx
    rw [if_pos hm]
    simp only [List.reverse_append, List.reverse_cons, List.append_assoc]
    rw [List.takeWhile_append_of_pos hne, List.dropWhile_append_of_pos hne]
    simp

theorem rsplitOnce_none {c : Char} {s : Text} : rsplitOnce c s = none ↔ c ∉ s := by
  unfold rsplitOnce
  split <;> simp_all

end Verif.Relay.Token

namespace Verif.Relay.Auth

open Verif Verif.Relay.Token

theorem stripSuffix_some {suffix s t : Text} :
    stripSuffix suffix s = some t ↔ s = t ++ suffix := by
  unfold stripSuffix
  constructor
  · intro h
    split at h
    · rename_i hs
      rw [List.isSuffixOf_iff_suffix] at hs
      obtain ⟨u, rfl⟩ := hs
      injection h with h
      subst h
      simp
    · cases h
  · rintro rfl
    rw [if_pos (List.isSuffixOf_iff_suffix.2 ⟨t, rfl⟩)]
    simp

theorem stripSuffix_none {suffix s : Text} :
    stripSuffix suffix s = none ↔ ∀ t, s ≠ t ++ suffix := by
  constructor
  · intro h t ht
    rw [stripSuffix_some.2 ht] at h
    cases h
  · intro h
    cases hs : stripSuffix suffix s with
    | none => rfl
    | some t => exact absurd (stripSuffix_some.1 hs) (h t)

end Verif.Relay.Auth
