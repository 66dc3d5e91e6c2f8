import Verif.Native.Tls

/-!
# Facts about hexadecimal texts and certificate selection
-/

set_option autoImplicit false

namespace Verif.Native

open Verif

/-- The lower-case digits. -/
def digits : List Char := "0123456789abcdef".toList

theorem hexDigit_mem {n : Nat} (h : n < 16) : hexDigit n ∈ digits := by
  have : ∀ n : Fin 16, hexDigit n ∈ digits := by decide +kernel
  exact this ⟨n, h⟩

theorem hexValue_hexDigit {n : Nat} (h : n < 16) : hexValue (hexDigit n) = some n := by
  have : ∀ n : Fin 16, hexValue (hexDigit n) = some n.val := by decide +kernel
  exact this ⟨n, h⟩

theorem hexEncode_mem : ∀ {b : Bytes} {c : Char}, c ∈ hexEncode b → c ∈ digits
  | [], _, h => by simp [hexEncode] at h
  | b :: bs, c, h => by
    have hb := b.toNat_lt
    simp only [hexEncode, List.mem_cons] at h
    rcases h with rfl | rfl | h
    · exact hexDigit_mem (by omega)
    · exact hexDigit_mem (by omega)
    · exact hexEncode_mem h

theorem hexDecode_hexEncode : ∀ b : Bytes, hexDecode (hexEncode b) = some b
  | [] => rfl
  | b :: bs => by
    have hb := b.toNat_lt
    simp only [hexEncode, hexDecode]
    rw [hexValue_hexDigit (by omega), hexValue_hexDigit (by omega), hexDecode_hexEncode bs]
    simp only [Nat.div_add_mod]
    rw [UInt8.ofNat_toNat]

theorem dropWhile_none {α : Type} {p : α → Bool} : ∀ {l : List α}, (∀ x ∈ l, p x = false) →
    l.dropWhile p = l
  | [], _ => rfl
  | a :: l, h => by rw [List.dropWhile_cons, h a (by simp)]; simp

theorem dropWhile_all {α : Type} {p : α → Bool} : ∀ {l m : List α}, (∀ x ∈ l, p x = true) →
    (l ++ m).dropWhile p = m.dropWhile p
  | [], _, _ => rfl
  | a :: l, m, h => by
    rw [List.cons_append, List.dropWhile_cons, h a (by simp), if_pos rfl]
    exact dropWhile_all fun x hx => h x (by simp [hx])

/-- Spaces around a text without spaces are removed, and nothing else. -/
theorem trim_pad {space : Char → Bool} {a s b : Text} (ha : ∀ c ∈ a, space c = true)
    (hs : ∀ c ∈ s, space c = false) (hb : ∀ c ∈ b, space c = true) :
    trim space (a ++ s ++ b) = s := by
  unfold trim
  rw [List.append_assoc, dropWhile_all ha]
  cases s with
  | nil =>
    rw [List.nil_append, ← List.append_nil b, dropWhile_all hb]
    rfl
  | cons c s =>
    rw [List.cons_append, List.dropWhile_cons, hs c (by simp)]
    simp only [Bool.false_eq_true, if_false]
    rw [← List.cons_append, List.reverse_append, dropWhile_all (by simpa using hb),
      dropWhile_none (fun x hx => hs x (List.mem_reverse.1 hx)), List.reverse_reverse]

/-- What the search finds. -/
theorem search_cert {e : Env} {name : Text} {c : Bytes} : ∀ {certs : List Bytes},
    search e name certs = .cert c → ∃ pre post, certs = pre ++ c :: post ∧
      (∃ v, e.names c = some v ∧ v name = true) ∧
      ∀ x ∈ pre, ∃ v, e.names x = some v ∧ v name = false
  | [], h => by simp [search] at h
  | x :: xs, h => by
    simp only [search] at h
    split at h
    · cases h
    · rename_i v hv
      split at h
      · rename_i hn
        cases h
        exact ⟨[], xs, rfl, ⟨v, hv, hn⟩, by simp⟩
      · rename_i hn
        obtain ⟨pre, post, rfl, h1, h2⟩ := search_cert h
        refine ⟨x :: pre, post, rfl, h1, ?_⟩
        simp only [List.mem_cons, forall_eq_or_imp]
        exact ⟨⟨v, hv, by simpa using hn⟩, h2⟩

/-- The search finds nothing exactly when no certificate is valid for the name. -/
theorem search_none {e : Env} {name : Text} : ∀ {certs : List Bytes},
    search e name certs = .none ↔ ∀ x ∈ certs, ∃ v, e.names x = some v ∧ v name = false
  | [] => by simp [search]
  | x :: xs => by
    simp only [search, List.mem_cons, forall_eq_or_imp]
    split
    · rename_i hv; simp [hv]
    · rename_i v hv
      split
      · rename_i hn; simp [hv, hn]
      · rename_i hn; rw [search_none]; simp [hv, hn]

/-- The search panics exactly when it meets a certificate that cannot be parsed. -/
theorem search_panic {e : Env} {name : Text} {p : Panic} : ∀ {certs : List Bytes},
    search e name certs = .panic p ↔ p = .unwrapNone ∧ ∃ pre c post, certs = pre ++ c :: post ∧
      e.names c = none ∧ ∀ x ∈ pre, ∃ v, e.names x = some v ∧ v name = false
  | [] => by simp [search]
  | x :: xs => by
    simp only [search]
    split
    · rename_i hv
      constructor
      · intro h; cases h; exact ⟨rfl, [], x, xs, rfl, hv, by simp⟩
      · rintro ⟨rfl, _⟩; rfl
    · rename_i v hv
      split
      · rename_i hn
        constructor
        · intro h; cases h
        · rintro ⟨_, pre, c, post, h1, h2, h3⟩
          cases pre with
          | nil => cases h1; rw [hv] at h2; cases h2
          | cons y pre =>
            cases h1
            obtain ⟨w, hw, hf⟩ := h3 x (by simp)
            rw [hv] at hw; cases hw; rw [hn] at hf; cases hf
      · rename_i hn
        rw [search_panic]
        constructor
        · rintro ⟨hp, pre, c, post, rfl, h2, h3⟩
          refine ⟨hp, x :: pre, c, post, rfl, h2, ?_⟩
          simp only [List.mem_cons, forall_eq_or_imp]
          exact ⟨⟨v, hv, by simpa using hn⟩, h3⟩
        · rintro ⟨hp, pre, c, post, h1, h2, h3⟩
          cases pre with
          | nil => cases h1; rw [hv] at h2; cases h2
          | cons y pre =>
            cases h1
            exact ⟨hp, pre, c, post, rfl, h2, fun z hz => h3 z (by simp [hz])⟩

/-- `split_once`. -/
theorem splitOnce {sep : Char} {s a b : Text} :
    (sep ∈ s ∧ s.takeWhile (· != sep) = a ∧ (s.dropWhile (· != sep)).tail = b) ↔
      (s = a ++ sep :: b ∧ sep ∉ a) := by
  constructor
  · rintro ⟨h, rfl, rfl⟩
    induction s with
    | nil => cases h
    | cons c s ih =>
      by_cases hc : c = sep
      · subst hc; simp
      · have hs : sep ∈ s := by simpa [Ne.symm hc] using h
        obtain ⟨h1, h2⟩ := ih hs
        have hb : (c != sep) = true := by simpa using hc
        rw [List.takeWhile_cons, List.dropWhile_cons, if_pos hb, if_pos hb, List.cons_append,
          ← h1]
        exact ⟨rfl, by simp only [List.mem_cons, not_or]; exact ⟨Ne.symm hc, h2⟩⟩
  · rintro ⟨rfl, hn⟩
    have hp : ∀ x ∈ a, (x != sep) = true := by
      intro x hx
      simp only [bne_iff_ne, ne_eq]
      rintro rfl
      exact hn hx
    refine ⟨by simp, ?_, ?_⟩
    · rw [List.takeWhile_append_of_pos hp]; simp
    · rw [dropWhile_all hp]; simp

end Verif.Native
