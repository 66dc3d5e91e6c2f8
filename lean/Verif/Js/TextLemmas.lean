import Verif.Js.Text
import Verif.Coding.Codec

/-! # Lemmas about JavaScript strings -/

set_option autoImplicit false

namespace Verif.Js

open Verif Verif.Coding

theorem char_valid (c : Char) : c.toNat < 0xD800 ∨ (0xDFFF < c.toNat ∧ c.toNat < 0x110000) := by
  have := c.valid
  simpa [UInt32.isValidChar, Nat.isValidChar] using this

theorem ofNat_toNat (c : Char) : Char.ofNat c.toNat = c := by
  apply Char.ext
  simp

theorem scalars_char (c : Char) (rest : JsString) :
    scalars (charUnits c ++ rest) = c :: scalars rest := by
  have hv := char_valid c
  unfold charUnits
  split
  · rename_i h
    have h16 : (UInt16.ofNat c.toNat).toNat = c.toNat := by
      rw [UInt16.toNat_ofNat']; exact Nat.mod_eq_of_lt h
    simp only [List.cons_append, List.nil_append]
    rw [scalars.eq_def]
    dsimp only
    rw [if_neg (by simp only [isHigh, h16, Bool.and_eq_true, decide_eq_true_eq]; omega),
      if_neg (by simp only [isLow, h16, Bool.and_eq_true, decide_eq_true_eq]; omega), h16,
      ofNat_toNat]
  · rename_i h
    have hlt : c.toNat < 0x110000 := by omega
    have hhi : (UInt16.ofNat (0xD800 + (c.toNat - 0x10000) / 1024)).toNat =
        0xD800 + (c.toNat - 0x10000) / 1024 := by
      rw [UInt16.toNat_ofNat']; exact Nat.mod_eq_of_lt (by omega)
    have hlo : (UInt16.ofNat (0xDC00 + (c.toNat - 0x10000) % 1024)).toNat =
        0xDC00 + (c.toNat - 0x10000) % 1024 := by
      rw [UInt16.toNat_ofNat']; exact Nat.mod_eq_of_lt (by omega)
    simp only [List.cons_append, List.nil_append]
    rw [scalars.eq_def]
    dsimp only
    rw [if_pos (by simp only [isHigh, hhi, Bool.and_eq_true, decide_eq_true_eq]; omega), if_pos (by simp only [isLow, hlo, Bool.and_eq_true, decide_eq_true_eq]; omega), hhi, hlo]
    have : 0x10000 + (0xD800 + (c.toNat - 0x10000) / 1024 - 0xD800) * 1024 +
        (0xDC00 + (c.toNat - 0x10000) % 1024 - 0xDC00) = c.toNat := by omega
    rw [this, ofNat_toNat]

theorem scalars_units (cs : List Char) (rest : JsString) :
    scalars (units cs ++ rest) = cs ++ scalars rest := by
  induction cs with
  | nil => rfl
  | cons c cs ih =>
    show scalars ((charUnits c ++ units cs) ++ rest) = _
    rw [List.append_assoc, scalars_char, ih]
    rfl

theorem toRust_ofRust (s : String) : toRust (ofRust s) = s := by
  have h := scalars_units s.toList []
  rw [List.append_nil] at h
  rw [toRust, ofRust, h]
  simp [scalars]

theorem ofRust_injective {s t : String} (h : ofRust s = ofRust t) : s = t := by
  rw [← toRust_ofRust s, h, toRust_ofRust]

theorem textEncode_ofRust (s : String) : textEncode (ofRust s) = strBytes s := by
  rw [textEncode, toRust_ofRust]

theorem strBytes_toList (s : String) : strBytes s = s.toList.flatMap String.utf8EncodeChar := by
  rw [strBytes, ← String.utf8Encode_toList, List.utf8Encode]
  simp

/-- A string starts with the bytes of a byte order mark exactly if its first character is
U+FEFF. -/
theorem bom_prefix (s : String) :
    bom.isPrefixOf (strBytes s) = true ↔ s.toList.head? = some (Char.ofNat 0xFEFF) := by
  rw [strBytes_toList]
  cases s.toList with
  | nil => simp [bom]
  | cons c cs =>
    simp only [List.flatMap_cons, List.head?_cons, Option.some.injEq]
    have hc : c = Char.ofNat 0xFEFF ↔ c.val.toNat = 0xFEFF := by
      constructor
      · rintro rfl; rfl
      · intro h
        have : c.toNat = 0xFEFF := h
        rw [← ofNat_toNat c, this]
    rw [hc]
    have hv := char_valid c
    have hn : c.toNat = c.val.toNat := rfl
    rw [hn] at hv
    have key : ∀ (n k : Nat), n < 256 → k < 256 → (UInt8.ofNat n = UInt8.ofNat k ↔ n = k) := by
      intro n k h1 h2
      constructor
      · intro h
        have := congrArg UInt8.toNat h
        rwa [UInt8.toNat_ofNat', UInt8.toNat_ofNat', Nat.mod_eq_of_lt h1, Nat.mod_eq_of_lt h2]
          at this
      · rintro rfl; rfl
    have e0 : (0xEF : UInt8) = UInt8.ofNat 0xEF := rfl
    have e1 : (0xBB : UInt8) = UInt8.ofNat 0xBB := rfl
    have e2 : (0xBF : UInt8) = UInt8.ofNat 0xBF := rfl
    unfold String.utf8EncodeChar
    dsimp only
    split
    · simp only [bom, List.cons_append, List.nil_append, List.isPrefixOf, Bool.and_eq_true,
        beq_iff_eq, e0]
      rw [key _ _ (by omega) (by omega)]
      exact ⟨fun h => absurd h.1 (by omega), fun h => absurd h (by omega)⟩
    · split
      · simp only [bom, List.cons_append, List.nil_append, List.isPrefixOf, Bool.and_eq_true,
          beq_iff_eq, e0]
        rw [key _ _ (by omega) (by omega)]
        exact ⟨fun h => absurd h.1 (by omega), fun h => absurd h (by omega)⟩
      · split
        · simp only [bom, List.cons_append, List.nil_append, List.isPrefixOf, Bool.and_eq_true,
            beq_iff_eq, e0, e1, e2, and_true]
          rw [key _ _ (by omega) (by omega), key _ _ (by omega) (by omega),
            key _ _ (by omega) (by omega)]
          omega
        · simp only [bom, List.cons_append, List.nil_append, List.isPrefixOf, Bool.and_eq_true,
            beq_iff_eq, e0]
          rw [key _ _ (by omega) (by omega)]
          exact ⟨fun h => absurd h.1 (by omega), fun h => absurd h (by omega)⟩

/-- Text that does not start with a byte order mark is decoded as it is. -/
theorem textDecode_strBytes (L : Lossy) (s : String)
    (h : s.toList.head? ≠ some (Char.ofNat 0xFEFF)) : textDecode L (strBytes s) = ofRust s := by
  have hb : ¬ bom.isPrefixOf (strBytes s) = true := fun hb => h ((bom_prefix s).1 hb)
  rw [textDecode, if_neg hb, strFromUtf8_strBytes]

/-- Text that starts with a byte order mark is decoded without it. -/
theorem textDecode_bom (L : Lossy) (s : String)
    (h : s.toList.head? = some (Char.ofNat 0xFEFF)) :
    textDecode L (strBytes s) = units s.toList.tail := by
  have hb : bom.isPrefixOf (strBytes s) = true := (bom_prefix s).2 h
  rw [textDecode, if_pos hb]
  obtain ⟨cs, hcs⟩ : ∃ cs, s.toList = Char.ofNat 0xFEFF :: cs := by
    cases hl : s.toList with
    | nil => rw [hl] at h; cases h
    | cons c cs => rw [hl] at h; exact ⟨cs, by rw [Option.some.inj h]⟩
  have hd : (strBytes s).drop 3 = strBytes (String.ofList cs) := by
    rw [strBytes_toList, strBytes_toList, hcs, String.toList_ofList, List.flatMap_cons]
    have : String.utf8EncodeChar (Char.ofNat 0xFEFF) = bom := by decide +kernel
    rw [this]
    rfl
  rw [hd, strFromUtf8_strBytes]
  dsimp only
  rw [ofRust, hcs, String.toList_ofList]
  rfl

end Verif.Js
