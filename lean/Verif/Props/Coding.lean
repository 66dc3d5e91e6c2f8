import Verif.Coding.Codec
import Mathlib.Tactic.Ring
import Mathlib.Tactic.Linarith

/-!
# Properties C01–C05 and C07: wire integers and primitive values
-/

namespace Verif.Props.Coding

open Verif Verif.Coding

/-! ## Specification -/

/-- The big-endian value of a byte string. -/
def bigEndian : Bytes → Nat
  | [] => 0
  | b :: bs => b.toNat * 256 ^ bs.length + bigEndian bs

/-- The encoded length announced by the two most significant bits of the first byte: 1, 2,
4 or 8 bytes for 00, 01, 10 and 11 (RFC 9000, section 16). -/
def announcedLength (first : UInt8) : Nat := 2 ^ (first.toNat / 64)

/-! ## Helpers -/

theorem bigEndian_lt (bs : Bytes) : bigEndian bs < 256 ^ bs.length := by
  induction bs with
  | nil => simp [bigEndian]
  | cons b bs ih =>
    have hb : b.toNat < 256 := b.toNat_lt
    simp only [bigEndian, List.length_cons]
    rw [show 256 ^ (bs.length + 1) = 256 * 256 ^ bs.length by rw [Nat.pow_succ]; ring]
    nlinarith [Nat.mul_le_mul_right (256 ^ bs.length) (show b.toNat ≤ 255 by omega)]

theorem fromBE_eq_bigEndian (bs : Bytes) : fromBE bs = bigEndian bs := by
  induction bs with
  | nil => rfl
  | cons b bs ih => rw [fromBE_cons, ih]; rfl

theorem tagLen_eq (b : UInt8) : tagLen b = announcedLength b := by
  have hb : b.toNat < 256 := b.toNat_lt
  unfold tagLen announcedLength
  have : b.toNat / 64 = 0 ∨ b.toNat / 64 = 1 ∨ b.toNat / 64 = 2 ∨ b.toNat / 64 = 3 := by omega
  rcases this with h | h | h | h <;> rw [h] <;> rfl

theorem announcedLength_cases (b : UInt8) :
    announcedLength b = 1 ∨ announcedLength b = 2 ∨ announcedLength b = 4 ∨
      announcedLength b = 8 := by
  have hb : b.toNat < 256 := b.toNat_lt
  unfold announcedLength
  have : b.toNat / 64 = 0 ∨ b.toNat / 64 = 1 ∨ b.toNat / 64 = 2 ∨ b.toNat / 64 = 3 := by omega
  rcases this with h | h | h | h <;> rw [h] <;> simp

theorem value_eq (b : UInt8) (t : Bytes) (ht : t.length = announcedLength b - 1) :
    b.toNat % 64 * 256 ^ (announcedLength b - 1) + bigEndian t =
      bigEndian (b :: t) % 2 ^ (8 * announcedLength b - 2) := by
  have hb : b.toNat < 256 := b.toNat_lt
  have hlt := bigEndian_lt t
  simp only [bigEndian]
  rw [ht] at hlt ⊢
  rcases announcedLength_cases b with h | h | h | h <;> rw [h] at hlt ⊢ <;>
    norm_num at hlt ⊢ <;> omega

theorem decode_eq (b : UInt8) (r : Bytes) :
    decodeU64 (b :: r) =
      if (b :: r).length < announcedLength b then .error .short
      else .ok (bigEndian ((b :: r).take (announcedLength b)) % 2 ^ (8 * announcedLength b - 2),
        (b :: r).drop (announcedLength b)) := by
  have hpos : announcedLength b = (announcedLength b - 1) + 1 := by
    rcases announcedLength_cases b with h | h | h | h <;> omega
  have e : decodeU64 (b :: r) = decodeVarInt (b :: r) := rfl
  rw [e, decodeVarInt_cons, tagLen_eq]
  by_cases h : r.length < announcedLength b - 1
  · rw [if_pos h, if_pos (by simp only [List.length_cons]; omega)]
  · rw [if_neg h, if_neg (by simp only [List.length_cons]; omega), fromBE_eq_bigEndian, value_eq]
    · conv_rhs => rw [hpos]
      rw [List.take_succ_cons, List.drop_succ_cons, ← hpos]
    · rw [List.length_take]; omega

/-! ## C01 -/

/-- Every integer below 2^62 is encodable, and its encoding followed by any bytes decodes to
it, leaving exactly those bytes. -/
theorem c01_varint_roundtrip (v : Nat) (hv : v < 2 ^ 62) :
    ∃ bs, wire (encodeU64 v) = .ok bs ∧
      ∀ rest, decodeU64 (bs ++ rest) = .ok (v, rest) := by
  refine ⟨_, encodeU64_ok.2 ⟨hv, wire_varint v hv⟩, fun rest => ?_⟩
  exact rt_u64 v _ rest (encodeU64_ok.2 ⟨hv, wire_varint v hv⟩)

/-! ## C02 -/

/-- The encoding has the announced size, which is 1, 2, 4 or 8, and no byte string decoding
to the same integer is shorter. -/
theorem c02_varint_shortest (v : Nat) (bs : Bytes) (h : wire (encodeU64 v) = .ok bs) :
    bs.length = VarInt.encodeSize v ∧ bs.length ∈ [1, 2, 4, 8] ∧
    ∀ other rest, decodeU64 (other ++ rest) = .ok (v, rest) → bs.length ≤ other.length := by
  obtain ⟨hv, hw⟩ := encodeU64_ok.1 h
  rw [wire_varint v hv] at hw
  injection hw with hw
  have hlen : bs.length = VarInt.encodeSize v := by
    rw [← hw]
    unfold VarInt.encodeSize
    split
    · simp
    · split
      · simp
      · split <;> simp
  refine ⟨hlen, ?_, ?_⟩
  · rw [hlen]
    unfold VarInt.encodeSize
    split
    · simp
    · split
      · simp
      · split <;> simp
  · intro other rest hd
    have hk : ∃ b, announcedLength b ≤ other.length ∧ v < 2 ^ (8 * announcedLength b - 2) := by
      cases hor : other ++ rest with
      | nil => rw [hor] at hd; cases hd
      | cons b r =>
        rw [hor, decode_eq] at hd
        split at hd
        · cases hd
        · rename_i hl
          injection hd with hd
          injection hd with h1 h2
          refine ⟨b, ?_, ?_⟩
          · have := congrArg List.length h2
            rw [← hor, List.length_drop, List.length_append] at this
            rw [← hor, List.length_append] at hl
            omega
          · rw [← h1]; exact Nat.mod_lt _ (by positivity)
    obtain ⟨b, hb1, hb2⟩ := hk
    rw [hlen]
    refine Nat.le_trans ?_ hb1
    unfold VarInt.encodeSize
    rcases announcedLength_cases b with h | h | h | h <;> rw [h] at hb2 ⊢ <;> norm_num at hb2 ⊢
    · rw [if_pos hb2]
    · split
      · omega
      · omega
    · split
      · omega
      · split
        · omega
        · omega
    · split
      · omega
      · split
        · omega
        · split <;> omega

example : ∃ bs, wire (encodeU64 16384) = .ok bs ∧ bs.length = 4 := ⟨_, rfl, rfl⟩

/-! ## C03 -/

/-- Decoding is total: an empty buffer is short; otherwise the first byte announces a
length of 1, 2, 4 or 8, the buffer is short exactly if it has fewer bytes, and else the
result is the big-endian value of that many bytes without the two announcing bits, which is
below 2^62, and the rest of the buffer is left.  No other error exists. -/
theorem c03_varint_decode_total :
    decodeU64 [] = .error .short ∧
    ∀ (first : UInt8) (more : Bytes),
      announcedLength first ∈ [1, 2, 4, 8] ∧
      ((first :: more).length < announcedLength first ∧
          decodeU64 (first :: more) = .error .short ∨
       announcedLength first ≤ (first :: more).length ∧
          ∃ v < 2 ^ 62,
            v = bigEndian ((first :: more).take (announcedLength first)) %
                  2 ^ (8 * announcedLength first - 2) ∧
            decodeU64 (first :: more) =
              .ok (v, (first :: more).drop (announcedLength first))) := by
  refine ⟨rfl, fun b r => ⟨?_, ?_⟩⟩
  · rcases announcedLength_cases b with h | h | h | h <;> simp [h]
  · by_cases h : (b :: r).length < announcedLength b
    · exact .inl ⟨h, by rw [decode_eq, if_pos h]⟩
    · refine .inr ⟨by omega, _, ?_, rfl, by rw [decode_eq, if_neg h]⟩
      refine Nat.lt_of_lt_of_le (Nat.mod_lt _ (by positivity)) ?_
      apply Nat.pow_le_pow_right (by omega)
      rcases announcedLength_cases b with h | h | h | h <;> omega

/-- Encoding an integer of 2^62 or more panics. -/
theorem c03_varint_encode_panics (v : Nat) : 2 ^ 62 ≤ v ↔ wire (encodeU64 v) = .error .tooLarge := by
  constructor
  · intro h
    unfold encodeU64 VarInt.tryFrom VarInt.MAX
    rw [if_neg (by simp; omega)]
    rfl
  · intro h
    by_contra hv
    obtain ⟨bs, hbs, _⟩ := c01_varint_roundtrip v (by omega)
    rw [h] at hbs
    cases hbs

/-! ## C04 -/

/-- A 32-bit integer round-trips. -/
theorem c04_u32_roundtrip (v : Nat) (hv : v < 2 ^ 32) :
    ∃ bs, wire (encodeU32 v) = .ok bs ∧ ∀ rest, decodeU32 (bs ++ rest) = .ok (v, rest) := by
  refine ⟨_, wire_varint v (by omega), fun rest => ?_⟩
  rw [decodeU32, Dec.bind'_eq,
    Dec.bind_ok (decodeVarInt_encode v (by omega) _ rest (wire_varint v (by omega)))]
  simp only [VarInt.toU32]
  rw [if_pos (by omega), Nat.mod_eq_of_lt hv]
  rfl

/-- Decoding 32 bits agrees with decoding 62 bits where the value fits and fails with
BoundsExceeded where it does not; other errors are passed on. -/
theorem c04_u32_range_checked (bs : Bytes) :
    (∀ v rest, decodeU64 bs = .ok (v, rest) → v < 2 ^ 32 → decodeU32 bs = .ok (v, rest)) ∧
    (∀ v rest, decodeU64 bs = .ok (v, rest) → 2 ^ 32 ≤ v →
      decodeU32 bs = .error .boundsExceeded) ∧
    (∀ e, decodeU64 bs = .error e → decodeU32 bs = .error e) := by
  refine ⟨fun v rest h hv => ?_, fun v rest h hv => ?_, fun e h => ?_⟩
  · rw [decodeU32, Dec.bind'_eq, Dec.bind_ok (d := decodeVarInt) h]
    simp only [VarInt.toU32]
    rw [if_pos (by omega), Nat.mod_eq_of_lt hv]
    rfl
  · rw [decodeU32, Dec.bind'_eq, Dec.bind_ok (d := decodeVarInt) h]
    simp only [VarInt.toU32]
    rw [if_neg (by omega)]
    rfl
  · rw [decodeU32, Dec.bind'_eq, Dec.bind_error (d := decodeVarInt) h]

/-- The conversions out of a wire integer return the same number if it fits and an error
otherwise. -/
theorem c04_conversions (x : Nat) :
    (∀ y, VarInt.toU32 x = .ok y ↔ y = x ∧ x < 2 ^ 32) ∧
    (∀ y, VarInt.toU16 x = .ok y ↔ y = x ∧ x < 2 ^ 16) ∧
    (∀ y, VarInt.toU8 x = .ok y ↔ y = x ∧ x < 2 ^ 8) := by
  refine ⟨fun y => ?_, fun y => ?_, fun y => ?_⟩
  · unfold VarInt.toU32
    split
    · simp only [Except.ok.injEq]; omega
    · simp only [reduceCtorEq, false_iff]; omega
  · unfold VarInt.toU16
    split
    · simp only [Except.ok.injEq]; omega
    · simp only [reduceCtorEq, false_iff]; omega
  · unfold VarInt.toU8
    split
    · simp only [Except.ok.injEq]; omega
    · simp only [reduceCtorEq, false_iff]; omega

example : ∃ bs rest, decodeU64 bs = .ok (2 ^ 32, rest) := by
  obtain ⟨bs, _, h⟩ := c01_varint_roundtrip (2 ^ 32) (by norm_num)
  exact ⟨bs ++ [], [], h []⟩

/-! ## C05 -/

/-- A byte round-trips. -/
theorem c05_u8 : RoundTrips encodeU8 decodeU8 := rt_u8

/-- Every signed byte is encoded as one byte and round-trips. -/
theorem c05_i8 (v : Int) (h1 : -128 ≤ v) (h2 : v ≤ 127) :
    ∃ b, wire (encodeI8 v) = .ok [b] ∧ ∀ rest, decodeI8 (b :: rest) = .ok (v, rest) := by
  have e : wire (encodeI8 v) = .ok [UInt8.ofNat ((v + 128) % 256).toNat] := by
    simp [encodeI8, wire, Put.bytes, toBE]
  exact ⟨_, e, fun rest => rt_i8 v _ rest ⟨h1, h2⟩ e⟩

/-- A string round-trips. -/
theorem c05_string : RoundTrips encodeString decodeString := rt_string

/-- A byte string round-trips. -/
theorem c05_bytes : RoundTrips encodeBytes decodeBytes := rt_bytes

/-- A list of values that round-trip round-trips. -/
theorem c05_list {α} (enc : α → Enc) (dec : Dec α) (h : RoundTrips enc dec) :
    RoundTrips (encodeVec enc) (decodeVec dec) := rt_vec h

/-- A string of fewer than 2^62 bytes can be encoded: its length followed by its bytes. -/
theorem c05_string_encodable (s : String) (h : s.utf8ByteSize < 2 ^ 62) :
    ∃ n, wire (encodeU64 s.utf8ByteSize) = .ok n ∧
      wire (encodeString s) = .ok (n ++ strBytes s) := by
  have hl : (strBytes s).length = s.utf8ByteSize := by
    simp [strBytes]
  obtain ⟨n, hn, _⟩ := c01_varint_roundtrip _ h
  refine ⟨n, hn, ?_⟩
  unfold encodeString
  rw [hl, wire_seq_of hn (y := strBytes s) (by simp [wire, Put.bytes])]

/-- A duration round-trips up to truncation to whole microseconds. -/
theorem c05_duration (d : Nat) (bs rest : Bytes) (h : wire (encodeDuration d) = .ok bs) :
    decodeDuration (bs ++ rest) = .ok (d - d % 1000, rest) := by
  unfold encodeDuration at h
  split at h
  · rw [decodeDuration, Dec.bind'_eq, Dec.bind_ok (rt_u64 _ bs rest h)]
    simp only [Dec.pure'_apply, Except.ok.injEq, Prod.mk.injEq, and_true]
    omega
  · cases h

/-- A duration can be encoded exactly if it is below 2^62 microseconds. -/
theorem c05_duration_encodable (d : Nat) :
    (∃ bs, wire (encodeDuration d) = .ok bs) ↔ d / 1000 < 2 ^ 62 := by
  unfold encodeDuration
  constructor
  · rintro ⟨bs, h⟩
    split at h
    · exact (encodeU64_ok.1 h).1
    · cases h
  · intro h
    rw [if_pos (by omega)]
    obtain ⟨bs, hb, _⟩ := c01_varint_roundtrip _ h
    exact ⟨bs, hb⟩

example : ∃ bs, wire (encodeVec encodeString ["room", ""]) = .ok bs := ⟨_, rfl⟩
example : ∃ bs, wire (encodeDuration 1999) = .ok bs := ⟨_, rfl⟩

/-! ## C07 -/

/-- The counting writer counts exactly the bytes that a growable buffer receives, whatever
is encoded. -/
theorem c07_sizer (e : Enc) (bs : Bytes) (h : wire e = .ok bs) : sizer e = .ok bs.length :=
  sizer_eq e bs h

/-- The overridden sizes are exact too. -/
theorem c07_overrides (v : Nat) (b : UInt8) (i : Int) (s : Bytes) (bs : Bytes) :
    (wire (encodeU64 v) = .ok bs → VarInt.encodeSize v = bs.length) ∧
    (wire (encodeU8 b) = .ok bs → encodeSizeU8 b = bs.length) ∧
    (wire (encodeI8 i) = .ok bs → encodeSizeI8 i = bs.length) ∧
    (wire (encodeBytes s) = .ok bs → encodeSizeBytes s = .ok bs.length) := by
  refine ⟨fun h => (c02_varint_shortest v bs h).1.symm, fun h => ?_, fun h => ?_, fun h => ?_⟩
  · rw [wire_u8] at h
    injection h with h
    rw [← h]; rfl
  · have e : wire (encodeI8 i) = .ok [UInt8.ofNat ((i + 128) % 256).toNat] := by
      simp [encodeI8, wire, Put.bytes, toBE]
    rw [e] at h
    injection h with h
    rw [← h]; rfl
  · obtain ⟨b1, b2, h1, h2, rfl⟩ := wire_seq_ok.1 h
    unfold encodeSizeBytes
    rw [sizer_eq _ _ h1]
    simp [wire, Put.bytes] at h2
    subst h2
    simp

end Verif.Props.Coding
