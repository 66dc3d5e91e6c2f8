import Verif.Coding.Model
import Mathlib.Tactic.NormNum

/-! # Lemmas about the coding model -/

namespace Verif.Coding

open Verif

/-! ## Decoder plumbing -/

@[simp] theorem Dec.pure_apply {α} (a : α) (r : Bytes) : (Dec.pure a : Dec α) r = .ok (a, r) := rfl
@[simp] theorem Dec.pure'_apply {α} (a : α) (r : Bytes) :
    (Pure.pure a : Dec α) r = .ok (a, r) := rfl
@[simp] theorem Dec.fail_apply {α} (e : DecodeError) (r : Bytes) :
    (Dec.fail e : Dec α) r = .error e := rfl
theorem Dec.bind'_eq {α β} (d : Dec α) (f : α → Dec β) : (d >>= f) = Dec.bind d f := rfl
theorem Dec.bind_ok {α β} {d : Dec α} {f : α → Dec β} {r a r'} (h : d r = .ok (a, r')) :
    Dec.bind d f r = f a r' := by simp [Dec.bind, h]
theorem Dec.bind_error {α β} {d : Dec α} {f : α → Dec β} {r e} (h : d r = .error e) :
    Dec.bind d f r = .error e := by simp [Dec.bind, h]

/-! ## Encoder plumbing -/

theorem wire_ok {ps : List Put} : wire (.ok ps) = .ok (ps.flatMap Put.bytes) := rfl

theorem wire_seq_ok {a b : Enc} {bs} :
    wire (a ⨾ b) = .ok bs ↔ ∃ x y, wire a = .ok x ∧ wire b = .ok y ∧ bs = x ++ y := by
  constructor
  · intro h
    cases a with
    | error p => simp [Enc.seq, wire] at h
    | ok x =>
      cases b with
      | error p => simp [Enc.seq, wire] at h
      | ok y =>
        refine ⟨_, _, rfl, rfl, ?_⟩
        simp [Enc.seq, wire] at h
        exact h.symm
  · rintro ⟨x, y, hx, hy, rfl⟩
    cases a with
    | error p => simp [wire] at hx
    | ok a =>
      cases b with
      | error p => simp [wire] at hy
      | ok b =>
        simp only [wire, Except.ok.injEq] at hx hy
        subst hx hy
        simp [Enc.seq, wire]

theorem wire_seq_of {a b : Enc} {x y} (ha : wire a = .ok x) (hb : wire b = .ok y) :
    wire (a ⨾ b) = .ok (x ++ y) := wire_seq_ok.2 ⟨x, y, ha, hb, rfl⟩

/-! ## Big-endian integers -/

@[simp] theorem toBE_length (k v : Nat) : (toBE k v).length = k := by
  induction k with
  | zero => rfl
  | succ k ih => simp [toBE, ih]

theorem fromBE_cons_aux (bs : Bytes) (acc : Nat) :
    bs.foldl (fun acc b => acc * 256 + b.toNat) acc = acc * 256 ^ bs.length + fromBE bs := by
  induction bs generalizing acc with
  | nil => simp [fromBE]
  | cons b bs ih =>
    simp only [fromBE, List.foldl_cons, List.length_cons]
    rw [ih, ih (0 * 256 + b.toNat)]
    rw [Nat.pow_succ]
    grind

theorem fromBE_nil : fromBE [] = 0 := rfl

theorem fromBE_cons (b : UInt8) (bs : Bytes) :
    fromBE (b :: bs) = b.toNat * 256 ^ bs.length + fromBE bs := by
  have := fromBE_cons_aux bs b.toNat
  simp only [fromBE, List.foldl_cons, Nat.zero_mul, Nat.zero_add] at *
  exact this

theorem fromBE_lt (bs : Bytes) : fromBE bs < 256 ^ bs.length := by
  induction bs with
  | nil => simp [fromBE]
  | cons b bs ih =>
    rw [fromBE_cons, List.length_cons, Nat.pow_succ]
    have := b.toNat_lt
    calc b.toNat * 256 ^ bs.length + fromBE bs
        < b.toNat * 256 ^ bs.length + 256 ^ bs.length := by omega
      _ = (b.toNat + 1) * 256 ^ bs.length := by rw [Nat.add_mul, Nat.one_mul]
      _ ≤ 256 * 256 ^ bs.length := Nat.mul_le_mul_right _ (by omega)
      _ = _ := by rw [Nat.mul_comm]

theorem fromBE_toBE (k v : Nat) : fromBE (toBE k v) = v % 256 ^ k := by
  induction k with
  | zero => simp [toBE, fromBE, Nat.mod_one]
  | succ k ih =>
    rw [toBE, fromBE_cons, toBE_length, ih, UInt8.toNat_ofNat', Nat.shiftRight_eq_div_pow]
    have h : 2 ^ (8 * k) = 256 ^ k := by rw [Nat.pow_mul]
    rw [h, show (2 : Nat) ^ 8 = 256 from rfl, show 256 ^ (k + 1) = 256 ^ k * 256 by rw [Nat.pow_succ],
      Nat.mod_mul, Nat.mul_comm, Nat.add_comm]

/-! ## VarInt -/

theorem tag_toNat (b : UInt8) : (b >>> 6).toNat = b.toNat / 64 := by
  rw [UInt8.toNat_shiftRight, Nat.shiftRight_eq_div_pow]; rfl

theorem low_toNat (b : UInt8) : (b &&& 0b00111111).toNat = b.toNat % 64 := by
  rw [UInt8.toNat_and]
  exact Nat.and_two_pow_sub_one_eq_mod b.toNat 6

/-- The number of bytes announced by the first byte. -/
def tagLen (b : UInt8) : Nat :=
  match b.toNat / 64 with
  | 0 => 1
  | 1 => 2
  | 2 => 4
  | _ => 8

/-- Closed form of `decodeVarInt` on a non-empty buffer. -/
theorem decodeVarInt_cons (b : UInt8) (r : Bytes) :
    decodeVarInt (b :: r) =
      if r.length < tagLen b - 1 then .error .short
      else .ok (b.toNat % 64 * 256 ^ (tagLen b - 1) + fromBE (r.take (tagLen b - 1)),
        r.drop (tagLen b - 1)) := by
  have hlt := b.toNat_lt
  have h4 : b.toNat / 64 = 0 ∨ b.toNat / 64 = 1 ∨ b.toNat / 64 = 2 ∨ b.toNat / 64 = 3 := by
    have : b.toNat < 256 := hlt
    omega
  have key : ∀ n, n ≤ r.length → fromBE ((b &&& 0b00111111) :: r.take n) =
      b.toNat % 64 * 256 ^ n + fromBE (r.take n) := by
    intro n hn
    rw [fromBE_cons, low_toNat, List.length_take, Nat.min_eq_left hn]
  rcases h4 with h | h | h | h
  · have ht : tagLen b = 1 := by simp [tagLen, h]
    rw [ht]
    simp only [decodeVarInt, tag_toNat, low_toNat, h]
    simp [fromBE]
  · have ht : tagLen b = 2 := by simp [tagLen, h]
    rw [ht]
    simp only [decodeVarInt, tag_toNat, h]
    split
    · rfl
    · rw [key _ (by omega)]
  · have ht : tagLen b = 4 := by simp [tagLen, h]
    rw [ht]
    simp only [decodeVarInt, tag_toNat, h]
    split
    · rfl
    · rw [key _ (by omega)]
  · have ht : tagLen b = 8 := by simp [tagLen, h]
    rw [ht]
    simp only [decodeVarInt, tag_toNat, h]
    split
    · rfl
    · rw [key _ (by omega)]

/-- The wire image of a varint: the value with its tag on top, in `encodeSize` bytes. -/
theorem wire_varint (v : Nat) (h : v < 2 ^ 62) :
    wire (VarInt.encode v) = .ok (
      if v < 2 ^ 6 then toBE 1 v
      else if v < 2 ^ 14 then toBE 2 (2 ^ 14 + v)
      else if v < 2 ^ 30 then toBE 4 (2 * 2 ^ 30 + v)
      else toBE 8 (3 * 2 ^ 62 + v)) := by
  by_cases h6 : v < 2 ^ 6
  · have hs : VarInt.encodeSize v = 1 := by rw [VarInt.encodeSize, if_pos h6]
    rw [if_pos h6, VarInt.encode, hs]
    simp only [wire_ok, List.flatMap_cons, List.flatMap_nil, List.append_nil, Put.bytes]
    rw [Nat.mod_eq_of_lt (by omega)]
  by_cases h14 : v < 2 ^ 14
  · have hs : VarInt.encodeSize v = 2 := by rw [VarInt.encodeSize, if_neg h6, if_pos h14]
    rw [if_neg h6, if_pos h14, VarInt.encode, hs]
    simp only [wire_ok, List.flatMap_cons, List.flatMap_nil, List.append_nil, Put.bytes]
    rw [Nat.mod_eq_of_lt (by omega), ← Nat.shiftLeft_add_eq_or_of_lt (by omega),
      Nat.shiftLeft_eq, Nat.one_mul]
  by_cases h30 : v < 2 ^ 30
  · have hs : VarInt.encodeSize v = 4 := by
      rw [VarInt.encodeSize, if_neg h6, if_neg h14, if_pos h30]
    rw [if_neg h6, if_neg h14, if_pos h30, VarInt.encode, hs]
    simp only [wire_ok, List.flatMap_cons, List.flatMap_nil, List.append_nil, Put.bytes]
    rw [Nat.mod_eq_of_lt (by omega), ← Nat.shiftLeft_add_eq_or_of_lt (by omega),
      Nat.shiftLeft_eq]
  · have hs : VarInt.encodeSize v = 8 := by
      rw [VarInt.encodeSize, if_neg h6, if_neg h14, if_neg h30]
    rw [if_neg h6, if_neg h14, if_neg h30, VarInt.encode, hs]
    simp only [wire_ok, List.flatMap_cons, List.flatMap_nil, List.append_nil, Put.bytes]
    rw [← Nat.shiftLeft_add_eq_or_of_lt (by omega), Nat.shiftLeft_eq]

/-- Decoding a tagged big-endian number. -/
theorem decodeVarInt_tagged (k t v : Nat) (rest : Bytes)
    (hk : k = [1, 2, 4, 8][t]?.getD 0) (ht : t < 4) (hv : v < 2 ^ (8 * k - 2)) :
    decodeVarInt (toBE k (t * 2 ^ (8 * k - 2) + v) ++ rest) = .ok (v, rest) := by
  have hk' : k = 1 ∧ t = 0 ∨ k = 2 ∧ t = 1 ∨ k = 4 ∧ t = 2 ∨ k = 8 ∧ t = 3 := by
    match t, ht with
    | 0, _ => simp at hk; omega
    | 1, _ => simp at hk; omega
    | 2, _ => simp at hk; omega
    | 3, _ => simp at hk; omega
  have hpos : 0 < k := by omega
  obtain ⟨j, rfl⟩ : ∃ j, k = j + 1 := ⟨k - 1, by omega⟩
  rw [toBE, List.cons_append, decodeVarInt_cons]
  have hb : (UInt8.ofNat ((t * 2 ^ (8 * (j + 1) - 2) + v) >>> (8 * j))).toNat =
      t * 64 + v / 2 ^ (8 * j) := by
    rw [UInt8.toNat_ofNat', Nat.shiftRight_eq_div_pow]
    rcases hk' with ⟨h1, rfl⟩ | ⟨h1, rfl⟩ | ⟨h1, rfl⟩ | ⟨h1, rfl⟩ <;>
      (obtain rfl : j = _ := Nat.succ.inj h1) <;> norm_num at hv ⊢ <;> omega
  have htl : tagLen (UInt8.ofNat ((t * 2 ^ (8 * (j + 1) - 2) + v) >>> (8 * j))) = j + 1 := by
    unfold tagLen
    rw [hb]
    have : (t * 64 + v / 2 ^ (8 * j)) / 64 = t := by
      rcases hk' with ⟨h1, rfl⟩ | ⟨h1, rfl⟩ | ⟨h1, rfl⟩ | ⟨h1, rfl⟩ <;>
        (obtain rfl : j = _ := Nat.succ.inj h1) <;> norm_num at hv ⊢ <;> omega
    rw [this]
    rcases hk' with ⟨h1, rfl⟩ | ⟨h1, rfl⟩ | ⟨h1, rfl⟩ | ⟨h1, rfl⟩ <;> simp [h1]
  rw [htl, hb]
  simp only [Nat.add_sub_cancel]
  rw [if_neg (by simp), List.take_left' (by simp), List.drop_left' (by simp), fromBE_toBE]
  congr 2
  rcases hk' with ⟨h1, rfl⟩ | ⟨h1, rfl⟩ | ⟨h1, rfl⟩ | ⟨h1, rfl⟩ <;>
    (obtain rfl : j = _ := Nat.succ.inj h1) <;> norm_num at hv ⊢ <;> omega

theorem decodeVarInt_encode (v : Nat) (h : v < 2 ^ 62) (bs rest : Bytes)
    (hb : wire (VarInt.encode v) = .ok bs) : decodeVarInt (bs ++ rest) = .ok (v, rest) := by
  rw [wire_varint v h] at hb
  injection hb with hb
  subst hb
  split
  · simpa using decodeVarInt_tagged 1 0 v rest rfl (by omega) (by omega)
  · split
    · simpa using decodeVarInt_tagged 2 1 v rest rfl (by omega) (by omega)
    · split
      · simpa using decodeVarInt_tagged 4 2 v rest rfl (by omega) (by omega)
      · simpa using decodeVarInt_tagged 8 3 v rest rfl (by omega) (by omega)

end Verif.Coding
