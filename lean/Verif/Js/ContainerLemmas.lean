import Verif.Js.Container
import Verif.Js.WireLemmas

/-! # Lemmas about media frames in the browser -/

set_option autoImplicit false

namespace Verif.Js.Container

open Verif Verif.Coding

/-- The bytes of a timestamp. -/
def header (v : Int) : Bytes :=
  if v ≤ MAX_U6 then [UInt8.ofNat (v % 256).toNat]
  else if v ≤ MAX_U14 then toBE 2 (v.toNat ||| 0x4000)
  else if v ≤ MAX_U30 then toBE 4 (v.toNat ||| 0x80000000)
  else toBE 8 (v.toNat ||| 0xc000000000000000)

theorem header_length (v : Int) : (header v).length ≤ 8 := by
  unfold header
  split
  · simp
  · split
    · simp
    · split <;> simp

theorem overwrite_start (dst src : Bytes) (h : src.length ≤ dst.length) :
    overwrite dst 0 src = .ok (src ++ dst.drop src.length) := by
  unfold overwrite
  rw [if_neg (by omega)]
  simp

theorem setVint53_eq (dst : Bytes) (h8 : 8 ≤ dst.length) (v : Int) (hv : v ≤ MAX_U53) :
    setVint53 dst v = .ok (header v ++ dst.drop (header v).length, (header v).length) := by
  unfold setVint53 header
  split
  · rw [overwrite_start _ _ (by simp; omega)]
    rfl
  · split
    · rw [overwrite_start _ _ (by simp; omega), toBE_length]
      rfl
    · split
      · rw [overwrite_start _ _ (by simp; omega), toBE_length]
        rfl
      · rw [overwrite_start _ _ (by simp; omega), toBE_length]
        rfl

/-- A frame is the timestamp followed by the payload. -/
theorem encodeFrame_eq (source : Bytes) (v : Int) (hv : v ≤ MAX_U53) :
    encodeFrame source v = .ok (header v ++ source) := by
  have hl := header_length v
  unfold encodeFrame
  rw [setVint53_eq _ (by simp) v hv]
  dsimp only
  unfold overwrite
  rw [if_neg (by simp; omega)]
  dsimp only
  congr 1
  rw [List.take_append_of_le_length (by simp; omega)]
  rw [List.take_of_length_le (by simp; omega)]
  rw [List.take_append_of_le_length (by simp), List.take_of_length_le (by simp)]

theorem encodeFrame_late (source : Bytes) (v : Int) (hv : ¬ v ≤ MAX_U53) :
    encodeFrame source v = .error .overflow := by
  unfold MAX_U53 at hv
  have : setVint53 (List.replicate (8 + source.length) 0) v = .error .overflow := by
    unfold setVint53 MAX_U6 MAX_U14 MAX_U30 MAX_U53
    rw [if_neg (by omega), if_neg (by omega), if_neg (by omega), if_neg (by omega)]
  unfold encodeFrame
  rw [this]

/-- The header of a timestamp that is not negative is what the stream writer writes. -/
theorem header_nat (v : Nat) (hv : v ≤ MAX_U53) : header v = (Js.writeU53 v).bytes := by
  unfold header Js.writeU53 Js.setVint53 Js.MAX_U6 Js.MAX_U14 Js.MAX_U30 Js.MAX_U53 MAX_U6 MAX_U14
    MAX_U30
  unfold MAX_U53 at hv
  rw [if_neg (by omega : ¬ 2 ^ 53 - 1 < v)]
  by_cases h1 : v ≤ 2 ^ 6 - 1
  · rw [if_pos (by omega), if_pos h1]
    have : ((v : Int) % 256).toNat = v := by omega
    rw [this]
    show _ = toBE 1 v
    simp [toBE]
  rw [if_neg (by omega), if_neg h1]
  by_cases h2 : v ≤ 2 ^ 14 - 1
  · rw [if_pos (by omega), if_pos h2]; rfl
  rw [if_neg (by omega), if_neg h2]
  by_cases h3 : v ≤ 2 ^ 30 - 1
  · rw [if_pos (by omega), if_pos h3]; rfl
  rw [if_neg (by omega), if_neg h3, if_pos (by omega)]; rfl

/-- Small numbers are not rounded. -/
theorem toNumber_small (n : Nat) (h : n < 2 ^ 53) : toNumber n = n := by
  have : Nat.log2 n - 52 = 0 := by
    by_cases h0 : n = 0
    · subst h0; decide
    · have := (Nat.log2_lt h0).mpr h
      omega
  unfold toNumber
  rw [this]
  simp [Nat.mod_one]

/-- Reading a timestamp is reading an integer as Rust does, and rounding. -/
theorem getVint53_eq (buf : Bytes) : getVint53 buf =
    match decodeVarInt buf with
    | .ok (v, rest) => .ok (toNumber v, rest)
    | .error _ => .error .range := by
  cases buf with
  | nil => decide
  | cons b r =>
    rw [decodeVarInt_cons]
    unfold getVint53
    dsimp only
    rw [List.headD_cons, Js.size_bits]
    have hlt : b.toNat < 256 := b.toNat_lt
    have key : ∀ m, tagLen b = m + 1 → ¬ r.length < m → fromBE ((b :: r).take (m + 1)) &&&
        (2 ^ (8 * (m + 1) - 2) - 1) = b.toNat % 64 * 256 ^ m + fromBE (r.take m) := by
      intro m hm hr
      rw [List.take_succ_cons, Js.fromBE_head b (r.take m) _ (by rw [List.length_take]; omega),
        List.length_take, Nat.min_eq_left (by omega)]
    have small : ∀ m, m ≤ 3 → b.toNat % 64 * 256 ^ m + fromBE (r.take m) < 2 ^ 53 := by
      intro m hm
      have h1 := fromBE_lt (r.take m)
      have h2 : (256 : Nat) ^ (r.take m).length ≤ 256 ^ m :=
        Nat.pow_le_pow_right (by decide) (by rw [List.length_take]; omega)
      have h3 : b.toNat % 64 < 64 := Nat.mod_lt _ (by decide)
      have h4 : (256 : Nat) ^ m ≤ 256 ^ 3 := Nat.pow_le_pow_right (by decide) hm
      have h5 : b.toNat % 64 * 256 ^ m ≤ 63 * 256 ^ m := Nat.mul_le_mul_right _ (by omega)
      omega
    have h4 : b.toNat / 64 = 0 ∨ b.toNat / 64 = 1 ∨ b.toNat / 64 = 2 ∨ b.toNat / 64 = 3 := by omega
    rcases h4 with h | h | h | h
    · have ht : tagLen b = 1 := by simp [tagLen, h]
      rw [h, ht]
      have k := key 0 ht (by omega)
      have e := toNumber_small _ (small 0 (by decide))
      simp only [Nat.sub_self, Nat.not_lt_zero, if_false, List.length_cons]
      rw [if_neg (by simp)]
      rw [e]
      simp only [Nat.shiftLeft_zero, if_true]
      rw [← k]
      rfl
    · have ht : tagLen b = 2 := by simp [tagLen, h]
      rw [h, ht]
      have e := toNumber_small _ (small 1 (by decide))
      by_cases hr : r.length < 1
      · rw [if_pos (by simp; omega), if_pos (by omega)]
      · have k := key 1 ht hr
        rw [if_neg (show ¬ r.length < 2 - 1 by omega), if_neg (by simp; omega)]
        dsimp only
        rw [show 2 - 1 = 1 from rfl, e, ← k]
        rfl
    · have ht : tagLen b = 4 := by simp [tagLen, h]
      rw [h, ht]
      have e := toNumber_small _ (small 3 (by decide))
      by_cases hr : r.length < 3
      · rw [if_pos (by simp; omega), if_pos (by omega)]
      · have k := key 3 ht hr
        rw [if_neg (show ¬ r.length < 4 - 1 by omega), if_neg (by simp; omega)]
        dsimp only
        rw [show 4 - 1 = 3 from rfl, e, ← k]
        rfl
    · have ht : tagLen b = 8 := by simp [tagLen, h]
      rw [h, ht]
      by_cases hr : r.length < 7
      · rw [if_pos (by simp; omega), if_pos (by omega)]
      · have k := key 7 ht hr
        rw [if_neg (show ¬ r.length < 8 - 1 by omega), if_neg (by simp; omega)]
        dsimp only
        rw [show 8 - 1 = 7 from rfl, ← k]
        rfl

/-! ## Rounding -/

theorem toNumber_cases (n : Nat) : let u := 2 ^ (Nat.log2 n - 52)
    (toNumber n = n / u * u ∧ 2 * (n % u) ≤ u) ∨ (toNumber n = (n / u + 1) * u ∧ u ≤ 2 * (n % u)) := by
  dsimp only
  unfold toNumber
  dsimp only
  split
  · exact .inl ⟨rfl, by omega⟩
  · split
    · exact .inr ⟨rfl, by omega⟩
    · split
      · exact .inl ⟨rfl, by omega⟩
      · exact .inr ⟨rfl, by omega⟩

theorem quotient_bounds (n : Nat) (h : 2 ^ 53 ≤ n) : let u := 2 ^ (Nat.log2 n - 52)
    2 ^ 52 ≤ n / u ∧ n / u < 2 ^ 53 ∧ 1 ≤ Nat.log2 n - 52 := by
  dsimp only
  have h0 : n ≠ 0 := by omega
  have hl : 53 ≤ Nat.log2 n := (Nat.le_log2 h0).mpr h
  obtain ⟨e, he⟩ : ∃ e, Nat.log2 n = e + 52 := ⟨Nat.log2 n - 52, by omega⟩
  have h1 : 2 ^ (e + 52) ≤ n := he ▸ Nat.log2_self_le h0
  have h2 : n < 2 ^ (e + 52 + 1) := he ▸ Nat.lt_log2_self
  rw [he, Nat.add_sub_cancel]
  refine ⟨?_, ?_, by omega⟩
  · rw [Nat.le_div_iff_mul_le (Nat.two_pow_pos e), ← Nat.pow_add, Nat.add_comm 52 e]
    exact h1
  · rw [Nat.div_lt_iff_lt_mul (Nat.two_pow_pos e), ← Nat.pow_add]
    rw [show 53 + e = e + 52 + 1 by omega]
    exact h2

/-- Rounding gives a number with 53 bits. -/
theorem toNumber_double (n : Nat) : Double (toNumber n) := by
  by_cases h : n < 2 ^ 53
  · rw [toNumber_small n h]
    exact ⟨n, 0, h, by simp⟩
  · obtain ⟨-, hq, -⟩ := quotient_bounds n (by omega)
    rcases toNumber_cases n with ⟨e, -⟩ | ⟨e, -⟩
    · exact ⟨_, _, hq, e⟩
    · by_cases hq' : n / 2 ^ (Nat.log2 n - 52) + 1 < 2 ^ 53
      · exact ⟨_, _, hq', e⟩
      · refine ⟨1, 53 + (Nat.log2 n - 52), by decide, ?_⟩
        rw [e, Nat.pow_add, Nat.one_mul]
        congr 1
        omega

/-- No number with 53 bits is nearer. -/
theorem toNumber_nearest (n d : Nat) (hd : Double d) : dist (toNumber n) n ≤ dist d n := by
  by_cases h : n < 2 ^ 53
  · rw [toNumber_small n h]
    simp [dist]
  · obtain ⟨hq1, hq2, he⟩ := quotient_bounds n (by omega)
    have hc := toNumber_cases n
    dsimp only at hc hq1 hq2
    have hu : 2 ^ (Nat.log2 n - 52) = 2 * 2 ^ (Nat.log2 n - 52 - 1) := by
      rw [← Nat.pow_succ']
      congr 1
      omega
    have hu0 := Nat.two_pow_pos (Nat.log2 n - 52)
    have hdm := Nat.div_add_mod n (2 ^ (Nat.log2 n - 52))
    have hmod := Nat.mod_lt n hu0
    obtain ⟨m, e, hm, rfl⟩ := hd
    have hgap : m * 2 ^ e ≤ n / 2 ^ (Nat.log2 n - 52) * 2 ^ (Nat.log2 n - 52) ∨
        (n / 2 ^ (Nat.log2 n - 52) + 1) * 2 ^ (Nat.log2 n - 52) ≤ m * 2 ^ e := by
      by_cases hle : Nat.log2 n - 52 ≤ e
      · obtain ⟨k, hk⟩ : ∃ k, e = k + (Nat.log2 n - 52) := ⟨e - (Nat.log2 n - 52), by omega⟩
        rw [hk, Nat.pow_add, ← Nat.mul_assoc]
        by_cases hx : m * 2 ^ k ≤ n / 2 ^ (Nat.log2 n - 52)
        · exact .inl (Nat.mul_le_mul_right _ hx)
        · exact .inr (Nat.mul_le_mul_right _ (by omega))
      · left
        have h1 : 2 ^ e ≤ 2 ^ (Nat.log2 n - 52 - 1) := Nat.pow_le_pow_right (by decide) (by omega)
        calc m * 2 ^ e ≤ 2 ^ 53 * 2 ^ (Nat.log2 n - 52 - 1) := Nat.mul_le_mul (by omega) h1
          _ = 2 ^ 52 * 2 ^ (Nat.log2 n - 52) := by
            rw [hu, ← Nat.mul_assoc, show (2 : Nat) ^ 52 * 2 = 2 ^ 53 from rfl]
          _ ≤ _ := Nat.mul_le_mul_right _ hq1
    rw [Nat.add_mul, Nat.one_mul] at hgap hc
    rw [Nat.mul_comm] at hdm
    unfold dist
    generalize n / 2 ^ (Nat.log2 n - 52) * 2 ^ (Nat.log2 n - 52) = a at *
    generalize 2 ^ (Nat.log2 n - 52) = u at *
    generalize m * 2 ^ e = d at *
    rcases hc with ⟨hc, hr⟩ | ⟨hc, hr⟩ <;> rw [hc] <;> omega

end Verif.Js.Container
