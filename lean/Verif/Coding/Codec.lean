import Verif.Coding.Lemmas
import Verif.Coding.Spec

/-! # Codec lemmas: combinators and primitives -/

namespace Verif.Coding

open Verif

/-! ## Generic consequences -/

theorem stable_of {α} {dec : Dec α} (h1 : DecidesOnPrefix dec) (h2 : ErrorsAreFinal dec) :
    StableUnderMoreInput dec := by
  refine ⟨?_, h2⟩
  intro bs a rest h more
  obtain ⟨used, rfl, hu⟩ := h1 bs a rest h
  rw [List.append_assoc]
  exact hu _

theorem short_of_cut {α} {dec : Dec α} (h1 : DecidesOnPrefix dec) (h2 : ErrorsAreFinal dec)
    {cut missing : Bytes} {b : α} (hfull : dec (cut ++ missing) = .ok (b, []))
    (hm : missing ≠ []) : dec cut = .error .short := by
  cases hc : dec cut with
  | error e =>
    by_cases he : e = .short
    · rw [he]
    · have := h2 cut e hc he missing
      rw [hfull] at this
      cases this
  | ok p =>
    obtain ⟨b, rest⟩ := p
    have := (stable_of h1 h2).1 cut b rest hc missing
    rw [hfull] at this
    injection this with this
    have h3 := congrArg Prod.snd this
    simp at h3
    exact absurd h3.2 hm

theorem truncation_of {α} {P : α → Prop} {enc : α → Enc} {dec : Dec α}
    (hr : RoundTripsOn P enc dec) (h1 : DecidesOnPrefix dec) (h2 : ErrorsAreFinal dec) :
    TruncationIsShortOn P enc dec := by
  intro a bs cut missing hP hw hbs hm
  have hfull := hr a bs [] hP hw
  rw [List.append_nil, hbs] at hfull
  exact short_of_cut h1 h2 hfull hm

theorem RoundTrips.on {α} {enc : α → Enc} {dec : Dec α} (h : RoundTrips enc dec) :
    RoundTripsOn (fun _ => True) enc dec := fun a bs rest _ hw => h a bs rest hw

/-! ## Combinators -/

theorem prefix_pure {α} (a : α) : DecidesOnPrefix (Dec.pure a) := by
  intro bs b rest h
  simp only [Dec.pure_apply, Except.ok.injEq, Prod.mk.injEq] at h
  obtain ⟨rfl, rfl⟩ := h
  exact ⟨[], rfl, fun _ => rfl⟩

theorem final_pure {α} (a : α) : ErrorsAreFinal (Dec.pure a) := by
  intro bs e h; simp at h

theorem prefix_fail {α} (e : DecodeError) : DecidesOnPrefix (Dec.fail e : Dec α) := by
  intro bs b rest h; simp at h

theorem final_fail {α} (e : DecodeError) : ErrorsAreFinal (Dec.fail e : Dec α) := by
  intro bs e' h _ more
  simpa using h

theorem prefix_bind {α β} {d : Dec α} {f : α → Dec β} (h1 : DecidesOnPrefix d)
    (h2 : ∀ a, DecidesOnPrefix (f a)) : DecidesOnPrefix (Dec.bind d f) := by
  intro bs b rest h
  cases hd : d bs with
  | error e => rw [Dec.bind_error hd] at h; cases h
  | ok p =>
    obtain ⟨a, r⟩ := p
    rw [Dec.bind_ok hd] at h
    obtain ⟨u1, rfl, k1⟩ := h1 _ _ _ hd
    obtain ⟨u2, rfl, k2⟩ := h2 a _ _ _ h
    refine ⟨u1 ++ u2, by simp, fun more => ?_⟩
    rw [List.append_assoc, Dec.bind_ok (k1 _)]
    exact k2 _

theorem final_bind {α β} {d : Dec α} {f : α → Dec β} (h0 : DecidesOnPrefix d)
    (h1 : ErrorsAreFinal d) (h2 : ∀ a, ErrorsAreFinal (f a)) :
    ErrorsAreFinal (Dec.bind d f) := by
  intro bs e h he more
  cases hd : d bs with
  | error e' =>
    rw [Dec.bind_error hd] at h
    cases h
    exact Dec.bind_error (h1 _ _ hd he more)
  | ok p =>
    obtain ⟨a, r⟩ := p
    rw [Dec.bind_ok hd] at h
    obtain ⟨u1, rfl, k1⟩ := h0 _ _ _ hd
    rw [List.append_assoc, Dec.bind_ok (k1 _)]
    exact h2 a _ _ h he more

/-- Both stability notions at once, for composition. -/
def Good {α} (d : Dec α) : Prop := DecidesOnPrefix d ∧ ErrorsAreFinal d

theorem good_pure {α} (a : α) : Good (Dec.pure a) := ⟨prefix_pure a, final_pure a⟩
theorem good_pure' {α} (a : α) : Good (Pure.pure a : Dec α) := good_pure a
theorem good_fail {α} (e : DecodeError) : Good (Dec.fail e : Dec α) :=
  ⟨prefix_fail e, final_fail e⟩
theorem good_bind {α β} {d : Dec α} {f : α → Dec β} (h1 : Good d) (h2 : ∀ a, Good (f a)) :
    Good (Dec.bind d f) :=
  ⟨prefix_bind h1.1 fun a => (h2 a).1, final_bind h1.1 h1.2 fun a => (h2 a).2⟩
theorem good_bind' {α β} {d : Dec α} {f : α → Dec β} (h1 : Good d) (h2 : ∀ a, Good (f a)) :
    Good (d >>= f) := good_bind h1 h2

/-! ## VarInt -/

theorem tagLen_pos (b : UInt8) : 0 < tagLen b := by
  unfold tagLen; split <;> omega

theorem good_varint : Good decodeVarInt := by
  constructor
  · intro bs a rest h
    cases bs with
    | nil => simp [decodeVarInt] at h
    | cons b r =>
      rw [decodeVarInt_cons] at h
      split at h
      · cases h
      · rename_i hlen
        simp only [Except.ok.injEq, Prod.mk.injEq] at h
        obtain ⟨rfl, rfl⟩ := h
        refine ⟨b :: r.take (tagLen b - 1), by simp, fun more => ?_⟩
        have hl : (r.take (tagLen b - 1)).length = tagLen b - 1 := by
          rw [List.length_take]; omega
        rw [List.cons_append, decodeVarInt_cons, if_neg (by simp [hl]),
          List.take_left' hl, List.drop_left' hl]
  · intro bs e h he
    cases bs with
    | nil => simp [decodeVarInt] at h; exact absurd h.symm he
    | cons b r =>
      rw [decodeVarInt_cons] at h
      split at h
      · injection h with h; exact absurd h.symm he
      · cases h

theorem encodeU64_ok {v : Nat} {bs : Bytes} :
    wire (encodeU64 v) = .ok bs ↔ v < 2 ^ 62 ∧ wire (VarInt.encode v) = .ok bs := by
  unfold encodeU64 VarInt.tryFrom VarInt.MAX
  by_cases h : v ≤ (1 <<< 62) - 1
  · have : v < 2 ^ 62 := by simp at h; omega
    rw [if_pos h]
    exact ⟨fun k => ⟨this, k⟩, fun k => k.2⟩
  · have : ¬ v < 2 ^ 62 := by simp at h; omega
    rw [if_neg h]
    exact ⟨fun k => (by cases k), fun k => absurd k.1 this⟩

theorem rt_u64 : RoundTrips encodeU64 decodeU64 := by
  intro v bs rest h
  obtain ⟨hv, hw⟩ := encodeU64_ok.1 h
  exact decodeVarInt_encode v hv bs rest hw

theorem good_u64 : Good decodeU64 := good_varint

/-! ## Bytes, lists, strings -/

theorem wire_u8 (v : UInt8) : wire (encodeU8 v) = .ok [v] := by
  simp [encodeU8, wire, Put.bytes, toBE]

theorem rt_u8 : RoundTrips encodeU8 decodeU8 := by
  intro v bs rest h
  rw [wire_u8] at h
  injection h with h
  subst h
  rfl

theorem good_u8 : Good decodeU8 := by
  constructor
  · intro bs a rest h
    cases bs with
    | nil => simp [decodeU8] at h
    | cons b r =>
      simp only [decodeU8, Except.ok.injEq, Prod.mk.injEq] at h
      obtain ⟨rfl, rfl⟩ := h
      exact ⟨[b], rfl, fun _ => rfl⟩
  · intro bs e h he
    cases bs with
    | nil => simp [decodeU8] at h; exact absurd h.symm he
    | cons b r => simp [decodeU8] at h

theorem rt_items {α} {enc : α → Enc} {dec : Dec α} (h : RoundTrips enc dec) (xs : List α)
    (bs rest : Bytes) (hw : wire (encodeItems enc xs) = .ok bs) :
    decodeN dec xs.length (bs ++ rest) = .ok (xs, rest) := by
  induction xs generalizing bs with
  | nil =>
    simp [encodeItems, wire] at hw
    subst hw
    rfl
  | cons x xs ih =>
    obtain ⟨b1, b2, h1, h2, rfl⟩ := wire_seq_ok.1 hw
    rw [List.append_assoc]
    simp only [List.length_cons, decodeN]
    rw [Dec.bind_ok (h x b1 _ h1), Dec.bind_ok (ih b2 h2)]
    rfl

theorem rt_vec {α} {enc : α → Enc} {dec : Dec α} (h : RoundTrips enc dec) :
    RoundTrips (encodeVec enc) (decodeVec dec) := by
  intro xs bs rest hw
  obtain ⟨b1, b2, h1, h2, rfl⟩ := wire_seq_ok.1 hw
  rw [List.append_assoc, decodeVec, Dec.bind'_eq, Dec.bind_ok (rt_u64 _ b1 _ h1)]
  exact rt_items h xs b2 rest h2

theorem good_decodeN {α} {dec : Dec α} (h : Good dec) (n : Nat) : Good (decodeN dec n) := by
  induction n with
  | zero => exact good_pure _
  | succ n ih => exact good_bind h fun x => good_bind ih fun xs => good_pure _

theorem good_vec {α} {dec : Dec α} (h : Good dec) : Good (decodeVec dec) :=
  good_bind' good_u64 fun n => good_decodeN h n

theorem wire_items_u8 (bs : Bytes) : wire (encodeItems encodeU8 bs) = .ok bs := by
  induction bs with
  | nil => rfl
  | cons b bs ih =>
    rw [encodeItems, wire_seq_of (wire_u8 b) ih]
    rfl

theorem strFromUtf8_strBytes (s : String) : strFromUtf8 (strBytes s) = some s := by
  unfold strFromUtf8 strBytes String.fromUTF8?
  have : (⟨s.toByteArray.data.toList.toArray⟩ : ByteArray) = s.toByteArray := by simp
  rw [this, dif_pos s.isValidUTF8]
  rfl

theorem wire_string {s : String} {bs : Bytes} : wire (encodeString s) = .ok bs ↔
    wire (encodeVec encodeU8 (strBytes s)) = .ok bs := by
  unfold encodeString encodeVec
  rw [wire_seq_ok, wire_seq_ok, wire_items_u8]
  simp [wire, Put.bytes]

theorem rt_string : RoundTrips encodeString decodeString := by
  intro s bs rest hw
  rw [wire_string] at hw
  rw [decodeString, Dec.bind'_eq, Dec.bind_ok (rt_vec rt_u8 _ _ rest hw), strFromUtf8_strBytes]
  rfl

theorem good_string : Good decodeString := by
  refine good_bind' (good_vec good_u8) fun v => ?_
  split
  · exact good_pure' _
  · exact good_fail _

/-- `Vec::<u8>::decode` reads a length and that many bytes. -/
theorem decodeN_u8 (n : Nat) (r : Bytes) :
    decodeN decodeU8 n r =
      if r.length < n then .error .short else .ok (r.take n, r.drop n) := by
  induction n generalizing r with
  | zero => simp [decodeN]
  | succ n ih =>
    cases r with
    | nil => simp [decodeN, Dec.bind, decodeU8]
    | cons b r =>
      have : decodeU8 (b :: r) = .ok (b, r) := rfl
      rw [decodeN, Dec.bind_ok this]
      by_cases h : r.length < n
      · rw [Dec.bind_error (e := .short) (by rw [ih, if_pos h]), if_pos (by simp; omega)]
      · rw [Dec.bind_ok (a := r.take n) (r' := r.drop n) (by rw [ih, if_neg h]),
          if_neg (by simp; omega)]
        simp

/-- The two ways the code reads a length-prefixed byte string agree. -/
theorem decodeBytes_eq : decodeBytes = decodeVec decodeU8 := by
  have : takeBytes = decodeN decodeU8 := by
    funext n r
    rw [decodeN_u8, takeBytes]
  unfold decodeBytes decodeVec
  rw [this]

theorem wire_bytes {b bs : Bytes} : wire (encodeBytes b) = .ok bs ↔
    wire (encodeVec encodeU8 b) = .ok bs := by
  unfold encodeBytes encodeVec
  rw [wire_seq_ok, wire_seq_ok, wire_items_u8]
  simp [wire, Put.bytes]

theorem rt_bytes : RoundTrips encodeBytes decodeBytes := by
  intro b bs rest hw
  rw [decodeBytes_eq]
  exact rt_vec rt_u8 b bs rest (wire_bytes.1 hw)

theorem good_bytes : Good decodeBytes := by
  rw [decodeBytes_eq]; exact good_vec good_u8

theorem rt_i8 : RoundTripsOn (fun v => -128 ≤ v ∧ v ≤ 127) encodeI8 decodeI8 := by
  intro v bs rest hv hw
  have : wire (encodeI8 v) = .ok [UInt8.ofNat ((v + 128) % 256).toNat] := by
    simp [encodeI8, wire, Put.bytes, toBE]
  rw [this] at hw
  injection hw with hw
  subst hw
  simp only [List.cons_append, List.nil_append, decodeI8, Except.ok.injEq, Prod.mk.injEq, and_true]
  rw [UInt8.toNat_ofNat']
  omega

theorem good_i8 : Good decodeI8 := by
  constructor
  · intro bs a rest h
    cases bs with
    | nil => simp [decodeI8] at h
    | cons b r =>
      simp only [decodeI8, Except.ok.injEq, Prod.mk.injEq] at h
      obtain ⟨rfl, rfl⟩ := h
      exact ⟨[b], rfl, fun _ => rfl⟩
  · intro bs e h he
    cases bs with
    | nil => simp [decodeI8] at h; exact absurd h.symm he
    | cons b r => simp [decodeI8] at h

theorem good_u32 : Good decodeU32 := by
  refine good_bind' good_varint fun v => ?_
  split
  · exact good_pure' _
  · exact good_fail _

theorem good_duration : Good decodeDuration :=
  good_bind' good_u64 fun _ => good_pure' _

/-! ## Sizes -/

theorem Put.size_eq (p : Put) : p.size = p.bytes.length := by
  cases p <;> simp [Put.size, Put.bytes]

theorem sizer_eq (e : Enc) (bs : Bytes) (h : wire e = .ok bs) : sizer e = .ok bs.length := by
  cases e with
  | error p => simp [wire] at h
  | ok ps =>
    simp only [wire, Except.ok.injEq] at h
    subst h
    simp only [sizer, Except.ok.injEq]
    rw [List.length_flatMap]
    congr 1
    apply List.map_congr_left
    intro p _
    exact Put.size_eq p

/-! ## Sequences -/

theorem decodeCount_encodeAll {α} {P : α → Prop} {enc : α → Enc} {dec : Dec α}
    (h : RoundTripsOn P enc dec) (xs : List α) (hP : ∀ x ∈ xs, P x) (bs rest : Bytes)
    (hw : wire (encodeAll enc xs) = .ok bs) :
    decodeCount dec xs.length (bs ++ rest) = .ok (xs, rest) := by
  induction xs generalizing bs with
  | nil =>
    simp [encodeAll, wire] at hw
    subst hw
    rfl
  | cons x xs ih =>
    obtain ⟨b1, b2, h1, h2, rfl⟩ := wire_seq_ok.1 hw
    rw [List.append_assoc]
    simp only [List.length_cons, decodeCount, h x b1 _ (hP x (by simp)) h1]
    rw [ih (fun y hy => hP y (by simp [hy])) b2 h2]

end Verif.Coding
