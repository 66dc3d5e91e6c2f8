import Verif.Hang.CodecSpec

/-!
# Properties C62 to C66: codec strings
-/

set_option autoImplicit false

namespace Verif.Props.Codec

open Verif Verif.Hang

/-! ## VP9 -/

/-- C62: every VP9 configuration, formatted and parsed, is the same. -/
theorem c62_roundtrip (c : VP9) : VP9.parse c.format = .ok c := by
  have hflag : ∀ b : Bool, parseU8 ('0' :: decBool b) = .ok (if b then 1 else 0) := by
    decide +kernel
  have hdot : ∀ b : Bool, '.' ∉ '0' :: decBool b := by decide +kernel
  obtain ⟨p, l, b, cs, cp, tc, mc, fr⟩ := c
  by_cases h : (⟨p, l, b, cs, cp, tc, mc, fr⟩ : VP9) = ⟨p, l, b, 1, 1, 1, 1, false⟩
  · rw [h]
    have hf : VP9.format ⟨p, l, b, 1, 1, 1, 1, false⟩ =
        vp9Prefix ++ (dec2 p ++ '.' :: (dec2 l ++ '.' :: dec2 b)) := by
      simp [VP9.format]
    unfold VP9.parse
    rw [hf, stripPrefix_append]
    simp only [split_append (noDot_dec2 _), split_noSep (noDot_dec2 _), parseAll, parseU8_dec2]
  · have hf : VP9.format ⟨p, l, b, cs, cp, tc, mc, fr⟩ =
        vp9Prefix ++ (dec2 p ++ '.' :: (dec2 l ++ '.' :: (dec2 b ++ '.' :: (dec2 cs ++ '.' ::
          (dec2 cp ++ '.' :: (dec2 tc ++ '.' :: (dec2 mc ++ '.' :: '0' :: decBool fr))))))) := by
      unfold VP9.format
      simp only
      rw [if_neg h]
      simp
    unfold VP9.parse
    rw [hf, stripPrefix_append]
    simp only [split_append (noDot_dec2 _), split_noSep (hdot _), parseAll, parseU8_dec2, hflag]
    cases fr <;> rfl

/-- What a VP9 string denotes: three or eight numerals after the prefix. -/
inductive VP9Denotes : List UInt8 → VP9 → Prop
  | short {p l b : UInt8} :
      VP9Denotes [p, l, b] ⟨p, l, b, 1, 1, 1, 1, false⟩
  | long {p l b cs cp tc mc fr : UInt8} :
      VP9Denotes [p, l, b, cs, cp, tc, mc, fr] ⟨p, l, b, cs, cp, tc, mc, fr == 1⟩

/-- C62: exactly the short and the long forms are accepted, with the values of their fields. -/
theorem c62_accepted (s : Text) (c : VP9) :
    VP9.parse s = .ok c ↔
      ∃ rest fields values, s = "vp09.".toList ++ rest ∧ Fields '.' rest fields ∧
        Numerals fields values ∧ VP9Denotes values c := by
  constructor
  · intro h
    unfold VP9.parse at h
    cases hp : stripPrefix vp9Prefix s with
    | none => simp [hp] at h
    | some rest =>
      simp only [hp] at h
      cases hv : parseAll (split '.' rest) with
      | error e => simp [hv] at h
      | ok values =>
        simp only [hv] at h
        refine ⟨rest, split '.' rest, values, stripPrefix_iff.1 hp, split_iff.1 rfl,
          parseAll_iff.1 hv, ?_⟩
        split at h
        · cases h; exact .short
        · cases h; exact .long
        · cases h
  · rintro ⟨rest, fields, values, rfl, hf, hv, hd⟩
    unfold VP9.parse
    rw [show "vp09.".toList = vp9Prefix from rfl, stripPrefix_append]
    simp only [split_iff.2 hf, parseAll_iff.2 hv]
    cases hd <;> rfl

/-- Two VP9 configurations with the same string are the same. -/
theorem c62_injective {c d : VP9} (h : c.format = d.format) : c = d := by
  have h1 := c62_roundtrip c
  rw [h, c62_roundtrip d] at h1
  cases h1; rfl

example : VP9.parse "vp09.02.10.10.01.09.16.09.01".toList =
    .ok ⟨2, 10, 10, 1, 9, 16, 9, true⟩ := by decide +kernel
example : VP9.format ⟨0, 41, 8, 1, 1, 1, 1, false⟩ = "vp09.00.41.08".toList := by decide +kernel
example : VP9.parse "vp09.00.41.08.01".toList = .error .invalidCodec := by decide +kernel
example : VP9.parse "vp09.00.256.08".toList = .error .expectedInt := by decide +kernel

/-! ## AAC and audio -/

/-- C66: every AAC profile, formatted and parsed, is the same. -/
theorem c66_aac (c : AAC) : AAC.parse c.format = .ok c := by
  unfold AAC.parse AAC.format
  rw [stripPrefix_append]
  simp [parseU8_dec, Except.map]

/-- C66: an audio codec survives formatting and parsing exactly unless it is an "unknown" codec
whose text is that of a known one. -/
theorem c66_audio_partial (c : AudioCodec) :
    AudioCodec.parse c.format = .ok c ↔
      ∀ s, c = .unknown s → s ≠ "opus".toList ∧ ¬ "mp4a.40.".toList <+: s := by
  cases c with
  | aac c =>
    simp only [reduceCtorEq, false_implies, implies_true, iff_true]
    unfold AudioCodec.parse AudioCodec.format
    rw [if_pos (by simp [AAC.format, List.isPrefixOf_iff_prefix]), c66_aac]
    rfl
  | opus =>
    simp only [reduceCtorEq, false_implies, implies_true, iff_true]
    rfl
  | unknown s =>
    simp only [AudioCodec.unknown.injEq, forall_eq']
    unfold AudioCodec.parse AudioCodec.format
    by_cases h1 : aacPrefix.isPrefixOf s
    · rw [if_pos h1]
      rw [List.isPrefixOf_iff_prefix] at h1
      constructor
      · intro h
        cases hs : AAC.parse s <;> simp [hs, Except.map] at h
      · rintro ⟨_, h⟩
        exact absurd h1 h
    · rw [if_neg h1]
      rw [List.isPrefixOf_iff_prefix] at h1
      by_cases h2 : s = opusName
      · rw [if_pos h2]
        simp only [Except.ok.injEq, reduceCtorEq, false_iff, not_and]
        intro h
        exact absurd h2 h
      · rw [if_neg h2]
        simp only [true_iff]
        exact ⟨h2, h1⟩

/-- C66: a string that is parsed as an unknown audio codec is preserved verbatim. -/
theorem c66_audio_unknown {s t : Text} (h : AudioCodec.parse s = .ok (.unknown t)) : t = s := by
  unfold AudioCodec.parse at h
  split at h
  · cases hs : AAC.parse s <;> simp [hs, Except.map] at h
  · split at h
    · cases h
    · cases h; rfl

/-- The exception of C66: an unknown codec named "opus" comes back as Opus. -/
theorem c66_audio_renamed :
    AudioCodec.parse (AudioCodec.unknown "opus".toList).format = .ok .opus := by rfl

example : AudioCodec.parse "mp4a.40.2".toList = .ok (.aac ⟨2⟩) := by decide +kernel
example : AudioCodec.parse "flac".toList = .ok (.unknown "flac".toList) := by decide +kernel

/-! ## H.264 -/

theorem digit_size : ∀ n : Nat, n < 16 → (digit n).utf8Size = 1 := by
  have h : ∀ n : Fin 16, (digit n.1).utf8Size = 1 := by decide +kernel
  intro n hn
  exact h ⟨n, hn⟩

theorem digit_dot : ∀ n : Nat, n < 16 → '.' ≠ digit n := by
  have h : ∀ n : Fin 16, '.' ≠ digit n.1 := by decide +kernel
  intro n hn
  exact h ⟨n, hn⟩

/-- C64: every H.264 configuration, formatted and parsed, is the same. -/
theorem c64_roundtrip (c : H264) : H264.parse c.format = .ok c := by
  obtain ⟨p, k, l⟩ := c
  have hs : ∀ b : UInt8, (digit (b.toNat / 16)).utf8Size = 1 ∧ (digit (b.toNat % 16)).utf8Size = 1 := by
    intro b
    have := b.toNat_lt
    exact ⟨digit_size _ (by omega), digit_size _ (by omega)⟩
  have hd : ∀ b : UInt8, '.' ≠ digit (b.toNat / 16) ∧ '.' ≠ digit (b.toNat % 16) := by
    intro b
    have := b.toNat_lt
    exact ⟨digit_dot _ (by omega), digit_dot _ (by omega)⟩
  have hh : ∀ b : UInt8, parseHex8 [digit (b.toNat / 16), digit (b.toNat % 16)] = .ok b :=
    parseHex8_hex2
  unfold H264.parse H264.format
  rw [show avc1 ++ '.' :: hex2 p ++ hex2 k ++ hex2 l = avc1 ++ '.' :: (hex2 p ++ hex2 k ++ hex2 l) by
    simp, split_append (by decide), split_noSep (by
      simp [hex2, hd])]
  simp [hex2, byteLen, hs, hexSlice, slice, dropBytes, takeBytes, hh]

/-- C64, in part: parsing a string of ASCII characters does not panic. -/
theorem c64_no_panic_partial (s : Text) (h : ∀ c ∈ s, c.toNat < 128) : H264.parse s ≠ .panic := by
  have hsize : ∀ c : Char, c.toNat < 128 → c.utf8Size = 1 := by
    intro c hc
    have hv : c.val ≤ 0x7f := by
      rw [UInt32.le_iff_toNat_le]
      have : c.val.toNat = c.toNat := rfl
      rw [this]
      show c.toNat ≤ 127
      omega
    simp [Char.utf8Size, hv]
  have hdrop : ∀ (t : Text) n, (∀ c ∈ t, c.utf8Size = 1) → n ≤ t.length →
      dropBytes t n = some (t.drop n) := by
    intro t
    induction t with
    | nil => intro n _ hn; simp only [List.length_nil, Nat.le_zero] at hn; subst hn; rfl
    | cons c cs ih =>
      intro n hc hn
      cases n with
      | zero => rfl
      | succ n =>
        simp only [List.length_cons, Nat.add_le_add_iff_right] at hn
        simp [dropBytes, hc c (by simp), ih n (fun x hx => hc x (by simp [hx])) hn]
  have htake : ∀ (t : Text) n, (∀ c ∈ t, c.utf8Size = 1) → n ≤ t.length →
      takeBytes t n = some (t.take n) := by
    intro t
    induction t with
    | nil => intro n _ hn; simp only [List.length_nil, Nat.le_zero] at hn; subst hn; rfl
    | cons c cs ih =>
      intro n hc hn
      cases n with
      | zero => rfl
      | succ n =>
        simp only [List.length_cons, Nat.add_le_add_iff_right] at hn
        simp [takeBytes, hc c (by simp), ih n (fun x hx => hc x (by simp [hx])) hn]
  have hlen : ∀ t : Text, (∀ c ∈ t, c.utf8Size = 1) → byteLen t = t.length := by
    intro t
    induction t with
    | nil => intro _; rfl
    | cons c cs ih =>
      intro hc
      have := ih (fun x hx => hc x (by simp [hx]))
      simp only [byteLen, List.map_cons, List.sum_cons, List.length_cons] at this ⊢
      rw [this, hc c (by simp)]
      omega
  have hmem : ∀ {s : Text} {ps : List Text}, Fields '.' s ps → ∀ p ∈ ps, ∀ c ∈ p, c ∈ s := by
    intro s ps hf
    induction hf with
    | one _ => intro p hp c hc; simp only [List.mem_singleton] at hp; subst hp; exact hc
    | more _ _ ih =>
      intro p hp c hc
      rcases List.mem_cons.1 hp with rfl | hp
      · simp [hc]
      · simp [ih p hp c hc]
  unfold H264.parse
  split
  · rename_i name part rest hsp
    split
    · simp
    · split
      · simp
      · rename_i hb
        have hp : ∀ c ∈ part, c.utf8Size = 1 := fun c hc =>
          hsize c (h c (hmem (split_iff.1 hsp) part (by simp) c hc))
        rw [hlen part hp] at hb
        have hl : part.length = 6 := by
          by_cases h6 : part.length = 6
          · exact h6
          · exact absurd h6 hb
        have hslice : ∀ a b : Nat, a ≤ b → b ≤ 6 → ∃ t, slice part a b = some t := by
          intro a b hab hb
          unfold slice
          rw [hdrop part a hp (by omega)]
          exact ⟨_, htake _ _ (fun c hc => hp c (List.mem_of_mem_drop hc)) (by
            rw [List.length_drop]; omega)⟩
        obtain ⟨t1, h1⟩ := hslice 0 2 (by omega) (by omega)
        obtain ⟨t2, h2⟩ := hslice 2 4 (by omega) (by omega)
        obtain ⟨t3, h3⟩ := hslice 4 6 (by omega) (by omega)
        unfold hexSlice
        simp only [h1, h2, h3]
        (repeat' split) <;> simp
  · simp

/-- The violation of C64: a codec string with multi-byte characters of the right total length
panics. -/
theorem c64_panics : H264.parse "avc1.a€bb".toList = .panic := by decide +kernel

example : H264.parse "avc1.42c01e".toList = .ok ⟨0x42, 0xc0, 0x1e⟩ := by decide +kernel
/-- Signs are accepted in place of digits. -/
example : H264.parse "avc1.+a+b+c".toList = .ok ⟨10, 11, 12⟩ := by decide +kernel

/-! ## AV1 -/

/-- The configurations whose fields fit the format: two decimal digits, profiles 0 and 1, sample
positions up to 3, and a letter or the like as the tier. -/
structure InRange (k : Classes) (c : AV1) : Prop where
  profile : c.profile.toNat ≤ 1
  level : c.level.toNat ≤ 99
  tier : k.word c.tier = true
  bitdepth : c.bitdepth.toNat ≤ 99
  position : c.chromaSamplePosition.toNat ≤ 3
  primaries : c.colorPrimaries.toNat ≤ 99
  transfer : c.transferCharacteristics.toNat ≤ 99
  matrix : c.matrixCoefficients.toNat ≤ 99

/-- The class of digits contains the ASCII digits. -/
def Classes.Ascii (k : Classes) : Prop := ∀ d < 10, k.digit (digit d) = true

theorem denotes_lt {radix : Nat} {s : Text} {n : Nat} (h : Denotes radix s n) :
    n < radix ^ s.length := by
  induction h with
  | nil => simp
  | @snoc s n c d _ hd ih =>
    rw [List.length_append, List.length_singleton, Nat.pow_succ]
    have := hd.1
    have h2 : (n + 1) * radix ≤ radix ^ s.length * radix := Nat.mul_le_mul_right _ ih
    rw [Nat.add_mul] at h2
    omega

theorem parseU8_le {s : Text} {b : UInt8} (h : parseU8 s = .ok b) (hl : s.length ≤ 2) :
    b.toNat ≤ 99 := by
  obtain ⟨ds, _, hs, hd, _⟩ := parseU8_iff.1 h
  have h1 : ds.length ≤ 2 := by
    rcases hs with rfl | rfl
    · exact hl
    · simp only [List.length_cons] at hl; omega
  have h2 := denotes_lt hd
  have h3 : 10 ^ ds.length ≤ 10 ^ 2 := Nat.pow_le_pow_right (by decide) h1
  omega

theorem fits_get {ps : List (Char → Bool)} {s : Text} (h : fits ps s = true) {i : Nat}
    {p : Char → Bool} (hp : ps[i]? = some p) : ∃ c, (s.drop i).take 1 = [c] ∧ p c = true := by
  induction ps generalizing s i with
  | nil => simp at hp
  | cons q qs ih =>
    cases s with
    | nil => simp [fits] at h
    | cons c cs =>
      simp only [fits, Bool.and_eq_true] at h
      cases i with
      | zero =>
        simp only [List.getElem?_cons_zero, Option.some.injEq] at hp
        subst hp
        exact ⟨c, by simp, h.1⟩
      | succ i =>
        simp only [List.getElem?_cons_succ] at hp
        exact ih h.2 hp

theorem take_le {s : Text} {i n : Nat} : ((s.drop i).take n).length ≤ n := by simp; omega

theorem dec2_of_lt {b : UInt8} (h : b.toNat ≤ 99) :
    dec2 b = [digit (b.toNat / 10), digit (b.toNat % 10)] := by
  have hall : ∀ n : Fin 100, dec2 (UInt8.ofNat n.1) =
      [digit ((UInt8.ofNat n.1).toNat / 10), digit ((UInt8.ofNat n.1).toNat % 10)] := by
    decide +kernel
  have := hall ⟨b.toNat, by omega⟩
  simpa using this

theorem dec_of_lt {b : UInt8} (h : b.toNat < 10) : dec b = [digit b.toNat] := by
  simp [dec, h]

/-- C63: parsing only yields configurations whose fields fit the format. -/
theorem c63_parsed_in_range {k : Classes} {s : Text} {c : AV1} (h : AV1.parse k s = .ok c) :
    InRange k c := by
  unfold AV1.parse at h
  simp only at h
  split at h
  · rename_i hfit
    have hfirst : ∀ i p, (av1Short k)[i]? = some p → ∃ c, (s.drop i).take 1 = [c] ∧ p c = true := by
      intro i p hp
      rcases Bool.or_eq_true_iff.1 hfit with h | h
      · exact fits_get h hp
      · refine fits_get h (i := i) ?_
        rw [List.getElem?_append_left]
        · exact hp
        · exact (List.getElem?_eq_some_iff.1 hp).1
    obtain ⟨cp, hcp, hbit⟩ := hfirst 5 bit rfl
    obtain ⟨ct, hct, hword⟩ := hfirst 9 k.word rfl
    have hprofile : ∀ b, parseU8 ((s.drop 5).take 1) = .ok b → b.toNat ≤ 1 := by
      intro b hb
      rw [hcp] at hb
      simp only [bit, Bool.or_eq_true, beq_iff_eq] at hbit
      rcases hbit with rfl | rfl
      · have : parseU8 ['0'] = .ok 0 := by decide +kernel
        rw [this] at hb; cases hb; decide
      · have : parseU8 ['1'] = .ok 1 := by decide +kernel
        rw [this] at hb; cases hb; decide
    split at h
    · rename_i profile level bitdepth h1 h2 h3
      split at h
      · cases h
        refine ⟨hprofile _ h1, parseU8_le h2 take_le, ?_, parseU8_le h3 take_le, ?_, ?_, ?_, ?_⟩
        · simp only [hct, List.headD_cons]; exact hword
        · exact (by decide : (0 : UInt8).toNat ≤ 3)
        · exact (by decide : (1 : UInt8).toNat ≤ 99)
        · exact (by decide : (1 : UInt8).toNat ≤ 99)
        · exact (by decide : (1 : UInt8).toNat ≤ 99)
      · rename_i hlong
        simp only [Bool.not_eq_true, Bool.not_eq_false'] at hlong
        obtain ⟨cq, hcq, hquad⟩ := fits_get (i := 18) hlong rfl
        have hpos : ∀ b, parseU8 ((s.drop 18).take 1) = .ok b → b.toNat ≤ 3 := by
          intro b hb
          rw [hcq] at hb
          simp only [quad, Bool.or_eq_true, beq_iff_eq] at hquad
          rcases hquad with ((rfl | rfl) | rfl) | rfl
          · have : parseU8 ['0'] = .ok 0 := by decide +kernel
            rw [this] at hb; cases hb; decide
          · have : parseU8 ['1'] = .ok 1 := by decide +kernel
            rw [this] at hb; cases hb; decide
          · have : parseU8 ['2'] = .ok 2 := by decide +kernel
            rw [this] at hb; cases hb; decide
          · have : parseU8 ['3'] = .ok 3 := by decide +kernel
            rw [this] at hb; cases hb; decide
        split at h
        · rename_i h4 h5 h6 h7
          cases h
          refine ⟨hprofile _ h1, parseU8_le h2 take_le, ?_, parseU8_le h3 take_le, hpos _ h4,
            parseU8_le h5 take_le, parseU8_le h6 take_le, parseU8_le h7 take_le⟩
          simp only [hct, List.headD_cons]; exact hword
        · cases h
    · cases h
  · cases h

/-- C63: an AV1 configuration, formatted and parsed, is the same exactly if its fields fit the
format. -/
theorem c63_roundtrip_partial {k : Classes} (hk : Classes.Ascii k) (c : AV1) :
    AV1.parse k c.format = .ok c ↔ InRange k c := by
  constructor
  · exact c63_parsed_in_range
  · intro h
    have hd : ∀ b : UInt8, b.toNat ≤ 99 →
        k.digit (digit (b.toNat / 10)) = true ∧ k.digit (digit (b.toNat % 10)) = true := by
      intro b hb
      exact ⟨hk _ (by omega), hk _ (by omega)⟩
    have hp : ∀ b : UInt8, b.toNat ≤ 99 →
        parseU8 [digit (b.toNat / 10), digit (b.toNat % 10)] = .ok b := by
      intro b hb
      rw [← dec2_of_lt hb]; exact parseU8_dec2 b
    have hbit : ∀ b : UInt8, b.toNat ≤ 1 → bit (digit b.toNat) = true := by
      intro b hb
      have : b.toNat = 0 ∨ b.toNat = 1 := by omega
      rcases this with h | h <;> rw [h] <;> decide
    have hquad : ∀ b : UInt8, b.toNat ≤ 3 → quad (digit b.toNat) = true := by
      intro b hb
      have : b.toNat = 0 ∨ b.toNat = 1 ∨ b.toNat = 2 ∨ b.toNat = 3 := by omega
      rcases this with h | h | h | h <;> rw [h] <;> decide
    have hone : ∀ b : UInt8, b.toNat < 10 → parseU8 [digit b.toNat] = .ok b := by
      intro b hb
      rw [← dec_of_lt hb]; exact parseU8_dec b
    have hb0 : k.digit '0' = true := hk 0 (by decide)
    have hb1 : k.digit '1' = true := hk 1 (by decide)
    obtain ⟨p, l, t, b, mo, x, y, po, cp, tc, mc, fr⟩ := c
    obtain ⟨h1, h2, h3, h4, h5, h6, h7, h8⟩ := h
    simp only at h1 h2 h3 h4 h5 h6 h7 h8
    have hhead : av1Prefix ++ dec p ++ '.' :: dec2 l ++ t :: '.' :: dec2 b =
        ['a', 'v', '0', '1', '.', digit p.toNat, '.', digit (l.toNat / 10), digit (l.toNat % 10), t,
          '.', digit (b.toNat / 10), digit (b.toNat % 10)] := by
      rw [dec_of_lt (by omega), dec2_of_lt h2, dec2_of_lt h4]; rfl
    by_cases hs : (⟨p, l, t, b, mo, x, y, po, cp, tc, mc, fr⟩ : AV1) =
        ⟨p, l, t, b, false, true, true, 0, 1, 1, 1, false⟩
    · have hf : AV1.format ⟨p, l, t, b, mo, x, y, po, cp, tc, mc, fr⟩ =
          ['a', 'v', '0', '1', '.', digit p.toNat, '.', digit (l.toNat / 10), digit (l.toNat % 10),
            t, '.', digit (b.toNat / 10), digit (b.toNat % 10)] := by
        unfold AV1.format
        simp only
        rw [if_pos hs, hhead]
      rw [hf, hs]
      simp [AV1.parse, av1Short, av1Extra, fits, lit, hbit _ h1, hd _ h2, h3, hd _ h4, hp _ h2,
        hp _ h4, hone p (by omega)]
    · have hf : AV1.format ⟨p, l, t, b, mo, x, y, po, cp, tc, mc, fr⟩ =
          ['a', 'v', '0', '1', '.', digit p.toNat, '.', digit (l.toNat / 10), digit (l.toNat % 10),
            t, '.', digit (b.toNat / 10), digit (b.toNat % 10), '.', if mo then '1' else '0', '.',
            if x then '1' else '0', if y then '1' else '0', digit po.toNat, '.',
            digit (cp.toNat / 10), digit (cp.toNat % 10), '.', digit (tc.toNat / 10),
            digit (tc.toNat % 10), '.', digit (mc.toNat / 10), digit (mc.toNat % 10), '.',
            if fr then '1' else '0'] := by
        unfold AV1.format
        simp only
        rw [if_neg hs, hhead, dec_of_lt (b := po) (by omega), dec2_of_lt h6, dec2_of_lt h7,
          dec2_of_lt h8]
        cases mo <;> cases x <;> cases y <;> cases fr <;> rfl
      rw [hf]
      have e1 : ∀ b : Bool, bit (if b then '1' else '0') = true := by decide
      have e2 : ∀ b : Bool, k.digit (if b then '1' else '0') = true := by
        intro b; cases b <;> simp [hb0, hb1]
      have e3 : ∀ b : Bool, ((if b then '1' else '0') == '1') = b := by decide
      simp [AV1.parse, av1Short, av1Extra, fits, lit, hbit _ h1, hd _ h2, h3, hd _ h4, hp _ h2,
        hp _ h4, hone p (by omega), e1, e2, hquad _ h5, hd _ h6, hd _ h7, hd _ h8, hp _ h6, hp _ h7,
        hp _ h8, hone po (by omega), e3]

/-- ASCII classes, to evaluate examples. -/
def ascii : Classes where
  digit c := c.isDigit
  word c := c.isAlphanum || c == '_'

theorem ascii_ascii : Classes.Ascii ascii := by
  intro d hd
  have h : ∀ d : Fin 10, ascii.digit (digit d.1) = true := by decide +kernel
  exact h ⟨d, hd⟩

/-- A violation of C63 within the standard: the professional profile (2) cannot be read back. -/
theorem c63_professional {k : Classes} :
    AV1.parse k (AV1.format { profile := 2, level := 4, tier := 'M', bitdepth := 10 }) ≠
      .ok { profile := 2, level := 4, tier := 'M', bitdepth := 10 } := by
  intro h
  have := (c63_parsed_in_range h).profile
  exact absurd this (by decide)

example : AV1.parse ascii "av01.0.04M.10.0.112.09.16.09.0".toList =
    .ok { profile := 0, level := 4, tier := 'M', bitdepth := 10, chromaSamplePosition := 2,
          colorPrimaries := 9, transferCharacteristics := 16, matrixCoefficients := 9 } := by
  decide +kernel
example : AV1.parse ascii "av01.0.01M.08".toList =
    .ok { profile := 0, level := 1, tier := 'M', bitdepth := 8 } := by decide +kernel
example : AV1.parse ascii "av01.2.01M.08".toList = .error .invalidCodec := by decide +kernel
example : InRange ascii ⟨1, 31, 'H', 12, true, true, true, 0, 1, 1, 1, false⟩ := by
  constructor <;> decide

/-! ## H.265 -/

/-- The configurations that survive: the profile space has a letter, some compatibility flag is
set and every byte below the highest non-zero one has two hexadecimal digits, and some constraint
flag is set. -/
structure Faithful (c : H265) : Prop where
  space : c.profileSpace.toNat ≤ 26
  compatibility : ∃ low top zeros, c.compatibility.toList = low ++ top :: List.replicate zeros 0 ∧
    top ≠ 0 ∧ ∀ b ∈ low, 16 ≤ b.toNat
  constraints : ∃ b ∈ c.constraints.toList, b ≠ 0

theorem profileOf_format (n idc : UInt8) :
    (n.toNat ≤ 26 → profileOf (spaceText n ++ dec idc) = .ok (n, idc)) ∧
    (26 < n.toNat → ∃ e, profileOf (spaceText n ++ dec idc) = .error e) := by
  have h0 : ∀ b : Fin 256, profileOf (dec (UInt8.ofNat b.1)) = .ok (0, UInt8.ofNat b.1) := by
    decide +kernel
  have h1 : ∀ b : Fin 256, b.1 ≠ 0 → b.1 ≤ 26 →
      spaceOf (Char.ofNat (min (65 + (UInt8.ofNat b.1).toNat) 255 - 1)) = UInt8.ofNat b.1 := by
    decide +kernel
  have h2 : ∀ b : Fin 256, 26 < b.1 →
      spaceOf (Char.ofNat (min (65 + (UInt8.ofNat b.1).toNat) 255 - 1)) = 0 ∧
      toDigit 10 (Char.ofNat (min (65 + (UInt8.ofNat b.1).toNat) 255 - 1)) = none ∧
      Char.ofNat (min (65 + (UInt8.ofNat b.1).toNat) 255 - 1) ≠ '+' := by
    decide +kernel
  constructor
  · intro hn
    by_cases hz : n = 0
    · subst hz
      have := h0 ⟨idc.toNat, idc.toNat_lt⟩
      simpa [spaceText] using this
    · have hnz : n.toNat ≠ 0 := by
        intro h; exact hz (UInt8.toNat_inj.1 (by simpa using h))
      have := h1 ⟨n.toNat, n.toNat_lt⟩ hnz hn
      simp only [UInt8.ofNat_toNat] at this
      simp [spaceText, hz, profileOf, this, parseU8_dec, Except.map]
  · intro hn
    have hz : n ≠ 0 := by rintro rfl; simp at hn
    obtain ⟨e1, e2, e3⟩ := h2 ⟨n.toNat, n.toNat_lt⟩ hn
    simp only [UInt8.ofNat_toNat] at e1 e2 e3
    refine ⟨.expectedInt, ?_⟩
    have hu : ∀ (c : Char) (cs : Text), c ≠ '+' → unsign (c :: cs) = c :: cs := by
      intro c cs hc
      unfold unsign
      split
      · rename_i h; cases h; exact absurd rfl hc
      · rfl
    simp [spaceText, hz, profileOf, e1, parseU8, parseInt, hu _ _ e3, parseDigits, digits, e2,
      Except.map]

/-- The number that the joined digits of some bytes denote, if bytes below 16 have one digit. -/
def joined (acc : Nat) : List UInt8 → Nat
  | [] => acc
  | b :: bs => joined (acc * (if b.toNat < 16 then 16 else 256) + b.toNat) bs

theorem hexUpper_value (b : UInt8) (acc : Nat) (s : Text) :
    value 16 acc (hexUpper b ++ s) =
      value 16 (acc * (if b.toNat < 16 then 16 else 256) + b.toNat) s := by
  have hd : ∀ n : Fin 16, toDigit 16 (digitUpper n.1) = some n.1 := by decide +kernel
  have hb := b.toNat_lt
  unfold hexUpper
  split
  · rename_i h
    simp [value, hd ⟨b.toNat, h⟩]
  · have e1 := hd ⟨b.toNat / 16, by omega⟩
    have e2 := hd ⟨b.toNat % 16, by omega⟩
    simp only at e1 e2
    simp only [List.cons_append, List.nil_append, value, e1, e2, Option.getD_some]
    congr 1
    omega

theorem hexUpper_digits (b : UInt8) : ∀ c ∈ hexUpper b, (toDigit 16 c).isSome := by
  have h : ∀ n : Fin 256, ∀ c ∈ hexUpper (UInt8.ofNat n.1), (toDigit 16 c).isSome := by
    decide +kernel
  have := h ⟨b.toNat, b.toNat_lt⟩
  simpa using this

theorem join_nil (ps : List Text) : join [] ps = ps.flatten := by
  induction ps with
  | nil => rfl
  | cons p ps ih =>
    cases ps with
    | nil => simp [join]
    | cons q qs => simp [join, ih]

theorem joined_value (bs : List UInt8) (acc : Nat) :
    value 16 acc (bs.map hexUpper).flatten = joined acc bs := by
  induction bs generalizing acc with
  | nil => rfl
  | cons b bs ih =>
    rw [List.map_cons, List.flatten_cons, hexUpper_value, ih]
    rfl

theorem joined_lt (bs : List UInt8) (acc k : Nat) (h : acc < k) :
    joined acc bs < k * 256 ^ bs.length := by
  induction bs generalizing acc k with
  | nil => simpa [joined] using h
  | cons b bs ih =>
    have hb := b.toNat_lt
    have := ih (acc * (if b.toNat < 16 then 16 else 256) + b.toNat) (k * 256) (by split <;> omega)
    rw [List.length_cons, Nat.pow_succ, Nat.mul_comm (256 ^ _), ← Nat.mul_assoc]
    exact this

/-- Parsing the joined bytes gives the number they denote. -/
theorem parse_joined {bs : List UInt8} (hne : bs ≠ []) (hl : bs.length ≤ 4) :
    parseInt 16 4294967296 (join [] (bs.map hexUpper)) = .ok (joined 0 bs) := by
  rw [parseInt_iff (by decide) (by decide) (by decide), join_nil]
  refine ⟨_, ?_, Or.inl rfl, (denotes_iff (by decide)).2 ⟨?_, joined_value bs 0⟩, ?_⟩
  · cases bs with
    | nil => exact absurd rfl hne
    | cons b bs =>
      simp only [List.map_cons, List.flatten_cons]
      unfold hexUpper
      split <;> simp
  · intro c hc
    simp only [List.mem_flatten, List.mem_map] at hc
    obtain ⟨_, ⟨b, _, rfl⟩, hc⟩ := hc
    exact hexUpper_digits b c hc
  · have h1 := joined_lt bs 0 1 (by decide)
    have h2 : 256 ^ bs.length ≤ 256 ^ 4 := Nat.pow_le_pow_right (by decide) hl
    omega

theorem toLeBytes_iff {n : Nat} (hn : n < 4294967296) (a b c d : UInt8) :
    toLeBytes n = #v[a, b, c, d] ↔
      n = a.toNat + 256 * b.toNat + 65536 * c.toNat + 16777216 * d.toNat := by
  have ha := a.toNat_lt
  have hb := b.toNat_lt
  have hc := c.toNat_lt
  have hd := d.toNat_lt
  unfold toLeBytes
  have hv : ∀ w x y z : UInt8, (#v[w, x, y, z] = #v[a, b, c, d]) ↔ w = a ∧ x = b ∧ y = c ∧ z = d := by
    intro w x y z
    constructor
    · intro h
      have := congrArg Vector.toList h
      simpa using this
    · rintro ⟨rfl, rfl, rfl, rfl⟩; rfl
  rw [hv]
  simp only [← UInt8.toNat_inj, UInt8.toNat_ofNat']
  omega

/-- The compatibility flags survive exactly under the condition of `Faithful`. -/
theorem compat_roundtrip (v : Vector UInt8 4) :
    (∃ n, parseInt 16 4294967296 (join [] ((v.toList.reverse.dropWhile (· == 0)).map hexUpper)) =
        .ok n ∧ toLeBytes n = v) ↔
      ∃ low top zeros, v.toList = low ++ top :: List.replicate zeros 0 ∧ top ≠ 0 ∧
        ∀ b ∈ low, 16 ≤ b.toNat := by
  obtain ⟨⟨l⟩, hl⟩ := v
  obtain ⟨a, b, c, d, rfl⟩ : ∃ a b c d, l = [a, b, c, d] := by
    match l, hl with
    | [a, b, c, d], _ => exact ⟨a, b, c, d, rfl⟩
  have hz : ∀ x : UInt8, x ≠ 0 ↔ 0 < x.toNat := by
    intro x
    rw [Ne, ← UInt8.toNat_inj]
    simp only [UInt8.toNat_zero]
    omega
  have hcond : ∀ (bs : List UInt8), bs ≠ [] → bs.length ≤ 4 →
      (bs = [a, b, c, d].reverse.dropWhile (· == 0)) →
      ((∃ n, parseInt 16 4294967296 (join [] (bs.map hexUpper)) = .ok n ∧
          toLeBytes n = #v[a, b, c, d]) ↔
        joined 0 bs = a.toNat + 256 * b.toNat + 65536 * c.toNat + 16777216 * d.toNat) := by
    intro bs hne hlen _
    rw [parse_joined hne hlen]
    have h1 := joined_lt bs 0 1 (by decide)
    have h2 : 256 ^ bs.length ≤ 256 ^ 4 := Nat.pow_le_pow_right (by decide) hlen
    constructor
    · rintro ⟨n, hn, h⟩
      simp only [Except.ok.injEq] at hn
      subst hn
      exact (toLeBytes_iff (by omega) a b c d).1 h
    · intro h
      exact ⟨_, rfl, (toLeBytes_iff (by omega) a b c d).2 h⟩
  have hspec : (∃ low top zeros, [a, b, c, d] = low ++ top :: List.replicate zeros 0 ∧ top ≠ 0 ∧
        ∀ b ∈ low, 16 ≤ b.toNat) ↔
      (d ≠ 0 ∧ 16 ≤ a.toNat ∧ 16 ≤ b.toNat ∧ 16 ≤ c.toNat) ∨
      (d = 0 ∧ c ≠ 0 ∧ 16 ≤ a.toNat ∧ 16 ≤ b.toNat) ∨
      (d = 0 ∧ c = 0 ∧ b ≠ 0 ∧ 16 ≤ a.toNat) ∨ (d = 0 ∧ c = 0 ∧ b = 0 ∧ a ≠ 0) := by
    constructor
    · rintro ⟨low, top, zeros, h, ht, hlow⟩
      have hlen := congrArg List.length h
      simp only [List.length_cons, List.length_nil, List.length_append, List.length_replicate] at hlen
      match low, zeros, hlen with
      | [], 3, _ =>
        simp [List.replicate] at h
        obtain ⟨rfl, rfl, rfl, rfl⟩ := h
        simp [ht]
      | [w], 2, _ =>
        simp [List.replicate] at h
        obtain ⟨rfl, rfl, rfl, rfl⟩ := h
        have := hlow a (by simp)
        simp [ht, this]
      | [w, x], 1, _ =>
        simp [List.replicate] at h
        obtain ⟨rfl, rfl, rfl, rfl⟩ := h
        have h1 := hlow a (by simp)
        have h2 := hlow b (by simp)
        simp [ht, h1, h2]
      | [w, x, y], 0, _ =>
        simp [List.replicate] at h
        obtain ⟨rfl, rfl, rfl, rfl⟩ := h
        have h1 := hlow a (by simp)
        have h2 := hlow b (by simp)
        have h3 := hlow c (by simp)
        simp [ht, h1, h2, h3]
      | _ :: _ :: _ :: _ :: _, _, hlen =>
        simp only [List.length_cons] at hlen
        omega
    · rintro (⟨h1, h2, h3, h4⟩ | ⟨rfl, h1, h2, h3⟩ | ⟨rfl, rfl, h1, h2⟩ | ⟨rfl, rfl, rfl, h1⟩)
      · exact ⟨[a, b, c], d, 0, rfl, h1, by simp [h2, h3, h4]⟩
      · exact ⟨[a, b], c, 1, rfl, h1, by simp [h2, h3]⟩
      · exact ⟨[a], b, 2, rfl, h1, by simp [h2]⟩
      · exact ⟨[], a, 3, rfl, h1, by simp⟩
  show (∃ n, parseInt 16 4294967296 (join [] (([a, b, c, d].reverse.dropWhile (· == 0)).map hexUpper)) =
        .ok n ∧ toLeBytes n = #v[a, b, c, d]) ↔ ∃ low top zeros, [a, b, c, d] = low ++ top :: List.replicate zeros 0 ∧ top ≠ 0 ∧
        ∀ b ∈ low, 16 ≤ b.toNat
  rw [hspec]
  have ha := a.toNat_lt
  have hb := b.toNat_lt
  have hc := c.toNat_lt
  have hd := d.toNat_lt
  by_cases d0 : d = 0
  · by_cases c0 : c = 0
    · by_cases b0 : b = 0
      · by_cases a0 : a = 0
        · subst d0 c0 b0 a0
          simp [join, parseInt, unsign, parseDigits]
        · have e : [a, b, c, d].reverse.dropWhile (· == 0) = [a] := by simp [d0, c0, b0, a0]
          rw [e, hcond [a] (by simp) (by simp) e.symm]
          subst d0 c0 b0
          simp [joined, a0]
      · have e : [a, b, c, d].reverse.dropWhile (· == 0) = [b, a] := by simp [d0, c0, b0]
        rw [e, hcond [b, a] (by simp) (by simp) e.symm]
        subst d0 c0
        have := (hz b).1 b0
        simp only [joined, ne_eq, not_true_eq_false, false_and, true_and, b0, not_false_eq_true,
          false_or, or_false, UInt8.toNat_zero]
        split <;> split <;> omega
    · have e : [a, b, c, d].reverse.dropWhile (· == 0) = [c, b, a] := by simp [d0, c0]
      rw [e, hcond [c, b, a] (by simp) (by simp) e.symm]
      subst d0
      have := (hz c).1 c0
      simp only [joined, ne_eq, not_true_eq_false, false_and, true_and, c0, not_false_eq_true,
        false_or, or_false, UInt8.toNat_zero]
      split <;> split <;> split <;> omega
  · have e : [a, b, c, d].reverse.dropWhile (· == 0) = [d, c, b, a] := by simp [d0]
    rw [e, hcond [d, c, b, a] (by simp) (by simp) e.symm]
    have := (hz d).1 d0
    simp only [joined, ne_eq, false_and, true_and, d0, not_false_eq_true, or_false]
    split <;> split <;> split <;> split <;> omega

/-- A list ends with as many zeros as a search from its end finds. -/
theorem take_skip (l : List UInt8) :
    l = l.take (l.reverse.dropWhile (· == 0)).length ++
      List.replicate (l.length - (l.reverse.dropWhile (· == 0)).length) 0 := by
  have h1 : l.reverse = l.reverse.takeWhile (· == 0) ++ l.reverse.dropWhile (· == 0) :=
    List.takeWhile_append_dropWhile.symm
  have h2 : l.reverse.takeWhile (· == 0) =
      List.replicate (l.reverse.takeWhile (· == 0)).length 0 := by
    rw [List.eq_replicate_iff]
    refine ⟨rfl, fun b hb => ?_⟩
    have := List.all_takeWhile (p := (· == (0 : UInt8))) (l := l.reverse)
    rw [List.all_eq_true] at this
    simpa using this b hb
  generalize hw : l.reverse.takeWhile (· == 0) = w at h1 h2
  generalize hx : l.reverse.dropWhile (· == 0) = x at h1
  have h3 : l = x.reverse ++ w.reverse := by
    rw [← List.reverse_append, ← h1, List.reverse_reverse]
  have h4 : l.length - x.length = w.length := by rw [h3]; simp
  have h5 : l.take x.length = x.reverse := by
    rw [h3, List.take_append_of_le_length (by simp), List.take_of_length_le (by simp)]
  rw [h4, h5]
  conv => lhs; rw [h3, h2]
  simp

theorem split_join {bs : List UInt8} (h : bs ≠ []) :
    split '.' (join ['.'] (bs.map hexUpper)) = bs.map hexUpper := by
  induction bs with
  | nil => exact absurd rfl h
  | cons b bs ih =>
    cases bs with
    | nil => exact split_noSep (noDot_hexUpper b)
    | cons c cs =>
      have := ih (by simp)
      simp only [List.map_cons, join] at this ⊢
      rw [List.append_assoc, List.singleton_append, split_append (noDot_hexUpper b), this]

theorem constraintsFrom_hex (bs : List UInt8) (i : Nat) (acc : Vector UInt8 6)
    (h : i + bs.length ≤ 6) :
    ∃ v, constraintsFrom i acc (bs.map hexUpper) = .ok v ∧
      v.toList = acc.toList.take i ++ bs ++ acc.toList.drop (i + bs.length) := by
  induction bs generalizing i acc with
  | nil => exact ⟨acc, rfl, by simp⟩
  | cons b bs ih =>
    simp only [List.length_cons] at h
    have hi : i < 6 := by omega
    simp only [List.map_cons, constraintsFrom, dif_pos hi, parseHex8_hexUpper]
    obtain ⟨v, hv, e⟩ := ih (i + 1) (acc.set i b hi) (by omega)
    refine ⟨v, hv, ?_⟩
    have hlen : acc.toList.length = 6 := by simp
    rw [e, Vector.toList_set]
    rw [List.take_set, List.drop_set_of_lt (by omega)]
    rw [List.take_add_one, List.getElem?_eq_getElem (by omega)]
    rw [List.set_append_right _ _ (by rw [List.length_take]; omega)]
    simp only [List.length_take, hlen, Nat.min_eq_left (Nat.le_of_lt hi), Nat.sub_self]
    simp [Nat.add_comm, Nat.add_left_comm]

/-- The constraint flags survive exactly if some flag is set. -/
theorem constraints_roundtrip (v : Vector UInt8 6) :
    constraintsFrom 0 (Vector.replicate 6 0) (split '.' (join ['.']
        ((v.toList.take (v.toList.reverse.dropWhile (· == 0)).length).map hexUpper))) = .ok v ↔
      ∃ b ∈ v.toList, b ≠ 0 := by
  have hlen : v.toList.length = 6 := by simp
  have hskip := take_skip v.toList
  generalize hk : (v.toList.reverse.dropWhile (· == 0)).length = k at hskip ⊢
  have hk6 : k ≤ 6 := by
    rw [← hk]
    have := (List.dropWhile_sublist (fun b : UInt8 => b == 0) (l := v.toList.reverse)).length_le
    simpa using this
  by_cases hne : v.toList.take k = []
  · rw [hne] at hskip ⊢
    simp only [List.map_nil, join, split]
    have : constraintsFrom 0 (Vector.replicate 6 0) [[]] = .error .expectedInt := by decide +kernel
    rw [this]
    simp only [reduceCtorEq, false_iff]
    rintro ⟨b, hb, h0⟩
    rw [hskip] at hb
    simp only [List.nil_append] at hb
    exact h0 (List.eq_of_mem_replicate hb)
  · rw [split_join hne]
    have hl : (v.toList.take k).length = k := by rw [List.length_take]; omega
    obtain ⟨w, hw, e⟩ := constraintsFrom_hex (v.toList.take k) 0 (Vector.replicate 6 0) (by omega)
    rw [hw]
    have heq : w = v := by
      rw [← Vector.toList_inj, e, hl]
      conv => rhs; rw [hskip, hlen]
      have : (Vector.replicate 6 (0 : UInt8)).toList = List.replicate 6 0 := rfl
      rw [this, Nat.zero_add, List.drop_replicate]
      simp
    rw [heq]
    simp only [true_iff]
    apply Classical.byContradiction
    intro hall
    have hzero : ∀ b ∈ v.toList, b = 0 := by
      intro b hb
      apply Classical.byContradiction
      intro h
      exact hall ⟨b, hb, h⟩
    have : v.toList.reverse.dropWhile (· == 0) = [] := by
      have hd : ∀ l : List UInt8, (∀ b ∈ l, b = 0) → l.dropWhile (· == 0) = [] := by
        intro l
        induction l with
        | nil => intro _; rfl
        | cons x xs ih =>
          intro hx
          rw [List.dropWhile_cons, hx x (by simp)]
          exact ih fun b hb => hx b (by simp [hb])
      exact hd _ fun b hb => hzero b (List.mem_reverse.1 hb)
    rw [this] at hk
    simp only [List.length_nil] at hk
    rw [← hk] at hne
    exact hne (by simp)

theorem noDot_space (n : UInt8) : '.' ∉ spaceText n := by
  have h : ∀ n : Fin 256, '.' ∉ spaceText (UInt8.ofNat n.1) := by decide +kernel
  have := h ⟨n.toNat, n.toNat_lt⟩
  simpa using this

theorem noDot_compat (bs : List UInt8) : '.' ∉ join [] (bs.map hexUpper) := by
  rw [join_nil]
  simp only [List.mem_flatten, List.mem_map, not_exists, not_and]
  rintro _ ⟨b, _, rfl⟩
  exact noDot_hexUpper b

/-- C65: an H.265 configuration, formatted and parsed, is the same exactly if it is `Faithful`. -/
theorem c65_roundtrip_partial (c : H265) : H265.parse c.format = .ok c ↔ Faithful c := by
  obtain ⟨ib, sp, idc, cf, tf, lv, cn⟩ := c
  have hname : ∀ b, '.' ∉ h265Name b := by decide
  have hin : ∀ b, inBandOf (h265Name b) = some b := by decide
  have htier : ∀ (b : Bool) rest, tierOf ((if b then ['H'] else ['L']) ++ rest) = some (b, rest) := by
    intro b rest; cases b <;> rfl
  have hprof : '.' ∉ spaceText sp ++ dec idc := by
    simp [noDot_space sp, noDot_dec idc]
  have hlev : '.' ∉ (if tf then ['H'] else ['L']) ++ dec lv := by
    cases tf <;> simp [noDot_dec lv]
  have hf : H265.format ⟨ib, sp, idc, cf, tf, lv, cn⟩ =
      h265Name ib ++ '.' :: ((spaceText sp ++ dec idc) ++ '.' ::
        (join [] ((cf.toList.reverse.dropWhile (· == 0)).map hexUpper) ++ '.' ::
          (((if tf then ['H'] else ['L']) ++ dec lv) ++ '.' ::
            join ['.'] ((cn.toList.take (cn.toList.reverse.dropWhile (· == 0)).length).map hexUpper)))) := by
    simp [H265.format]
  unfold H265.parse
  rw [hf, split_append (hname ib), split_append hprof, split_append (noDot_compat _),
    split_append hlev]
  simp only [hin, htier, parseU8_dec]
  constructor
  · intro h
    by_cases hs : sp.toNat ≤ 26
    · rw [(profileOf_format sp idc).1 hs] at h
      simp only at h
      cases hp : parseInt 16 4294967296
          (join [] ((cf.toList.reverse.dropWhile (· == 0)).map hexUpper)) with
      | error e => simp [hp] at h
      | ok n =>
        simp only [hp] at h
        cases hc : constraintsFrom 0 (Vector.replicate 6 0) (split '.' (join ['.']
          ((cn.toList.take (cn.toList.reverse.dropWhile (· == 0)).length).map hexUpper))) with
        | error e => rw [hc] at h; cases h
        | ok w =>
          rw [hc] at h
          simp only [Except.ok.injEq, H265.mk.injEq, true_and] at h
          obtain ⟨h1, h2⟩ := h
          rw [h2] at hc
          exact ⟨hs, (compat_roundtrip cf).1 ⟨n, hp, h1⟩, (constraints_roundtrip cn).1 hc⟩
    · obtain ⟨e, he⟩ := (profileOf_format sp idc).2 (by omega)
      rw [he] at h
      simp at h
  · rintro ⟨h1, h2, h3⟩
    simp only at h1 h2 h3
    obtain ⟨n, hn, e⟩ := (compat_roundtrip cf).2 h2
    rw [(profileOf_format sp idc).1 h1, hn, (constraints_roundtrip cn).2 h3]
    simp [e]

/-- A configuration as the importer builds it, with flags that have a leading zero digit. -/
def h265Example : H265 :=
  ⟨true, 0, 1, #v[0x60, 0x06, 0x01, 0], false, 93, #v[0xB0, 0, 0, 0, 0, 0]⟩

/-- A violation of C65: these flags come back as different ones. -/
theorem c65_flags_changed :
    H265.parse h265Example.format =
      .ok ⟨true, 0, 1, #v[0x60, 0x16, 0, 0], false, 93, #v[0xB0, 0, 0, 0, 0, 0]⟩ := by
  decide +kernel

/-- A violation of C65: without constraint flags, the string is refused. -/
theorem c65_no_constraints :
    H265.parse (H265.format ⟨true, 0, 1, #v[6, 0, 0, 0], false, 93, #v[0, 0, 0, 0, 0, 0]⟩) =
      .error .expectedInt := by
  decide +kernel

/-- A violation of C65: two configurations share a string. -/
theorem c65_ambiguous :
    H265.format ⟨true, 0, 1, #v[1, 1, 0, 0], false, 93, #v[0xB0, 0, 0, 0, 0, 0]⟩ =
      H265.format ⟨true, 0, 1, #v[0x11, 0, 0, 0], false, 93, #v[0xB0, 0, 0, 0, 0, 0]⟩ := by
  decide +kernel

example : H265.parse "hev1.A4.41.H120.B0.23".toList =
    .ok ⟨true, 1, 4, #v[0x41, 0, 0, 0], true, 120, #v[0xB0, 0x23, 0, 0, 0, 0]⟩ := by decide +kernel
example : Faithful ⟨true, 1, 4, #v[0x41, 0x20, 0, 0], true, 120, #v[0xB0, 0x23, 0, 0, 0, 0]⟩ :=
  ⟨by decide, ⟨[0x41], 0x20, 2, rfl, by decide, by decide⟩, ⟨0xB0, by decide, by decide⟩⟩

/-! ## The dispatch over video codecs -/

/-- The texts that the dispatch does not treat as an unknown codec. -/
def Known (s : Text) : Prop :=
  s = "vp8".toList ∨ "avc1.".toList <+: s ∨ "hvc1.".toList <+: s ∨ "hev1.".toList <+: s ∨
    "vp09.".toList <+: s ∨ "av01.".toList <+: s

/-- C66: a video codec survives formatting and parsing exactly unless it is an H.265 or AV1
configuration that does not, or an "unknown" codec whose text is that of a known one. -/
theorem c66_video_partial {k : Classes} (hk : Classes.Ascii k) (c : VideoCodec) :
    VideoCodec.parse k c.format = .ok c ↔
      match c with
      | .h265 c => Faithful c
      | .av1 c => InRange k c
      | .unknown s => ¬ Known s
      | _ => True := by
  have hof : ∀ {α : Type} (f : α → VideoCodec) (hf : ∀ x y, f x = f y → x = y)
      (r : Except CodecError α) (x : α), Parsed.of f r = .ok (f x) ↔ r = .ok x := by
    intro α f hf r x
    cases r with
    | error e => simp [Parsed.of]
    | ok y =>
      simp only [Parsed.of, Parsed.ok.injEq, Except.ok.injEq]
      exact ⟨hf _ _, fun h => by rw [h]⟩
  cases c with
  | h264 c =>
    simp only [iff_true]
    unfold VideoCodec.parse VideoCodec.format
    rw [if_pos (by simp [H264.format, List.isPrefixOf_iff_prefix]), c64_roundtrip]
    rfl
  | h265 c =>
    have h1 : ¬ (avc1 ++ ['.']).isPrefixOf c.format = true := by
      simp only [H265.format, avc1, h265Name]
      cases c.inBand <;> simp
    have h2 : ((h265Name false ++ ['.']).isPrefixOf c.format ||
        (h265Name true ++ ['.']).isPrefixOf c.format) = true := by
      simp only [H265.format, h265Name]
      cases c.inBand <;> simp
    unfold VideoCodec.parse VideoCodec.format
    simp only
    rw [if_neg h1, if_pos h2, hof _ (by simp), c65_roundtrip_partial]
  | vp9 c =>
    simp only [iff_true]
    obtain ⟨t, ht⟩ : ∃ t, c.format = vp9Prefix ++ t := by
      unfold VP9.format
      simp only
      split
      · exact ⟨_, by rw [List.append_assoc, List.append_assoc]⟩
      · exact ⟨_, by simp only [List.append_assoc]; rfl⟩
    unfold VideoCodec.parse VideoCodec.format
    simp only
    rw [if_neg (by rw [ht]; simp [avc1, vp9Prefix, List.isPrefixOf]),
      if_neg (by rw [ht]; simp [h265Name, vp9Prefix, List.isPrefixOf]),
      if_neg (by rw [ht]; simp [vp8Name, vp9Prefix]),
      if_pos (by rw [ht]; simp [vp9Prefix, List.isPrefixOf]), hof _ (by simp), c62_roundtrip]
  | av1 c =>
    obtain ⟨t, ht⟩ : ∃ t, c.format = av1Prefix ++ t := by
      unfold AV1.format
      simp only
      split
      · exact ⟨_, by rw [List.append_assoc, List.append_assoc]⟩
      · exact ⟨_, by simp only [List.append_assoc]; rfl⟩
    unfold VideoCodec.parse VideoCodec.format
    simp only
    rw [if_neg (by rw [ht]; simp [avc1, av1Prefix, List.isPrefixOf]),
      if_neg (by rw [ht]; simp [h265Name, av1Prefix, List.isPrefixOf]),
      if_neg (by rw [ht]; simp [vp8Name, av1Prefix]),
      if_neg (by rw [ht]; simp [vp9Prefix, av1Prefix, List.isPrefixOf]),
      if_pos (by rw [ht]; simp [av1Prefix, List.isPrefixOf]), hof _ (by simp),
      c63_roundtrip_partial hk]
  | vp8 =>
    simp only [iff_true]
    rfl
  | unknown s =>
    simp only [VideoCodec.format, Known, not_or]
    have hof' : ∀ {α : Type} (f : α → VideoCodec) (hf : ∀ x, f x ≠ .unknown s)
        (r : Except CodecError α), Parsed.of f r ≠ .ok (.unknown s) := by
      intro α f hf r
      cases r with
      | error e => simp [Parsed.of]
      | ok y => simp [Parsed.of, hf y]
    unfold VideoCodec.parse
    split
    · rename_i h
      rw [List.isPrefixOf_iff_prefix] at h
      constructor
      · intro e
        cases hp : H264.parse s <;> simp [hp, Parsed.map] at e
      · rintro ⟨_, h', _⟩; exact absurd h h'
    · rename_i n1
      rw [List.isPrefixOf_iff_prefix] at n1
      split
      · rename_i h
        rw [Bool.or_eq_true, List.isPrefixOf_iff_prefix, List.isPrefixOf_iff_prefix] at h
        constructor
        · intro e; exact absurd e (hof' _ (by simp) _)
        · rintro ⟨_, _, h1, h2, _⟩
          rcases h with h | h
          · exact absurd h h1
          · exact absurd h h2
      · rename_i n2
        rw [Bool.or_eq_true, List.isPrefixOf_iff_prefix, List.isPrefixOf_iff_prefix, not_or] at n2
        split
        · rename_i h
          constructor
          · intro e; cases e
          · rintro ⟨h', _⟩; exact absurd h h'
        · rename_i n3
          split
          · rename_i h
            rw [List.isPrefixOf_iff_prefix] at h
            constructor
            · intro e; exact absurd e (hof' _ (by simp) _)
            · rintro ⟨_, _, _, _, h', _⟩; exact absurd h h'
          · rename_i n4
            rw [List.isPrefixOf_iff_prefix] at n4
            split
            · rename_i h
              rw [List.isPrefixOf_iff_prefix] at h
              constructor
              · intro e; exact absurd e (hof' _ (by simp) _)
              · rintro ⟨_, _, _, _, _, h'⟩; exact absurd h h'
            · rename_i n5
              rw [List.isPrefixOf_iff_prefix] at n5
              simp only [true_iff]
              exact ⟨n3, n1, n2.1, n2.2, n4, n5⟩

/-- C66: a string that is parsed as an unknown video codec is preserved verbatim, and exactly the
strings that are not of a known codec are. -/
theorem c66_video_unknown {k : Classes} {s : Text} :
    (∀ t, VideoCodec.parse k s = .ok (.unknown t) → t = s) ∧
      (VideoCodec.parse k s = .ok (.unknown s) ↔ ¬ Known s) := by
  have hof : ∀ {α : Type} (f : α → VideoCodec) (t : Text) (_ : ∀ x, f x ≠ .unknown t)
      (r : Except CodecError α), Parsed.of f r ≠ .ok (.unknown t) := by
    intro α f t hf r
    cases r with
    | error e => simp [Parsed.of]
    | ok y => simp [Parsed.of, hf y]
  have hall : ∀ t, VideoCodec.parse k s = .ok (.unknown t) → t = s ∧ ¬ Known s := by
    intro t h
    unfold VideoCodec.parse at h
    split at h
    · cases hp : H264.parse s <;> simp [hp, Parsed.map] at h
    · rename_i n1
      rw [List.isPrefixOf_iff_prefix] at n1
      split at h
      · exact absurd h (hof _ t (by simp) _)
      · rename_i n2
        rw [Bool.or_eq_true, List.isPrefixOf_iff_prefix, List.isPrefixOf_iff_prefix, not_or] at n2
        split at h
        · cases h
        · rename_i n3
          split at h
          · exact absurd h (hof _ t (by simp) _)
          · rename_i n4
            rw [List.isPrefixOf_iff_prefix] at n4
            split at h
            · exact absurd h (hof _ t (by simp) _)
            · rename_i n5
              rw [List.isPrefixOf_iff_prefix] at n5
              cases h
              refine ⟨rfl, ?_⟩
              rintro (h | h | h | h | h | h)
              · exact n3 h
              · exact n1 h
              · exact n2.1 h
              · exact n2.2 h
              · exact n4 h
              · exact n5 h
  refine ⟨fun t h => (hall t h).1, fun h => (hall s h).2, fun h => ?_⟩
  simp only [Known, not_or] at h
  obtain ⟨h3, h1, h2, h2', h4, h5⟩ := h
  unfold VideoCodec.parse
  rw [if_neg (by rw [List.isPrefixOf_iff_prefix]; exact h1),
    if_neg (by
      rw [Bool.or_eq_true, List.isPrefixOf_iff_prefix, List.isPrefixOf_iff_prefix, not_or]
      exact ⟨h2, h2'⟩),
    if_neg (show ¬ s = vp8Name from h3), if_neg (by rw [List.isPrefixOf_iff_prefix]; exact h4),
    if_neg (by rw [List.isPrefixOf_iff_prefix]; exact h5)]

example : VideoCodec.parse ascii "theora".toList = .ok (.unknown "theora".toList) := by
  decide +kernel
example : VideoCodec.parse ascii "vp8".toList = .ok .vp8 := by decide +kernel

end Verif.Props.Codec
