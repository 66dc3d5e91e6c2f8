import Verif.Hang.Init
import Verif.Props.CatalogJson

/-!
# C124: the tracks that are made of the header of a fragmented MP4

Which boxes remain, the tracks that were made, the tasks that ran and the entries that are listed are taken from the history.
-/

set_option autoImplicit false

namespace Verif.Props.ImportInit

open Verif Verif.Hang Verif.Hang.CatalogJson Verif.Hang.Init

/-! ## Specification -/

structure Hist where
  /-- the boxes that remain of the header that is being treated -/
  rest : Option (List Trak)
  /-- that header -/
  all : List Trak
  /-- the last header that was treated completely -/
  header : Option (List Trak)
  /-- the tracks that were made: the id of the box, and the entry -/
  made : List (Nat × Info)
  /-- the tracks whose tasks have removed their entry, and themselves -/
  removed : List Nat
  cleaned : List Nat
  /-- the catalog that was published last -/
  last : List Video × List Audio
  gone : Bool

def idOf (x : Option (List Trak)) : Nat :=
  match x with
  | some (k :: _) => k.id
  | _ => 0

def see (h : Hist) (e : Op × Out) : Hist :=
  match e with
  | (.moov l, .ok) => { h with rest := some l, all := l }
  | (.next, .created _ i v a) =>
    { h with rest := h.rest.map List.tail, made := h.made ++ [(idOf h.rest, i)], last := (v, a) }
  | (.next, .ok) => { h with rest := none, header := some h.all }
  | (.next, .error _) => { h with rest := none }
  | (.remove n, .published v a) => { h with removed := n :: h.removed, last := (v, a) }
  | (.clean n, .ok) => { h with cleaned := n :: h.cleaned }
  | (.drop, .ok) => { h with gone := true }
  | _ => h

def hist (tr : Trace) : Hist := tr.foldl see ⟨none, [], none, [], [], [], ([], []), false⟩

/-- The track `n` is written to if there is media for its id: it is the last one that was made for it. -/
def Live (h : Hist) (n : Nat) : Prop :=
  h.gone = false ∧ ∃ id i, h.made[n]? = some (id, i) ∧ ∀ m j, n < m → h.made[m]? ≠ some (id, j)

/-- The entries for video, and those for audio. -/
def videoOnly (l : List Info) : List Video := l.filterMap fun x => match x with | .video v => some v | .audio _ => none

def audioOnly (l : List Info) : List Audio := l.filterMap fun x => match x with | .audio a => some a | .video _ => none

/-- The name of a track. -/
def nameOf (i : Info) : String := match i with | .video v => v.track.name | .audio a => a.track.name

/-- All entries are different. -/
def Distinct (h : Hist) : Prop := ∀ (m n : Nat) x y, h.made[m]? = some x → h.made[n]? = some y → x.2 = y.2 → m = n

/-- The entries of the tracks that are the last ones for their ids. -/
def newest : List (Nat × Info) → List Info
  | [] => []
  | (id, i) :: l => if l.any (fun x => x.1 == id) then newest l else i :: newest l

/-- The entries of the tracks that are written to. -/
def current (h : Hist) : List Info := if h.gone then [] else newest h.made

/-- The tasks of the tracks that are not written to any more have removed the entries. -/
def Settled (h : Hist) : Prop := ∀ n < h.made.length, ¬ Live h n → n ∈ h.removed

/-- A box can be imported. -/
def Importable (k : Trak) : Prop :=
  ∃ c, k.codecs = [c] ∧
    match k.handler, c with
    | .vide, .avc1 _ c => c.body ≠ none
    | .vide, .hev1 _ c => c.body ≠ none
    | .vide, .hvc1 _ c => c.body ≠ none
    | .vide, .vp08 _ => True
    | .vide, .vp09 _ _ => True
    | .vide, .av01 _ _ => True
    | .soun, .mp4a _ c => c.objectType = 0x40
    | .soun, .opus _ => True
    | _, _ => False

/-- The size of the picture, and what is left open. -/
def Sized (v : Visual) (x : VideoConfig) : Prop :=
  (∃ w, x.codedWidth = some w ∧ w.toNat = v.width.toNat) ∧ (∃ w, x.codedHeight = some w ∧ w.toNat = v.height.toNat) ∧
    x.displayRatioWidth = none ∧ x.displayRatioHeight = none ∧ x.bitrate = none ∧ x.framerate = none ∧
    x.optimizeForLatency = none ∧ x.rotation = none ∧ x.flip = none

/-- What a catalog says of H.265. -/
def SaysH265 (inBand : Bool) (c : Hvcc) (x : VideoConfig) : Prop :=
  x.description = c.body ∧
    x.codec = .h265 ⟨inBand, c.profileSpace, c.profileIdc, c.compatibility, c.tierFlag, c.levelIdc, c.constraints⟩

/-- What a catalog says of a codec for video; for AV1, the tier and bit depth are left out. -/
def SaysVideo (c : Codec) (x : VideoConfig) : Prop :=
  match c with
  | .avc1 v c => Sized v x ∧ x.description = c.body ∧ x.codec = .h264 ⟨c.profile, c.compatibility, c.level⟩
  | .hev1 v c => Sized v x ∧ SaysH265 true c x
  | .hvc1 v c => Sized v x ∧ SaysH265 false c x
  | .vp08 v => Sized v x ∧ x.description = none ∧ x.codec = .vp8
  | .vp09 v c =>
    Sized v x ∧ x.description = none ∧ x.codec = .vp9 ⟨c.profile, c.level, c.bitDepth, c.chromaSubsampling, c.colorPrimaries,
      c.transferCharacteristics, c.matrixCoefficients, c.fullRange⟩
  | .av01 v c =>
    Sized v x ∧ x.description = none ∧ ∃ tier depth, x.codec = .av1 ⟨c.profile, c.level, tier, depth, c.monochrome,
      c.chromaSubsamplingX, c.chromaSubsamplingY, c.chromaSamplePosition, 1, 1, 1, false⟩
  | _ => False

/-- What a catalog says of a codec for audio. -/
def SaysAudio (c : Codec) (x : AudioConfig) : Prop :=
  match c with
  | .mp4a a c =>
    x.codec = .aac ⟨c.profile⟩ ∧ x.description = none ∧ x.sampleRate.toNat = a.sampleRate.toNat ∧ x.channelCount.toNat = a.channelCount.toNat ∧
      ∃ b, x.bitrate = some b ∧ b.toNat = max c.avgBitrate.toNat c.maxBitrate.toNat
  | .opus a =>
    x.codec = .opus ∧ x.description = none ∧ x.sampleRate.toNat = a.sampleRate.toNat ∧ x.channelCount.toNat = a.channelCount.toNat ∧ x.bitrate = none
  | _ => False

/-- The entry for a box. -/
def Describes (k : Trak) (i : Info) : Prop :=
  ∃ c, k.codecs = [c] ∧
    ((k.handler = .vide ∧ ∃ x, i = .video ⟨⟨"video" ++ toString k.id, 2⟩, x⟩ ∧ SaysVideo c x) ∨
      (k.handler = .soun ∧ ∃ x, i = .audio ⟨⟨"audio" ++ toString k.id, 2⟩, x⟩ ∧ SaysAudio c x))

/-- What the error calls a codec that is not supported. -/
def Named (h : Handler) (c : Codec) (a : String) : Prop :=
  match h, c with
  | _, .unknown n => a = n
  | .soun, .mp4a _ _ => a = "MPEG2"
  | _, _ => a = "unknown"

/-- Why a box is refused. -/
def Refused (k : Trak) (e : Error) : Prop :=
  match e with
  | .unsupportedTrack a => (k.handler = .sbtl ∧ a = "subtitle") ∨ (k.handler = .other ∧ a = "unknown")
  | .missingCodec => (k.handler = .vide ∨ k.handler = .soun) ∧ k.codecs = []
  | .multipleCodecs => (k.handler = .vide ∨ k.handler = .soun) ∧ 1 < k.codecs.length
  | .mp4 =>
    k.handler = .vide ∧ ((∃ v c, k.codecs = [.avc1 v c] ∧ c.body = none) ∨
      (∃ v c, k.codecs = [.hev1 v c] ∧ c.body = none) ∨ ∃ v c, k.codecs = [.hvc1 v c] ∧ c.body = none)
  | .unsupportedCodec a => (k.handler = .vide ∨ k.handler = .soun) ∧ ∃ c, k.codecs = [c] ∧ ¬ Importable k ∧ Named k.handler c a

/-- The bit depth of AV1. -/
def trueDepth (c : Av1c) : Nat := if c.highBitdepth then if c.twelveBit then 12 else 10 else 8

/-! ## The entries -/

def VideoCond (c : Codec) : Prop :=
  match c with
  | .avc1 _ c => c.body ≠ none
  | .hev1 _ c => c.body ≠ none
  | .hvc1 _ c => c.body ≠ none
  | .vp08 _ => True
  | .vp09 _ _ => True
  | .av01 _ _ => True
  | _ => False

def AudioCond (c : Codec) : Prop :=
  match c with
  | .mp4a _ c => c.objectType = 0x40
  | .opus _ => True
  | _ => False

theorem importable_iff (k : Trak) :
    Importable k ↔ ∃ c, k.codecs = [c] ∧ ((k.handler = .vide ∧ VideoCond c) ∨ (k.handler = .soun ∧ AudioCond c)) := by
  unfold Importable
  constructor
  · rintro ⟨c, h1, h2⟩
    refine ⟨c, h1, ?_⟩
    cases hk : k.handler <;> rw [hk] at h2 <;> cases c <;> simp_all [VideoCond, AudioCond]
  · rintro ⟨c, h1, h2⟩
    refine ⟨c, h1, ?_⟩
    rcases h2 with ⟨hk, h2⟩ | ⟨hk, h2⟩ <;> rw [hk] <;> cases c <;> simp_all [VideoCond, AudioCond]

theorem sized (codec : VideoCodec) (d : Option Bytes) (v : Visual) : Sized v (Init.videoConfig codec d v) :=
  ⟨⟨_, rfl, UInt16.toNat_toUInt32 _⟩, ⟨_, rfl, UInt16.toNat_toUInt32 _⟩, rfl, rfl, rfl, rfl, rfl, rfl, rfl⟩

theorem initH265_ok {t : Track} {b : Bool} {c : Hvcc} {v : Visual} {x : Video} (h : initH265 t b c v = .ok x) :
    x.track = t ∧ Sized v x.config ∧ SaysH265 b c x.config ∧ c.body ≠ none := by
  unfold initH265 at h
  split at h
  · cases h
  · rename_i d hd
    cases h
    exact ⟨rfl, sized _ _ _, ⟨hd.symm, rfl⟩, by rw [hd]; simp⟩

theorem videoOf_ok {t : Track} {c : Codec} {x : Video} (h : videoOf t c = .ok x) :
    x.track = t ∧ SaysVideo c x.config ∧ VideoCond c := by
  cases c with
  | avc1 v c =>
    simp only [videoOf] at h
    split at h
    · cases h
    · rename_i d hd
      cases h
      exact ⟨rfl, ⟨sized _ _ _, hd.symm, rfl⟩, by simp [VideoCond, hd]⟩
  | hev1 v c => have := initH265_ok h; exact ⟨this.1, ⟨this.2.1, this.2.2.1⟩, this.2.2.2⟩
  | hvc1 v c => have := initH265_ok h; exact ⟨this.1, ⟨this.2.1, this.2.2.1⟩, this.2.2.2⟩
  | vp08 v => cases h; exact ⟨rfl, ⟨sized _ _ _, rfl, rfl⟩, trivial⟩
  | vp09 v c => cases h; exact ⟨rfl, ⟨sized _ _ _, rfl, rfl⟩, trivial⟩
  | av01 v c => cases h; exact ⟨rfl, ⟨sized _ _ _, rfl, _, _, rfl⟩, trivial⟩
  | mp4a => cases h
  | opus => cases h
  | unknown => cases h
  | other => cases h

theorem max_toNat (a b : UInt32) : (max a b).toUInt64.toNat = max a.toNat b.toNat := by
  rw [UInt32.toNat_toUInt64]
  show (if a ≤ b then b else a).toNat = _
  have := @UInt32.le_iff_toNat_le a b
  split <;> rename_i h <;> rw [this] at h <;> omega

theorem audioOf_ok {t : Track} {c : Codec} {x : Audio} (h : audioOf t c = .ok x) :
    x.track = t ∧ SaysAudio c x.config ∧ AudioCond c := by
  cases c with
  | mp4a a c =>
    simp only [audioOf] at h
    split at h
    · cases h
    · rename_i hc
      cases h
      exact ⟨rfl, ⟨rfl, rfl, UInt16.toNat_toUInt32 _, UInt16.toNat_toUInt32 _, _, rfl, max_toNat _ _⟩, Classical.not_not.1 hc⟩
  | opus a => cases h; exact ⟨rfl, ⟨rfl, rfl, UInt16.toNat_toUInt32 _, UInt16.toNat_toUInt32 _, rfl⟩, trivial⟩
  | avc1 => cases h
  | hev1 => cases h
  | hvc1 => cases h
  | vp08 => cases h
  | vp09 => cases h
  | av01 => cases h
  | unknown => cases h
  | other => cases h

theorem videoOf_error {t : Track} {c : Codec} {e : Error} (h : videoOf t c = .error e) :
    ¬ VideoCond c ∧ ((e = .mp4 ∧ ((∃ v d, c = .avc1 v d ∧ d.body = none) ∨ (∃ v d, c = .hev1 v d ∧ d.body = none) ∨
      ∃ v d, c = .hvc1 v d ∧ d.body = none)) ∨ ∃ a, e = .unsupportedCodec a ∧ Named .vide c a) := by
  cases c with
  | avc1 v c =>
    simp only [videoOf] at h
    split at h
    · rename_i hd
      cases h
      exact ⟨by simp [VideoCond, hd], .inl ⟨rfl, .inl ⟨_, _, rfl, hd⟩⟩⟩
    · cases h
  | hev1 v c =>
    simp only [videoOf, initH265] at h
    split at h
    · rename_i hd
      cases h
      exact ⟨by simp [VideoCond, hd], .inl ⟨rfl, .inr (.inl ⟨_, _, rfl, hd⟩)⟩⟩
    · cases h
  | hvc1 v c =>
    simp only [videoOf, initH265] at h
    split at h
    · rename_i hd
      cases h
      exact ⟨by simp [VideoCond, hd], .inl ⟨rfl, .inr (.inr ⟨_, _, rfl, hd⟩)⟩⟩
    · cases h
  | vp08 => cases h
  | vp09 => cases h
  | av01 => cases h
  | mp4a => cases h; exact ⟨id, .inr ⟨_, rfl, rfl⟩⟩
  | opus => cases h; exact ⟨id, .inr ⟨_, rfl, rfl⟩⟩
  | unknown => cases h; exact ⟨id, .inr ⟨_, rfl, rfl⟩⟩
  | other => cases h; exact ⟨id, .inr ⟨_, rfl, rfl⟩⟩

theorem audioOf_error {t : Track} {c : Codec} {e : Error} (h : audioOf t c = .error e) :
    ¬ AudioCond c ∧ ∃ a, e = .unsupportedCodec a ∧ Named .soun c a := by
  cases c with
  | mp4a a c =>
    simp only [audioOf] at h
    split at h
    · rename_i hc
      cases h
      exact ⟨hc, _, rfl, rfl⟩
    · cases h
  | opus => cases h
  | avc1 => cases h; exact ⟨id, _, rfl, rfl⟩
  | hev1 => cases h; exact ⟨id, _, rfl, rfl⟩
  | hvc1 => cases h; exact ⟨id, _, rfl, rfl⟩
  | vp08 => cases h; exact ⟨id, _, rfl, rfl⟩
  | vp09 => cases h; exact ⟨id, _, rfl, rfl⟩
  | av01 => cases h; exact ⟨id, _, rfl, rfl⟩
  | unknown => cases h; exact ⟨id, _, rfl, rfl⟩
  | other => cases h; exact ⟨id, _, rfl, rfl⟩

theorem infoOf_ok {k : Trak} {i : Info} (h : infoOf k = .ok i) : Describes k i ∧ Importable k := by
  obtain ⟨id, hd, l⟩ := k
  rw [importable_iff]
  cases hd with
  | sbtl => cases h
  | other => cases h
  | vide =>
    match l, h with
    | [], h => cases h
    | _ :: _ :: _, h => cases h
    | [c], h =>
      simp only [infoOf, single, Except.bind] at h
      cases hv : videoOf ⟨"video" ++ toString id, 2⟩ c with
      | error e => rw [hv] at h; cases h
      | ok x =>
        rw [hv] at h
        cases h
        have := videoOf_ok hv
        obtain ⟨t, x⟩ := x
        obtain ⟨rfl, h1, h2⟩ := this
        exact ⟨⟨c, rfl, .inl ⟨rfl, x, rfl, h1⟩⟩, c, rfl, .inl ⟨rfl, h2⟩⟩
  | soun =>
    match l, h with
    | [], h => cases h
    | _ :: _ :: _, h => cases h
    | [c], h =>
      simp only [infoOf, single, Except.bind] at h
      cases hv : audioOf ⟨"audio" ++ toString id, 2⟩ c with
      | error e => rw [hv] at h; cases h
      | ok x =>
        rw [hv] at h
        cases h
        have := audioOf_ok hv
        obtain ⟨t, x⟩ := x
        obtain ⟨rfl, h1, h2⟩ := this
        exact ⟨⟨c, rfl, .inr ⟨rfl, x, rfl, h1⟩⟩, c, rfl, .inr ⟨rfl, h2⟩⟩

theorem infoOf_error {k : Trak} {e : Error} (h : infoOf k = .error e) : Refused k e ∧ ¬ Importable k := by
  obtain ⟨id, hd, l⟩ := k
  cases hd with
  | sbtl => cases h; exact ⟨.inl ⟨rfl, rfl⟩, by rw [importable_iff]; simp⟩
  | other => cases h; exact ⟨.inr ⟨rfl, rfl⟩, by rw [importable_iff]; simp⟩
  | vide =>
    match l, h with
    | [], h => cases h; exact ⟨⟨.inl rfl, rfl⟩, by rw [importable_iff]; simp⟩
    | _ :: _ :: _, h => cases h; exact ⟨⟨.inl rfl, by simp⟩, by rw [importable_iff]; simp⟩
    | [c], h =>
      simp only [infoOf, single, Except.bind] at h
      cases hv : videoOf ⟨"video" ++ toString id, 2⟩ c with
      | ok x => rw [hv] at h; cases h
      | error e =>
        rw [hv] at h
        cases h
        obtain ⟨h1, h2⟩ := videoOf_error hv
        have hn : ¬ Importable ⟨id, .vide, [c]⟩ := by rw [importable_iff]; simpa using h1
        refine ⟨?_, hn⟩
        rcases h2 with ⟨rfl, h2⟩ | ⟨a, rfl, ha⟩
        · refine ⟨rfl, ?_⟩
          rcases h2 with ⟨v, d, rfl, hb⟩ | ⟨v, d, rfl, hb⟩ | ⟨v, d, rfl, hb⟩
          · exact .inl ⟨_, _, rfl, hb⟩
          · exact .inr (.inl ⟨_, _, rfl, hb⟩)
          · exact .inr (.inr ⟨_, _, rfl, hb⟩)
        · exact ⟨.inl rfl, c, rfl, hn, ha⟩
  | soun =>
    match l, h with
    | [], h => cases h; exact ⟨⟨.inr rfl, rfl⟩, by rw [importable_iff]; simp⟩
    | _ :: _ :: _, h => cases h; exact ⟨⟨.inr rfl, by simp⟩, by rw [importable_iff]; simp⟩
    | [c], h =>
      simp only [infoOf, single, Except.bind] at h
      cases hv : audioOf ⟨"audio" ++ toString id, 2⟩ c with
      | ok x => rw [hv] at h; cases h
      | error e =>
        rw [hv] at h
        cases h
        obtain ⟨h1, a, rfl, ha⟩ := audioOf_error hv
        have hn : ¬ Importable ⟨id, .soun, [c]⟩ := by rw [importable_iff]; simpa using h1
        exact ⟨⟨.inr rfl, c, rfl, hn, ha⟩, hn⟩

theorem repr_inj {a b : Nat} (h : toString a = toString b) : a = b := by
  have h : a.repr = b.repr := h
  rw [Nat.repr_eq_ofList_toDigits, Nat.repr_eq_ofList_toDigits, String.ofList_inj] at h
  rw [← Nat.ofDigitChars_ten_toDigits (n := a), h, Nat.ofDigitChars_ten_toDigits]

theorem name_inj {x y : Bool} {a b : Nat}
    (h : (if x then "video" else "audio") ++ toString a = (if y then "video" else "audio") ++ toString b) : x = y ∧ a = b := by
  have h := congrArg String.toList h
  rw [String.toList_append, String.toList_append] at h
  cases x <;> cases y
  · exact ⟨rfl, repr_inj (String.toList_inj.1 (List.append_cancel_left h))⟩
  · simp at h
  · simp at h
  · exact ⟨rfl, repr_inj (String.toList_inj.1 (List.append_cancel_left h))⟩

theorem name_of {k : Trak} {i : Info} (h : Describes k i) :
    nameOf i = (if k.handler = .vide then "video" else "audio") ++ toString k.id := by
  obtain ⟨c, -, ⟨hk, x, rfl, -⟩ | ⟨hk, x, rfl, -⟩⟩ := h <;> rw [hk] <;> rfl

/-- Equal names are of tracks for the same id. -/
theorem same_id {k k' : Trak} {i i' : Info} (h : Describes k i) (h' : Describes k' i') (hn : nameOf i = nameOf i') : k.id = k'.id := by
  rw [name_of h, name_of h'] at hn
  refine (name_inj (x := decide (k.handler = .vide)) (y := decide (k'.handler = .vide)) ?_).2
  simpa using hn

/-! ## The history -/

theorem hist_snoc (tr : Trace) (e : Op × Out) : hist (tr ++ [e]) = see (hist tr) e := by
  unfold hist
  rw [List.foldl_append]
  rfl

/-- The track `n` is the last one for an id. -/
def IsLast (l : List (Nat × Info)) (id n : Nat) : Prop :=
  ∃ i, l[n]? = some (id, i) ∧ ∀ m j, n < m → l[m]? ≠ some (id, j)

theorem isLast_inj {l : List (Nat × Info)} {id m n : Nat} (h : IsLast l id m) (h' : IsLast l id n) : m = n := by
  obtain ⟨i, h1, h2⟩ := h
  obtain ⟨j, h3, h4⟩ := h'
  rcases Nat.lt_trichotomy m n with hlt | rfl | hlt
  · exact absurd h3 (h2 _ _ hlt)
  · rfl
  · exact absurd h1 (h4 _ _ hlt)

theorem isLast_snoc (l : List (Nat × Info)) (x : Nat × Info) (id n : Nat) :
    IsLast (l ++ [x]) id n ↔ if id = x.1 then n = l.length else IsLast l id n := by
  obtain ⟨a, i⟩ := x
  by_cases hid : id = a
  · subst hid
    rw [if_pos rfl]
    constructor
    · rintro ⟨j, h1, h2⟩
      have hle : n < (l ++ [(id, i)]).length := (List.getElem?_eq_some_iff.1 h1).1
      simp only [List.length_append, List.length_cons, List.length_nil] at hle
      rcases Nat.lt_or_ge n l.length with hlt | hge
      · exact absurd (by simp) (h2 l.length i hlt)
      · omega
    · rintro rfl
      refine ⟨i, by simp, fun m j hm h => ?_⟩
      have := (List.getElem?_eq_some_iff.1 h).1
      simp at this
      omega
  · rw [if_neg hid]
    have hget : ∀ (m : Nat) j, (l ++ [(a, i)])[m]? = some (id, j) ↔ l[m]? = some (id, j) := by
      intro m j
      rcases Nat.lt_trichotomy m l.length with hlt | rfl | hgt
      · rw [List.getElem?_append_left hlt]
      · simp [Ne.symm hid]
      · rw [List.getElem?_eq_none (by simp; omega), List.getElem?_eq_none (by omega)]
    simp only [IsLast, hget, ne_eq]

theorem live_iff (h : Hist) (n : Nat) : Live h n ↔ h.gone = false ∧ ∃ id, IsLast h.made id n := by
  unfold Live IsLast
  constructor
  · rintro ⟨hg, id, i, h1, h2⟩; exact ⟨hg, id, i, h1, h2⟩
  · rintro ⟨hg, id, i, h1, h2⟩; exact ⟨hg, id, i, h1, h2⟩

structure Inv (tr : Trace) (s : State) : Prop where
  rest : s.job.map Prod.fst = (hist tr).rest
  all : ∀ r a, s.job = some (r, a) → a = (hist tr).all
  header : s.moov = (hist tr).header
  gone : s.gone = (hist tr).gone
  busy : s.job.isSome → (hist tr).gone = false
  made : s.made.map (fun x => (x.id, x.info)) = (hist tr).made
  tracks : ∀ id n, s.tracks id = some n ↔ (hist tr).gone = false ∧ IsLast (hist tr).made id n
  from_ : ∀ x ∈ (hist tr).made, ∃ k, k.id = x.1 ∧ Describes k x.2
  removed : ∀ (n : Nat) x, s.made[n]? = some x → (x.removed = true ↔ n ∈ (hist tr).removed)
  cleaned : ∀ (n : Nat) x, s.made[n]? = some x → (x.cleaned = true ↔ n ∈ (hist tr).cleaned)
  bound : ∀ n, n ∈ (hist tr).removed ∨ n ∈ (hist tr).cleaned → n < s.made.length
  over : ∀ n, n ∈ (hist tr).removed ∨ n ∈ (hist tr).cleaned → ¬ Live (hist tr) n
  sound : ∀ a n, s.lookup a = some n → ∃ x, (hist tr).made[n]? = some x ∧ nameOf x.2 = a ∧ n ∉ (hist tr).cleaned
  found : ∀ n, Live (hist tr) n → ∀ x, (hist tr).made[n]? = some x → s.lookup (nameOf x.2) = some n
  subset : ∀ e ∈ s.catalog, ∃ x ∈ (hist tr).made, x.2 = e.2
  listed : (hist tr).last = (videos s.catalog, audios s.catalog)
  known : ∀ r, (hist tr).rest = some r → ∃ pre, (hist tr).all = pre ++ r ∧ ∀ k ∈ pre, ∃ x ∈ (hist tr).made, x.1 = k.id
  full : ∀ l, (hist tr).header = some l → ∀ k ∈ l, ∃ x ∈ (hist tr).made, x.1 = k.id

theorem made_get {tr : Trace} {s : State} (v : Inv tr s) (n : Nat) :
    (hist tr).made[n]? = s.made[n]?.map fun x => (x.id, x.info) := by
  rw [← v.made, List.getElem?_map]

theorem made_length {tr : Trace} {s : State} (v : Inv tr s) : (hist tr).made.length = s.made.length := by
  rw [← v.made, List.length_map]

theorem held_iff {tr : Trace} {s : State} (v : Inv tr s) (n : Nat) : held s n = true ↔ Live (hist tr) n := by
  rw [live_iff]
  unfold held
  have hg := made_get v n
  split
  · rename_i x hx
    rw [hx] at hg
    simp only [beq_iff_eq, v.tracks]
    constructor
    · rintro ⟨h1, h2⟩; exact ⟨h1, _, h2⟩
    · rintro ⟨h1, id, i, h2, h3⟩
      rw [hg] at h2
      cases h2
      exact ⟨h1, x.info, hg, h3⟩
  · rename_i hx
    rw [hx] at hg
    constructor
    · intro h; cases h
    · rintro ⟨-, id, i, h2, -⟩
      rw [hg] at h2
      cases h2

theorem inv_init : Inv [] Init.init where
  rest := rfl
  all := fun _ _ h => nomatch h
  header := rfl
  gone := rfl
  busy := fun _ => rfl
  made := rfl
  tracks := fun id n => ⟨fun h => (nomatch h), fun ⟨_, i, h, _⟩ => (nomatch h)⟩
  from_ := fun x h => (nomatch h)
  removed := fun n x h => (nomatch h)
  cleaned := fun n x h => (nomatch h)
  bound := fun n h => h.elim (nomatch ·) (nomatch ·)
  over := fun n h => h.elim (nomatch ·) (nomatch ·)
  sound := fun a n h => (nomatch h)
  found := fun n h x hx => (nomatch hx)
  subset := fun e h => (nomatch h)
  listed := rfl
  known := fun r h => (nomatch h)
  full := fun r h => (nomatch h)

/-- A step that leaves the history of the tracks as it was. -/
theorem inv_moov {tr : Trace} {s : State} (v : Inv tr s) (hg : (hist tr).gone = false) (l : List Trak) :
    Inv (tr ++ [(.moov l, .ok)]) { s with job := some (l, l) } := by
  have hh : hist (tr ++ [(.moov l, .ok)]) = { hist tr with rest := some l, all := l } := hist_snoc _ _
  constructor <;> rw [hh]
  case rest => rfl
  case all => rintro r a h; cases h; rfl
  case header => exact v.header
  case gone => exact v.gone
  case busy => exact fun _ => hg
  case made => exact v.made
  case tracks => exact v.tracks
  case from_ => exact v.from_
  case removed => exact v.removed
  case cleaned => exact v.cleaned
  case bound => exact v.bound
  case over => exact v.over
  case sound => exact v.sound
  case found => exact v.found
  case subset => exact v.subset
  case listed => exact v.listed
  case known => rintro r h; cases h; exact ⟨[], rfl, fun k hk => (nomatch hk)⟩
  case full => exact v.full

theorem inv_fail {tr : Trace} {s : State} (v : Inv tr s) (e : Error) : Inv (tr ++ [(.next, .error e)]) { s with job := none } := by
  have hh : hist (tr ++ [(.next, .error e)]) = { hist tr with rest := none } := hist_snoc _ _
  constructor <;> rw [hh]
  case rest => rfl
  case all => rintro r a h; cases h
  case header => exact v.header
  case gone => exact v.gone
  case busy => exact (nomatch ·)
  case made => exact v.made
  case tracks => exact v.tracks
  case from_ => exact v.from_
  case removed => exact v.removed
  case cleaned => exact v.cleaned
  case bound => exact v.bound
  case over => exact v.over
  case sound => exact v.sound
  case found => exact v.found
  case subset => exact v.subset
  case listed => exact v.listed
  case known => rintro r h; cases h
  case full => exact v.full

theorem inv_end {tr : Trace} {s : State} (v : Inv tr s) {all : List Trak} (hj : s.job = some ([], all)) :
    Inv (tr ++ [(.next, .ok)]) { s with job := none, moov := some all } := by
  have hh : hist (tr ++ [(.next, .ok)]) = { hist tr with rest := none, header := some (hist tr).all } := hist_snoc _ _
  constructor <;> rw [hh]
  case rest => rfl
  case all => rintro r a h; cases h
  case header => rw [v.all _ _ hj]
  case gone => exact v.gone
  case busy => exact (nomatch ·)
  case made => exact v.made
  case tracks => exact v.tracks
  case from_ => exact v.from_
  case removed => exact v.removed
  case cleaned => exact v.cleaned
  case bound => exact v.bound
  case over => exact v.over
  case sound => exact v.sound
  case found => exact v.found
  case subset => exact v.subset
  case listed => exact v.listed
  case known => rintro r h; cases h
  case full =>
    rintro l h
    cases h
    have hr := v.rest
    rw [hj] at hr
    obtain ⟨pre, h1, h2⟩ := v.known [] hr.symm
    rw [List.append_nil] at h1
    rw [h1]
    exact h2

/-- The history after a track was made. -/
def grown (h : Hist) (rest : List Trak) (x : Nat × Info) (last : List Video × List Audio) : Hist :=
  ⟨some rest, h.all, h.header, h.made ++ [x], h.removed, h.cleaned, last, h.gone⟩

theorem inv_create {tr : Trace} {s : State} (v : Inv tr s) {k : Trak} {rest all : List Trak} (hj : s.job = some (k :: rest, all))
    {i : Info} (hi : infoOf k = .ok i) :
    Inv (tr ++ [(.next, (create s k i rest all).1)]) (create s k i rest all).2 := by
  have hr : (hist tr).rest = some (k :: rest) := by rw [← v.rest, hj]; rfl
  have hh : hist (tr ++ [(.next, (create s k i rest all).1)]) =
      grown (hist tr) rest (k.id, i)
        (videos (s.catalog ++ [(s.made.length, i)]), audios (s.catalog ++ [(s.made.length, i)])) := by
    rw [hist_snoc]
    simp only [create, see, hr, idOf, Option.map_some, List.tail_cons, grown]
  have hlen := made_length v
  have hd := (infoOf_ok hi).1
  have hname : nameOf i = i.track.name := by cases i <;> rfl
  have hlive : ∀ n, Live (grown (hist tr) rest (k.id, i)
        (videos (s.catalog ++ [(s.made.length, i)]), audios (s.catalog ++ [(s.made.length, i)]))) n →
      n = s.made.length ∨ (Live (hist tr) n ∧ ∀ x, (hist tr).made[n]? = some x → x.1 ≠ k.id) := by
    intro n hn
    rw [live_iff] at hn
    obtain ⟨hg, id, hl⟩ := hn
    simp only [grown] at hg hl
    rw [isLast_snoc] at hl
    split at hl
    · exact .inl (hl.trans hlen)
    · rename_i hne
      refine .inr ⟨(live_iff _ _).2 ⟨hg, id, hl⟩, fun x hx => ?_⟩
      obtain ⟨j, h1, -⟩ := hl
      rw [hx] at h1
      cases h1
      exact hne
  constructor <;> rw [hh] <;> dsimp only [grown]
  case rest => rfl
  case all => rintro r a h; cases h; exact v.all _ _ hj
  case header => exact v.header
  case gone => exact v.gone
  case busy => exact fun _ => v.busy (by rw [hj]; rfl)
  case made => simp only [create, List.map_append, v.made, List.map_cons, List.map_nil]
  case tracks =>
    intro id n
    rw [isLast_snoc]
    simp only [create]
    split
    · rw [hlen]
      constructor
      · rintro h
        cases h
        exact ⟨v.busy (by rw [hj]; rfl), rfl⟩
      · rintro ⟨-, rfl⟩; rfl
    · exact v.tracks id n
  case from_ =>
    intro x hx
    rcases List.mem_append.1 hx with hx | hx
    · exact v.from_ x hx
    · rw [List.mem_singleton.1 hx]
      exact ⟨k, rfl, hd⟩
  case removed =>
    intro n x hx
    simp only [create] at hx
    rcases Nat.lt_trichotomy n s.made.length with hlt | rfl | hgt
    · rw [List.getElem?_append_left hlt] at hx
      exact v.removed n x hx
    · simp at hx
      subst hx
      exact ⟨fun h => (nomatch h), fun h => absurd (v.bound _ (.inl h)) (by omega)⟩
    · rw [List.getElem?_eq_none (by simp; omega)] at hx
      cases hx
  case cleaned =>
    intro n x hx
    simp only [create] at hx
    rcases Nat.lt_trichotomy n s.made.length with hlt | rfl | hgt
    · rw [List.getElem?_append_left hlt] at hx
      exact v.cleaned n x hx
    · simp at hx
      subst hx
      exact ⟨fun h => (nomatch h), fun h => absurd (v.bound _ (.inr h)) (by omega)⟩
    · rw [List.getElem?_eq_none (by simp; omega)] at hx
      cases hx
  case bound =>
    intro n hn
    have := v.bound n hn
    simp only [create, List.length_append, List.length_cons, List.length_nil]
    omega
  case over =>
    intro n hn hl
    rcases hlive n hl with rfl | ⟨hl, -⟩
    · exact absurd (v.bound _ hn) (by omega)
    · exact v.over n hn hl
  case sound =>
    intro a n h
    simp only [create] at h
    split at h
    · cases h
      rename_i ha
      refine ⟨(k.id, i), by rw [← hlen]; simp, by rw [ha]; exact hname, fun h => absurd (v.bound _ (.inr h)) (by omega)⟩
    · obtain ⟨x, h1, h2⟩ := v.sound a n h
      have := (List.getElem?_eq_some_iff.1 h1).1
      exact ⟨x, by rw [List.getElem?_append_left this]; exact h1, h2⟩
  case found =>
    intro n hl x hx
    simp only [create]
    rcases hlive n hl with rfl | ⟨hl, hne⟩
    · rw [← hlen] at hx
      simp at hx
      subst hx
      rw [if_pos hname]
    · obtain ⟨hg, id, i', hl1, hl2⟩ := hl
      have := (List.getElem?_eq_some_iff.1 hl1).1
      rw [List.getElem?_append_left this] at hx
      have hl : Live (hist tr) n := ⟨hg, id, i', hl1, hl2⟩
      rw [if_neg, v.found n hl x hx]
      intro hn
      obtain ⟨k', hk', hd'⟩ := v.from_ x (List.mem_of_getElem? hx)
      have := same_id hd' hd (hn.trans hname.symm)
      exact hne x hx (by rw [← hk', this])
  case subset =>
    intro e he
    rcases List.mem_append.1 he with he | he
    · obtain ⟨x, hx, h⟩ := v.subset e he
      exact ⟨x, List.mem_append_left _ hx, h⟩
    · rw [List.mem_singleton.1 he]
      exact ⟨_, List.mem_append_right _ (List.mem_singleton.2 rfl), rfl⟩
  case listed => rfl
  case known =>
    rintro r h
    cases h
    obtain ⟨pre, h1, h2⟩ := v.known _ hr
    refine ⟨pre ++ [k], by rw [h1]; simp, fun k' hk' => ?_⟩
    rcases List.mem_append.1 hk' with hk' | hk'
    · obtain ⟨x, hx, he⟩ := h2 k' hk'
      exact ⟨x, List.mem_append_left _ hx, he⟩
    · rw [List.mem_singleton.1 hk']
      exact ⟨_, List.mem_append_right _ (List.mem_singleton.2 rfl), rfl⟩
  case full =>
    intro l h k' hk'
    obtain ⟨x, hx, he⟩ := v.full l h k' hk'
    exact ⟨x, List.mem_append_left _ hx, he⟩

theorem set_get {l : List Made} {n : Nat} {x y z : Made} {m : Nat} (hx : l[n]? = some x) (hz : (l.set n y)[m]? = some z) :
    (m = n ∧ z = y) ∨ (m ≠ n ∧ l[m]? = some z) := by
  rw [List.getElem?_set] at hz
  split at hz
  · rename_i h
    subst h
    rw [if_pos (List.getElem?_eq_some_iff.1 hx).1] at hz
    cases hz
    exact .inl ⟨rfl, rfl⟩
  · rename_i h
    exact .inr ⟨Ne.symm h, hz⟩

theorem map_set {l : List Made} {n : Nat} {x y : Made} (hx : l[n]? = some x) (h : (y.id, y.info) = (x.id, x.info)) :
    (l.set n y).map (fun x => (x.id, x.info)) = l.map fun x => (x.id, x.info) := by
  rw [List.map_set, h]
  apply List.ext_getElem?
  intro m
  rw [List.getElem?_set]
  split
  · rename_i hm
    subst hm
    rw [List.getElem?_map, hx, if_pos (by rw [List.length_map]; exact (List.getElem?_eq_some_iff.1 hx).1)]
    rfl
  · rfl

theorem inv_remove {tr : Trace} {s : State} (v : Inv tr s) {n : Nat} {x : Made} (hx : s.made[n]? = some x) (hl : ¬ Live (hist tr) n)
    (c : List (Nat × Info)) (hc : ∀ e ∈ c, e ∈ s.catalog) :
    Inv (tr ++ [(.remove n, .published (videos c) (audios c))])
      { s with made := s.made.set n { x with removed := true }, catalog := c } := by
  have hh : hist (tr ++ [(.remove n, .published (videos c) (audios c))]) =
      { hist tr with removed := n :: (hist tr).removed, last := (videos c, audios c) } := hist_snoc _ _
  constructor <;> rw [hh]
  case rest => exact v.rest
  case all => exact v.all
  case header => exact v.header
  case gone => exact v.gone
  case busy => exact v.busy
  case made =>
    refine Eq.trans (map_set (x := x) hx ?_) v.made
    rfl
  case tracks => exact v.tracks
  case from_ => exact v.from_
  case removed =>
    intro m z hz
    rcases set_get hx hz with ⟨rfl, rfl⟩ | ⟨hne, hz⟩
    · simp
    · rw [v.removed m z hz]
      simp [hne]
  case cleaned =>
    intro m z hz
    rcases set_get hx hz with ⟨rfl, rfl⟩ | ⟨hne, hz⟩
    · exact v.cleaned m x hx
    · exact v.cleaned m z hz
  case bound =>
    intro m hm
    rw [List.length_set]
    have := (List.getElem?_eq_some_iff.1 hx).1
    rcases hm with hm | hm
    · rcases List.mem_cons.1 hm with rfl | hm
      · exact this
      · exact v.bound m (.inl hm)
    · exact v.bound m (.inr hm)
  case over =>
    intro m hm
    rcases hm with hm | hm
    · rcases List.mem_cons.1 hm with rfl | hm
      · exact hl
      · exact v.over m (.inl hm)
    · exact v.over m (.inr hm)
  case sound => exact v.sound
  case found => exact v.found
  case subset => exact fun e he => v.subset e (hc e he)
  case known => exact v.known
  case full => exact v.full

theorem inv_clean {tr : Trace} {s : State} (v : Inv tr s) {n : Nat} {x : Made} (hx : s.made[n]? = some x) (hl : ¬ Live (hist tr) n) :
    Inv (tr ++ [(.clean n, .ok)])
      { s with
        made := s.made.set n { x with cleaned := true }
        lookup := fun a => if a = x.info.track.name ∧ s.lookup a = some n then none else s.lookup a } := by
  have hh : hist (tr ++ [(.clean n, .ok)]) = { hist tr with cleaned := n :: (hist tr).cleaned } := hist_snoc _ _
  have hname : ∀ i : Info, nameOf i = i.track.name := by intro i; cases i <;> rfl
  constructor <;> rw [hh]
  case rest => exact v.rest
  case all => exact v.all
  case header => exact v.header
  case gone => exact v.gone
  case busy => exact v.busy
  case made =>
    refine Eq.trans (map_set (x := x) hx ?_) v.made
    rfl
  case tracks => exact v.tracks
  case from_ => exact v.from_
  case removed =>
    intro m z hz
    rcases set_get hx hz with ⟨rfl, rfl⟩ | ⟨hne, hz⟩
    · exact v.removed m x hx
    · exact v.removed m z hz
  case cleaned =>
    intro m z hz
    rcases set_get hx hz with ⟨rfl, rfl⟩ | ⟨hne, hz⟩
    · simp
    · rw [v.cleaned m z hz]
      simp [hne]
  case bound =>
    intro m hm
    rw [List.length_set]
    have := (List.getElem?_eq_some_iff.1 hx).1
    rcases hm with hm | hm
    · exact v.bound m (.inl hm)
    · rcases List.mem_cons.1 hm with rfl | hm
      · exact this
      · exact v.bound m (.inr hm)
  case over =>
    intro m hm
    rcases hm with hm | hm
    · exact v.over m (.inl hm)
    · rcases List.mem_cons.1 hm with rfl | hm
      · exact hl
      · exact v.over m (.inr hm)
  case sound =>
    intro a m h
    dsimp only at h
    split at h
    · cases h
    · rename_i hc
      obtain ⟨y, h1, h2, h3⟩ := v.sound a m h
      refine ⟨y, h1, h2, fun hm => ?_⟩
      rcases List.mem_cons.1 hm with rfl | hm
      · refine hc ⟨?_, h⟩
        have := made_get v m
        rw [h1, hx] at this
        cases this
        rw [← h2, hname]
      · exact h3 hm
  case found =>
    intro m hm y hy
    dsimp only
    have hm : Live (hist tr) m := hm
    have hf := v.found m hm y hy
    rw [if_neg, hf]
    rintro ⟨-, h⟩
    rw [hf] at h
    cases h
    exact hl hm
  case subset => exact v.subset
  case listed => exact v.listed
  case known => exact v.known
  case full => exact v.full

theorem inv_drop {tr : Trace} {s : State} (v : Inv tr s) (hj : s.job = none) :
    Inv (tr ++ [(.drop, .ok)]) { s with tracks := fun _ => none, gone := true } := by
  have hh : hist (tr ++ [(.drop, .ok)]) = { hist tr with gone := true } := hist_snoc _ _
  constructor <;> rw [hh]
  case rest => exact v.rest
  case all => exact v.all
  case header => exact v.header
  case busy => intro h; rw [hj] at h; cases h
  case made => exact v.made
  case tracks => exact fun id n => ⟨fun h => (nomatch h), fun h => nomatch h.1⟩
  case from_ => exact v.from_
  case removed => exact v.removed
  case cleaned => exact v.cleaned
  case bound => exact v.bound
  case over => exact fun n _ h => nomatch h.1
  case sound => exact v.sound
  case found => exact fun n h => nomatch h.1
  case subset => exact v.subset
  case listed => exact v.listed
  case known => exact v.known
  case full => exact v.full

theorem inv_same {tr : Trace} {s : State} (v : Inv tr s) {e : Op × Out} (h : see (hist tr) e = hist tr) : Inv (tr ++ [e]) s := by
  have hh : hist (tr ++ [e]) = hist tr := (hist_snoc _ _).trans h
  constructor <;> rw [hh]
  case rest => exact v.rest
  case all => exact v.all
  case header => exact v.header
  case gone => exact v.gone
  case busy => exact v.busy
  case made => exact v.made
  case tracks => exact v.tracks
  case from_ => exact v.from_
  case removed => exact v.removed
  case cleaned => exact v.cleaned
  case bound => exact v.bound
  case over => exact v.over
  case sound => exact v.sound
  case found => exact v.found
  case subset => exact v.subset
  case listed => exact v.listed
  case known => exact v.known
  case full => exact v.full

theorem inv_step {tr : Trace} {s : State} (v : Inv tr s) (op : Op) : Inv (tr ++ [(op, (step s op).1)]) (step s op).2 := by
  cases op with
  | moov l =>
    simp only [step]
    split
    · exact inv_same v rfl
    · rename_i h
      simp only [Bool.or_eq_true, not_or, Bool.not_eq_true] at h
      exact inv_moov v (by rw [← v.gone]; exact h.1) l
  | next =>
    simp only [step, next]
    split
    · exact inv_same v rfl
    · rename_i all hj
      exact inv_end v hj
    · rename_i k rest all hj
      split
      · exact inv_fail v _
      · rename_i i hi
        exact inv_create v hj hi
  | remove n =>
    simp only [step, remove]
    split
    · exact inv_same v rfl
    · rename_i x hx
      split
      · exact inv_same v rfl
      · rename_i h
        simp only [Bool.or_eq_true, not_or, Bool.not_eq_true] at h
        exact inv_remove v hx (by rw [← held_iff v, h.1]; decide) _ (fun e he => (List.mem_filter.1 he).1)
  | clean n =>
    simp only [step, clean]
    split
    · exact inv_same v rfl
    · rename_i x hx
      split
      · exact inv_same v rfl
      · rename_i h
        simp only [Bool.or_eq_true, not_or, Bool.not_eq_true] at h
        exact inv_clean v hx (by rw [← held_iff v, h.1]; decide)
  | drop =>
    simp only [step]
    split
    · exact inv_same v rfl
    · rename_i h
      simp only [Bool.or_eq_true, not_or, Bool.not_eq_true] at h
      refine inv_drop v ?_
      cases hj : s.job with
      | none => rfl
      | some x => rw [hj] at h; cases h.2
  | subscribe a => exact inv_same v rfl
  | write id =>
    simp only [step, Init.write]
    split
    · exact inv_same v rfl
    · split
      · exact inv_same v rfl
      · exact inv_same v rfl

theorem inv_reach {tr : Trace} {s : State} (h : machine.Reach tr s) : Inv tr s := by
  refine Machine.Reach.induct (M := machine) (P := Inv) inv_init ?_ h
  intro tr s op _ v
  exact inv_step v op

/-- What is in the catalog if all entries are different. -/
def kept (h : Hist) : List (Nat × Info) :=
  (h.made.zipIdx.filter fun x => !h.removed.contains x.2).map fun x => (x.2, x.1.2)

def Cat (tr : Trace) (s : State) : Prop := Distinct (hist tr) → s.catalog = kept (hist tr)

theorem distinct_prefix {h : Hist} {l : List (Nat × Info)} (hm : ∃ r, h.made = l ++ r) (hd : Distinct h) :
    ∀ (m n : Nat) x y, l[m]? = some x → l[n]? = some y → x.2 = y.2 → m = n := by
  obtain ⟨r, hr⟩ := hm
  intro m n x y hx hy
  refine hd m n x y ?_ ?_
  · rw [hr, List.getElem?_append_left (List.getElem?_eq_some_iff.1 hx).1]; exact hx
  · rw [hr, List.getElem?_append_left (List.getElem?_eq_some_iff.1 hy).1]; exact hy

theorem kept_snoc {h : Hist} (rest : List Trak) (x : Nat × Info) (last : List Video × List Audio)
    (hb : ∀ n ∈ h.removed, n < h.made.length) : kept (grown h rest x last) = kept h ++ [(h.made.length, x.2)] := by
  unfold kept
  have : h.made.length ∉ h.removed := fun hm => absurd (hb _ hm) (by omega)
  simp [grown, List.zipIdx_append, this]

theorem kept_remove {h : Hist} {n : Nat} {x : Nat × Info} (hx : h.made[n]? = some x) (hd : Distinct h) (last : List Video × List Audio) :
    kept { h with removed := n :: h.removed, last := last } = (kept h).filter fun e => e.2 != x.2 := by
  unfold kept
  rw [List.filter_map, List.filter_filter]
  refine congrArg _ (List.filter_congr ?_)
  rintro ⟨y, m⟩ hy
  have hy := List.mem_zipIdx_iff_getElem?.1 hy
  simp only [List.contains_cons, Bool.not_or, Function.comp]
  congr 1
  by_cases hm : m = n
  · subst hm
    have := hy.symm.trans hx
    cases this
    simp
  · have : y.2 ≠ x.2 := fun he => hm (hd m n y x hy hx he)
    have e1 : (m == n) = false := by simpa using hm
    have e2 : (y.2 != x.2) = true := by simpa using this
    rw [e1, e2]
    rfl

theorem cat_step {tr : Trace} {s : State} (v : Inv tr s) (w : Cat tr s) (op : Op) :
    Cat (tr ++ [(op, (step s op).1)]) (step s op).2 := by
  have same : ∀ (e : Op × Out) (s' : State), s'.catalog = s.catalog → (see (hist tr) e).made = (hist tr).made →
      (see (hist tr) e).removed = (hist tr).removed → Cat (tr ++ [e]) s' := by
    intro e s' hc hm hr hd
    rw [hist_snoc] at hd ⊢
    unfold Distinct at hd
    unfold kept
    rw [hm] at hd ⊢
    rw [hr, hc]
    exact w hd
  cases op with
  | moov l =>
    simp only [step]
    split
    · exact same _ _ rfl rfl rfl
    · exact same _ _ rfl rfl rfl
  | next =>
    simp only [step, next]
    split
    · exact same _ _ rfl rfl rfl
    · exact same _ _ rfl rfl rfl
    · rename_i k rest all hj
      split
      · exact same _ _ rfl rfl rfl
      · rename_i i hi
        have hr : (hist tr).rest = some (k :: rest) := by rw [← v.rest, hj]; rfl
        intro hd
        have hh : hist (tr ++ [(.next, (create s k i rest all).1)]) =
            grown (hist tr) rest (k.id, i)
              (videos (s.catalog ++ [(s.made.length, i)]), audios (s.catalog ++ [(s.made.length, i)])) := by
          rw [hist_snoc]
          simp only [create, see, hr, idOf, Option.map_some, List.tail_cons, grown]
        rw [hh] at hd ⊢
        have := w (distinct_prefix ⟨[(k.id, i)], rfl⟩ hd)
        rw [kept_snoc _ _ _ (fun n hn => by rw [made_length v]; exact v.bound n (.inl hn)), ← this, made_length v]
        rfl
  | remove n =>
    simp only [step, remove]
    split
    · exact same _ _ rfl rfl rfl
    · rename_i x hx
      split
      · exact same _ _ rfl rfl rfl
      · intro hd
        rw [hist_snoc] at hd ⊢
        have hg := made_get v n
        rw [hx] at hg
        have := w hd
        dsimp only [see]
        rw [kept_remove (x := (x.id, x.info)) hg hd, ← this]
  | clean n =>
    simp only [step, clean]
    split
    · exact same _ _ rfl rfl rfl
    · split
      · exact same _ _ rfl rfl rfl
      · exact same _ _ rfl rfl rfl
  | drop =>
    simp only [step]
    split
    · exact same _ _ rfl rfl rfl
    · exact same _ _ rfl rfl rfl
  | subscribe a => exact same _ _ rfl rfl rfl
  | write id =>
    simp only [step, Init.write]
    split
    · exact same _ _ rfl rfl rfl
    · split
      · exact same _ _ rfl rfl rfl
      · exact same _ _ rfl rfl rfl

theorem cat_reach {tr : Trace} {s : State} (h : machine.Reach tr s) : Cat tr s := by
  refine (Machine.Reach.induct (M := machine) (P := fun tr s => Inv tr s ∧ Cat tr s) ⟨inv_init, fun _ => rfl⟩ ?_ h).2
  intro tr s op _ v
  exact ⟨inv_step v.1 op, cat_step v.1 v.2 op⟩

theorem newest_eq (p : Nat → Bool) : ∀ (l : List (Nat × Info)) (k : Nat),
    (∀ (n : Nat) x, l[n]? = some x → (p (k + n) = true ↔ ∀ (m : Nat) j, n < m → l[m]? ≠ some (x.1, j))) →
    ((l.zipIdx k).filter fun x => p x.2).map (fun x => x.1.2) = newest l := by
  intro l
  induction l with
  | nil => intro k h; rfl
  | cons x l ih =>
    intro k h
    obtain ⟨id, i⟩ := x
    have h0 := h 0 _ rfl
    have ht := ih (k + 1) (by
      intro n x hx
      have := h (n + 1) x hx
      rw [show k + 1 + n = k + (n + 1) by omega, this]
      constructor
      · intro hh m j hm
        exact hh (m + 1) j (by omega)
      · intro hh m j hm
        match m, hm with
        | m + 1, hm => exact hh m j (by omega))
    rw [List.zipIdx_cons, newest]
    have hany : (l.any fun x => x.1 == id) = !p k := by
      rw [Bool.eq_iff_iff, Bool.not_eq_true', ← Bool.not_eq_true]
      simp only [Nat.add_zero] at h0
      rw [h0, List.any_eq_true]
      constructor
      · rintro ⟨⟨a, j⟩, hx, he⟩ hn
        obtain ⟨m, hm⟩ := List.getElem?_of_mem hx
        simp only [beq_iff_eq] at he
        subst he
        exact hn (m + 1) j (by omega) hm
      · intro hn
        apply Classical.byContradiction
        intro hc
        apply hn
        intro m j hm hg
        match m, hm with
        | m + 1, _ => exact hc ⟨(id, j), List.mem_of_getElem? hg, by simp⟩
    rw [hany, List.filter_cons]
    cases hp : p k
    · simp only [Bool.not_false, if_true]
      simpa using ht
    · simp only [Bool.not_true]
      simpa using ht

theorem videos_eq (l : List (Nat × Info)) : videos l = videoOnly (l.map (·.2)) := by
  unfold videos videoOnly
  rw [List.filterMap_map]
  rfl

theorem audios_eq (l : List (Nat × Info)) : audios l = audioOnly (l.map (·.2)) := by
  unfold audios audioOnly
  rw [List.filterMap_map]
  rfl

theorem kept_current {tr : Trace} {s : State} (v : Inv tr s) (hs : Settled (hist tr)) :
    (kept (hist tr)).map (·.2) = current (hist tr) := by
  unfold kept current
  rw [List.map_map]
  have hl : ∀ (n : Nat) x, (hist tr).made[n]? = some x → ((!(hist tr).removed.contains n) = true ↔ Live (hist tr) n) := by
    intro n x hx
    rw [Bool.not_eq_true', ← Bool.not_eq_true, List.contains_iff_mem]
    constructor
    · intro h
      apply Classical.byContradiction
      intro hn
      exact h (hs n (List.getElem?_eq_some_iff.1 hx).1 hn)
    · intro h hr
      exact v.over n (.inl hr) h
  cases hg : (hist tr).gone
  · refine newest_eq (fun n => !(hist tr).removed.contains n) (hist tr).made 0 ?_
    intro n x hx
    rw [Nat.zero_add, hl n x hx]
    constructor
    · rintro ⟨-, id, i, h1, h2⟩
      rw [hx] at h1
      cases h1
      exact h2
    · intro h
      exact ⟨hg, x.1, x.2, hx, h⟩
  · rw [if_pos rfl, List.map_eq_nil_iff, List.filter_eq_nil_iff]
    rintro ⟨x, n⟩ hx
    rw [hl n x (List.mem_zipIdx_iff_getElem?.1 hx)]
    rintro ⟨h, -⟩
    rw [hg] at h
    cases h

/-! ## Theorems -/

variable {tr : Trace} {s : State}

/-- What happens to the next box: if it can be imported there is a new track, with an entry that describes it; otherwise there is
an error that says why. -/
theorem c124_next (h : machine.Reach tr s) {k : Trak} {l : List Trak} (hr : (hist tr).rest = some (k :: l)) :
    (Importable k → ∃ i v a, (step s .next).1 = .created (hist tr).made.length i v a ∧ Describes k i) ∧
    (¬ Importable k → ∃ e, (step s .next).1 = .error e ∧ Refused k e) := by
  have v := inv_reach h
  have hr' := v.rest
  rw [hr] at hr'
  cases hj : s.job with
  | none => rw [hj] at hr'; cases hr'
  | some x =>
    obtain ⟨r, all⟩ := x
    rw [hj] at hr'
    cases hr'
    simp only [step, next, hj]
    cases hi : infoOf k with
    | error e => exact ⟨fun hk => absurd hk (infoOf_error hi).2, fun _ => ⟨e, rfl, (infoOf_error hi).1⟩⟩
    | ok i =>
      refine ⟨fun _ => ?_, fun hk => absurd (infoOf_ok hi).2 hk⟩
      rw [made_length v]
      exact ⟨i, _, _, rfl, (infoOf_ok hi).1⟩

/-- A header is begun unless another one is being treated or the importer was dropped.  It ends after its last box. -/
theorem c124_header (h : machine.Reach tr s) (l : List Trak) :
    ((step s (.moov l)).1 = .ok ↔ (hist tr).rest = none ∧ (hist tr).gone = false) ∧
    ((step s .next).1 = .ok ↔ (hist tr).rest = some []) ∧ ((step s .next).1 = .invalid ↔ (hist tr).rest = none) := by
  have v := inv_reach h
  refine ⟨?_, ?_⟩
  · rw [← v.rest, ← v.gone]
    simp only [step]
    cases s.gone <;> cases s.job <;> simp
  · rw [← v.rest]
    simp only [step, next]
    split
    · rename_i hj; simp [hj]
    · rename_i hj; simp [hj]
    · rename_i hj
      rw [hj]
      split <;> simp [create]

/-- After an error another header may be begun; the tracks that were made of the boxes before are still found. -/
theorem c124_failed (h : machine.Reach tr s) {e : Error} (he : (step s .next).1 = .error e) (a : String) (l : List Trak) :
    (step (step s .next).2 (.subscribe a)).1 = (step s (.subscribe a)).1 ∧ (step (step s .next).2 (.moov l)).1 = .ok := by
  have v := inv_reach h
  have key : (step s .next).2 = { s with job := none } ∧ s.gone = false := by
    simp only [step, next] at he ⊢
    cases hj : s.job with
    | none => rw [hj] at he; cases he
    | some y =>
      obtain ⟨r, all⟩ := y
      rw [hj] at he
      match r, he with
      | [], he => cases he
      | k :: rest, he =>
        simp only at he ⊢
        cases hi : infoOf k with
        | ok i => rw [hi] at he; cases he
        | error e' => exact ⟨rfl, by rw [v.gone]; exact v.busy (by rw [hj]; rfl)⟩
  rw [key.1]
  simp [step, key.2]

/-- Whoever subscribes to the name of a track that is written to gets that track. -/
theorem c124_found (h : machine.Reach tr s) {n : Nat} (hl : Live (hist tr) n) {x : Nat × Info} (hx : (hist tr).made[n]? = some x) :
    (step s (.subscribe (nameOf x.2))).1 = .found (some n) :=
  congrArg Out.found ((inv_reach h).found n hl x hx)

/-- Whoever gets a track gets one of that name, and once the tasks ran it is one that is written to. -/
theorem c124_sound (h : machine.Reach tr s) {a : String} {n : Nat} (hf : (step s (.subscribe a)).1 = .found (some n)) :
    (∃ x, (hist tr).made[n]? = some x ∧ nameOf x.2 = a) ∧
    ((∀ m < (hist tr).made.length, ¬ Live (hist tr) m → m ∈ (hist tr).cleaned) → Live (hist tr) n) := by
  have v := inv_reach h
  have hf : s.lookup a = some n := by simpa [step] using hf
  obtain ⟨x, h1, h2, h3⟩ := v.sound a n hf
  refine ⟨⟨x, h1, h2⟩, fun hs => ?_⟩
  apply Classical.byContradiction
  intro hn
  exact h3 (hs n (List.getElem?_eq_some_iff.1 h1).1 hn)

/-- Media is written to the last track for its id, if the header had it. -/
theorem c124_write (h : machine.Reach tr s) (hr : (hist tr).rest = none) (hg : (hist tr).gone = false) (id n : Nat) :
    (step s (.write id)).1 = .found (some n) ↔
      (∃ l, (hist tr).header = some l ∧ ∃ k ∈ l, k.id = id) ∧ Live (hist tr) n ∧ ∃ i, (hist tr).made[n]? = some (id, i) := by
  have v := inv_reach h
  have hj : s.job = none := by
    cases hj : s.job with
    | none => rfl
    | some x => have := v.rest; rw [hr, hj] at this; cases this
  simp only [step, Init.write, hj, v.gone, hg, v.header, Option.isSome_none, Bool.or_self, Bool.false_eq_true, if_false]
  have key : s.tracks id = some n ↔ Live (hist tr) n ∧ ∃ i, (hist tr).made[n]? = some (id, i) := by
    rw [v.tracks, live_iff]
    constructor
    · rintro ⟨h1, h2⟩
      obtain ⟨i, h3, h4⟩ := h2
      exact ⟨⟨h1, id, i, h3, h4⟩, i, h3⟩
    · rintro ⟨⟨h1, id', j, h3, h4⟩, i, h5⟩
      rw [h5] at h3
      cases h3
      exact ⟨h1, _, h5, h4⟩
  split
  · rename_i hh
    constructor
    · intro hc; cases hc
    · rintro ⟨⟨l, hl, -⟩, -⟩; rw [hh] at hl; cases hl
  · rename_i l hh
    rw [← key]
    constructor
    · intro hc
      split at hc
      · rename_i ha
        rw [List.any_eq_true] at ha
        obtain ⟨k, hk, he⟩ := ha
        exact ⟨⟨l, hh, k, hk, by simpa using he⟩, by simpa using hc⟩
      · cases hc
    · rintro ⟨⟨l', hl', k, hk, he⟩, ht⟩
      rw [hh] at hl'
      cases hl'
      rw [if_pos (List.any_eq_true.2 ⟨k, hk, by simpa using he⟩), ht]

theorem last_exists (id : Nat) : ∀ l : List (Nat × Info), (∃ x ∈ l, x.1 = id) → ∃ n, IsLast l id n := by
  intro l
  induction l with
  | nil => rintro ⟨x, hx, -⟩; cases hx
  | cons x l ih =>
    rintro ⟨y, hy, he⟩
    by_cases hl : ∃ x ∈ l, x.1 = id
    · obtain ⟨n, i, h1, h2⟩ := ih hl
      refine ⟨n + 1, i, h1, fun m j hm => ?_⟩
      match m, hm with
      | m + 1, hm => exact h2 m j (by omega)
    · rcases List.mem_cons.1 hy with rfl | hy
      · subst he
        refine ⟨0, y.2, rfl, fun m j hm hg => ?_⟩
        match m, hm with
        | m + 1, hm => exact hl ⟨_, List.mem_of_getElem? hg, rfl⟩
      · exact absurd ⟨y, hy, he⟩ hl

/-- Once a header was treated, there is a track for each of its ids: the media for it is written to that track, and who subscribes
to the name gets it. -/
theorem c124_known (h : machine.Reach tr s) (hr : (hist tr).rest = none) (hg : (hist tr).gone = false) {l : List Trak}
    (hl : (hist tr).header = some l) {k : Trak} (hk : k ∈ l) :
    ∃ n i, (step s (.write k.id)).1 = .found (some n) ∧ (hist tr).made[n]? = some (k.id, i) ∧
      (step s (.subscribe (nameOf i))).1 = .found (some n) := by
  have v := inv_reach h
  obtain ⟨n, i, h1, h2⟩ := last_exists k.id _ (v.full l hl k hk)
  have hlive : Live (hist tr) n := ⟨hg, k.id, i, h1, h2⟩
  exact ⟨n, i, (c124_write h hr hg k.id n).2 ⟨⟨l, hl, k, hk, rfl⟩, hlive, i, h1⟩, h1, c124_found h hlive h1⟩

/-- Names of tracks for different ids differ. -/
theorem c124_names (h : machine.Reach tr s) {m n : Nat} {x y : Nat × Info} (hx : (hist tr).made[m]? = some x)
    (hy : (hist tr).made[n]? = some y) (he : nameOf x.2 = nameOf y.2) : x.1 = y.1 := by
  have v := inv_reach h
  obtain ⟨k, hk, hd⟩ := v.from_ x (List.mem_of_getElem? hx)
  obtain ⟨k', hk', hd'⟩ := v.from_ y (List.mem_of_getElem? hy)
  rw [← hk, ← hk']
  exact same_id hd hd' he

/-- If all entries are different, the catalog that was published last has exactly the entries of the tracks that are written to,
once the tasks of the others ran. -/
theorem c124_listed_partial (h : machine.Reach tr s) (hd : Distinct (hist tr)) (hs : Settled (hist tr)) :
    (hist tr).last = (videoOnly (current (hist tr)), audioOnly (current (hist tr))) := by
  have v := inv_reach h
  rw [v.listed, videos_eq, audios_eq, cat_reach h hd, kept_current v hs]

/-- A task can remove the entry of a track exactly if the track is not written to any more and the task did not run before. -/
theorem c124_tasks (h : machine.Reach tr s) (n : Nat) :
    ((∃ v a, (step s (.remove n)).1 = .published v a) ↔
      n < (hist tr).made.length ∧ ¬ Live (hist tr) n ∧ n ∉ (hist tr).removed) ∧
    ((step s (.clean n)).1 = .ok ↔ n < (hist tr).made.length ∧ ¬ Live (hist tr) n ∧ n ∉ (hist tr).cleaned) := by
  have v := inv_reach h
  rw [made_length v, ← held_iff v]
  simp only [step, remove, clean]
  cases hx : s.made[n]? with
  | none =>
    have := List.getElem?_eq_none_iff.1 hx
    simp only [reduceCtorEq, exists_const, false_iff]
    exact ⟨fun hh => by omega, fun hh => by omega⟩
  | some x =>
    have hlt := (List.getElem?_eq_some_iff.1 hx).1
    rw [← v.removed n x hx, ← v.cleaned n x hx]
    dsimp only
    refine ⟨?_, ?_⟩
    · split
      · rename_i hc
        simp only [reduceCtorEq, exists_const, false_iff]
        rintro ⟨-, h1, h2⟩
        simp [h1, h2] at hc
      · rename_i hc
        simp only [Bool.or_eq_true, not_or] at hc
        exact ⟨fun _ => ⟨hlt, hc⟩, fun _ => ⟨_, _, rfl⟩⟩
    · split
      · rename_i hc
        simp only [reduceCtorEq, false_iff]
        rintro ⟨-, h1, h2⟩
        simp [h1, h2] at hc
      · rename_i hc
        simp only [Bool.or_eq_true, not_or] at hc
        exact ⟨fun _ => ⟨hlt, hc⟩, fun _ => rfl⟩

/-- The bit depth that is listed for AV1 is that of the stream exactly if the stream is of the main tier and has not 12 bits, or is
of the high tier and has 12. -/
theorem c124_depth_partial {k : Trak} {vis : Visual} {c : Av1c} (hk : k.codecs = [.av01 vis c]) (hh : k.handler = .vide) :
    ∃ v x, infoOf k = .ok (.video v) ∧ v.config.codec = .av1 x ∧ x.tier = 'M' ∧
      (x.bitdepth.toNat = trueDepth c ↔
        (c.tier = false ∧ (c.highBitdepth = true → c.twelveBit = false)) ∨
        (c.tier = true ∧ c.highBitdepth = true ∧ c.twelveBit = true)) := by
  obtain ⟨id, hd, l⟩ := k
  cases hk
  cases hh
  refine ⟨_, _, rfl, rfl, rfl, ?_⟩
  obtain ⟨_, _, tier, hi, tw, _, _, _, _⟩ := c
  cases tier <;> cases hi <;> cases tw <;> simp [av1Depth, trueDepth]

/-- If no id was used twice, all entries are different. -/
theorem c124_distinct (h : machine.Reach tr s) (hn : ((hist tr).made.map Prod.fst).Nodup) : Distinct (hist tr) := by
  intro m n x y hx hy he
  have := c124_names h hx hy (by rw [he])
  refine (List.getElem?_inj (l := (hist tr).made.map Prod.fst) (by
    rw [List.length_map]; exact (List.getElem?_eq_some_iff.1 hx).1) hn).1 ?_
  rw [List.getElem?_map, List.getElem?_map, hx, hy]
  exact congrArg some this

theorem newest_nodup : ∀ l : List (Nat × Info), (l.map Prod.fst).Nodup → newest l = l.map Prod.snd := by
  intro l
  induction l with
  | nil => intro _; rfl
  | cons x l ih =>
    obtain ⟨id, i⟩ := x
    intro h
    rw [List.map_cons, List.nodup_cons] at h
    rw [newest, if_neg, ih h.2, List.map_cons]
    intro ha
    obtain ⟨y, hy, he⟩ := List.any_eq_true.1 ha
    exact h.1 (List.mem_map.2 ⟨y, hy, by simpa using he⟩)

/-- As long as no id was used twice and the importer is there, the catalog has an entry for each box that was imported. -/
theorem c124_fresh (h : machine.Reach tr s) (hn : ((hist tr).made.map Prod.fst).Nodup) (hg : (hist tr).gone = false) :
    (hist tr).last = (videoOnly ((hist tr).made.map Prod.snd), audioOnly ((hist tr).made.map Prod.snd)) := by
  have hs : Settled (hist tr) := by
    intro n hn' hl
    refine absurd ?_ hl
    obtain ⟨⟨id, i⟩, hx⟩ : ∃ x, (hist tr).made[n] = x := ⟨_, rfl⟩
    refine ⟨hg, id, i, by rw [List.getElem?_eq_getElem hn', hx], fun m j hm hj => ?_⟩
    have : n = m := by
      refine (List.getElem?_inj (l := (hist tr).made.map Prod.fst) (by rw [List.length_map]; exact hn') hn).1 ?_
      rw [List.getElem?_map, List.getElem?_map, hj, List.getElem?_eq_getElem hn', hx]
      rfl
    omega
  rw [c124_listed_partial h (c124_distinct h hn) hs, current, hg, if_neg (by decide), newest_nodup _ hn]

theorem video_entry (h : machine.Reach tr s) {v : Video} (hv : v ∈ (hist tr).last.1) : ∃ c, SaysVideo c v.config := by
  have w := inv_reach h
  rw [w.listed] at hv
  obtain ⟨e, he, hm⟩ := List.mem_filterMap.1 hv
  obtain ⟨x, hx, hxe⟩ := w.subset e he
  obtain ⟨k, -, c, -, ⟨-, y, hy, hs⟩ | ⟨-, y, hy, hs⟩⟩ := w.from_ x hx
  · rw [← hxe, hy] at hm
    cases hm
    exact ⟨c, hs⟩
  · rw [← hxe, hy] at hm
    cases hm

theorem audio_entry (h : machine.Reach tr s) {a : Audio} (ha : a ∈ (hist tr).last.2) : ∃ c, SaysAudio c a.config := by
  have w := inv_reach h
  rw [w.listed] at ha
  obtain ⟨e, he, hm⟩ := List.mem_filterMap.1 ha
  obtain ⟨x, hx, hxe⟩ := w.subset e he
  obtain ⟨k, -, c, -, ⟨-, y, hy, hs⟩ | ⟨-, y, hy, hs⟩⟩ := w.from_ x hx
  · rw [← hxe, hy] at hm
    cases hm
  · rw [← hxe, hy] at hm
    cases hm
    exact ⟨c, hs⟩

theorem says_sized {c : Codec} {x : VideoConfig} (h : SaysVideo c x) : ∃ v, Sized v x := by
  cases c with
  | avc1 v => exact ⟨v, h.1⟩
  | hev1 v => exact ⟨v, h.1⟩
  | hvc1 v => exact ⟨v, h.1⟩
  | vp08 v => exact ⟨v, h.1⟩
  | vp09 v => exact ⟨v, h.1⟩
  | av01 v => exact ⟨v, h.1⟩
  | mp4a => cases h
  | opus => cases h
  | unknown => cases h
  | other => cases h

theorem says_known {c : Codec} {x : VideoConfig} (h : SaysVideo c x) (a : Text) : x.codec ≠ .unknown a := by
  cases c with
  | avc1 v => rw [h.2.2]; simp
  | hev1 v => rw [h.2.2]; simp
  | hvc1 v => rw [h.2.2]; simp
  | vp08 v => rw [h.2.2]; simp
  | vp09 v => rw [h.2.2]; simp
  | av01 v => obtain ⟨_, _, h⟩ := h.2.2; rw [h]; simp
  | mp4a => cases h
  | opus => cases h
  | unknown => cases h
  | other => cases h

/-- A reader of the catalog (in Rust) gets what the importer published exactly if the configurations of H.265 and AV1 survive as
text (C63, C65). -/
theorem c124_read_partial (h : machine.Reach tr s) (K : Floats) {q : Classes} (hq : Props.Codec.Classes.Ascii q) :
    CatalogJson.read K q (CatalogJson.write K ⟨(hist tr).last.1, (hist tr).last.2, none⟩) =
        some ⟨(hist tr).last.1, (hist tr).last.2, none⟩ ↔
      ∀ v ∈ (hist tr).last.1, match v.config.codec with
        | .h265 c => Props.Codec.Faithful c
        | .av1 c => Props.Codec.InRange q c
        | _ => True := by
  rw [Props.CatalogJson.c112_rust_same_partial]
  constructor
  · rintro ⟨h1, -, -⟩ v hv
    have := (Props.Codec.c66_video_partial hq v.config.codec).1 (h1 v hv).1
    cases hc : v.config.codec <;> rw [hc] at this
    case h265 => exact this
    case av1 => exact this
    all_goals trivial
  · intro hh
    refine ⟨fun v hv => ?_, fun a ha => ?_, fun l p hl => by cases hl⟩
    · obtain ⟨c, hc⟩ := video_entry h hv
      obtain ⟨vis, -, -, -, -, -, hf, -, hr, -⟩ := says_sized hc
      rw [hf, hr]
      refine ⟨(Props.Codec.c66_video_partial hq v.config.codec).2 ?_, rfl, rfl⟩
      have hu := says_known hc
      have := hh v hv
      cases hk : v.config.codec <;> rw [hk] at this hu
      case h265 => exact this
      case av1 => exact this
      case unknown a => exact absurd rfl (hu a)
      all_goals trivial
    · obtain ⟨c, hc⟩ := audio_entry h ha
      rw [Props.Codec.c66_audio_partial]
      intro t ht
      cases c with
      | mp4a => rw [hc.1] at ht; cases ht
      | opus => rw [hc.1] at ht; cases ht
      | _ => cases hc

theorem listRel_map {α β : Type} {R : α → β → Prop} (f : α → β) : ∀ l : List α, (∀ a ∈ l, R a (f a)) → ListRel R l (l.map f) := by
  intro l
  induction l with
  | nil => intro _; exact .nil
  | cons a l ih => intro h; exact .cons (h a (by simp)) (ih fun b hb => h b (by simp [hb]))

def jsTrack (t : Track) : Js.Catalog.Track := ⟨t.name, .fin t.priority.toNat⟩

/-- Every browser can read what the importer published. -/
theorem c124_browser (h : machine.Reach tr s) (K : Floats) :
    ∃ r, Js.Catalog.read (CatalogJson.write K ⟨(hist tr).last.1, (hist tr).last.2, none⟩) = some r := by
  refine ⟨⟨if (hist tr).last.1 = [] then none else some ((hist tr).last.1.map fun v => ⟨jsTrack v.track,
      ⟨String.ofList v.config.codec.format, v.config.description.map CatalogJson.hex, v.config.codedWidth.map fun n => .fin n.toNat,
        v.config.codedHeight.map fun n => .fin n.toNat, none, none, none, none, none, none, none⟩⟩),
    if (hist tr).last.2 = [] then none else some ((hist tr).last.2.map fun v => ⟨jsTrack v.track,
      ⟨String.ofList v.config.codec.format, v.config.description.map CatalogJson.hex, .fin v.config.sampleRate.toNat,
        .fin v.config.channelCount.toNat, v.config.bitrate.map fun n => .fin n.toNat⟩⟩),
    none, none, none, none⟩, (Props.CatalogJson.c112_to_browser_partial _ _ _).2 ?_⟩
  constructor
  · show if _ = [] then _ else _
    split
    · rfl
    · refine ⟨_, rfl, listRel_map _ _ fun v hv => ?_⟩
      obtain ⟨c, hc⟩ := video_entry h hv
      obtain ⟨vis, -, -, h1, h2, h3, h4, h5, h6, h7⟩ := says_sized hc
      exact ⟨⟨rfl, rfl⟩, rfl, rfl, rfl, rfl, by rw [h1]; rfl, by rw [h2]; rfl, by rw [h4]; exact ⟨rfl, by simp⟩,
        by rw [h3]; exact ⟨rfl, by simp⟩, by rw [h5], by rw [h6]; exact ⟨rfl, by simp⟩, by rw [h7]⟩
  · show if _ = [] then _ else _
    split
    · rfl
    · refine ⟨_, rfl, listRel_map _ _ fun v hv => ?_⟩
      obtain ⟨c, hc⟩ := audio_entry h hv
      refine ⟨⟨rfl, rfl⟩, rfl, rfl, rfl, rfl, rfl, fun n hn => ?_⟩
      cases c with
      | mp4a a c =>
        obtain ⟨-, -, -, -, b, hb, hb'⟩ := hc
        rw [hb] at hn
        cases hn
        have h1 := c.avgBitrate.toNat_lt
        have h2 := c.maxBitrate.toNat_lt
        rw [hb']
        omega
      | opus => rw [hc.2.2.2.2] at hn; cases hn
      | _ => cases hc
  · exact .none
  · rfl
  · rfl
  · rfl

/-! ## Examples -/

def exVideo : Trak := ⟨1, .vide, [.avc1 ⟨1920, 1080⟩ ⟨0x64, 0, 0x1f, some [1, 0x64, 0, 0x1f]⟩]⟩

def exAudio : Trak := ⟨2, .soun, [.mp4a ⟨48000, 2⟩ ⟨0x40, 128000, 96000, 2⟩]⟩

def exText : Trak := ⟨3, .sbtl, []⟩

def exHeader : List Op := [.moov [exVideo, exAudio], .next, .next, .next]

example : (hist (machine.run exHeader).1).header = some [exVideo, exAudio] ∧
    ((hist (machine.run exHeader).1).last.1.map fun v => (v.track.name, String.ofList v.config.codec.format)) =
      [("video1", "avc1.64001f")] ∧
    ((hist (machine.run exHeader).1).last.2.map fun a => (a.track.name, a.config.bitrate)) = [("audio2", some 128000)] := by
  decide +kernel

example : ((hist (machine.run exHeader).1).made.map Prod.fst).Nodup ∧ (hist (machine.run exHeader).1).gone = false := by
  decide +kernel

/-- **The same header again empties the catalog**: the task of a track that was replaced removes the entry of the new one too,
although media is written to that, and subscribers would find it. -/
theorem c124_again : ∃ (tr : Trace) (s : State), machine.Reach tr s ∧ (hist tr).last = ([], []) ∧
    (step s (.write 1)).1 = .found (some 2) ∧ (step s (.subscribe "video1")).1 = .found (some 2) ∧
    (step s (.write 2)).1 = .found (some 3) ∧ (step s (.subscribe "audio2")).1 = .found (some 3) :=
  ⟨_, _, machine.reach_run (exHeader ++ exHeader ++ [.remove 0, .remove 1]), by decide +kernel, by decide +kernel, by decide +kernel,
    by decide +kernel, by decide +kernel⟩

/-- **A header that is refused is announced in part**: the entries of its first boxes are published, but media for them is refused. -/
theorem c124_half : ∃ (tr : Trace) (s : State), machine.Reach tr s ∧ (hist tr).header = none ∧
    ((hist tr).last.1.map fun v => v.track.name) = ["video1"] ∧ (step s (.write 1)).1 = .found none ∧
    (step s (.subscribe "video1")).1 = .found (some 0) :=
  ⟨_, _, machine.reach_run [.moov [exVideo, exText], .next, .next], by decide +kernel, by decide +kernel, by decide +kernel,
    by decide +kernel⟩

/-- A stream of the high tier with 8 bits. -/
def exHigh : Trak := ⟨1, .vide, [.av01 ⟨640, 480⟩ ⟨0, 8, true, false, false, false, true, true, 0⟩]⟩

/-- **It is announced as one of the main tier with 10 bits.** -/
theorem c124_tier : ∃ v, infoOf exHigh = .ok (.video v) ∧ String.ofList v.config.codec.format = "av01.0.08M.10" :=
  ⟨_, rfl, by decide +kernel⟩

/-- A stream of the professional profile. -/
def exProfile : Trak := ⟨1, .vide, [.av01 ⟨640, 480⟩ ⟨2, 8, false, true, true, false, false, false, 0⟩]⟩

/-- **With it, no reader (in Rust) gets the catalog that was published.** -/
theorem c124_profile : ∃ (tr : Trace) (s : State), machine.Reach tr s ∧ (hist tr).header = some [exProfile, exAudio] ∧
    ∀ (K : Floats) (q : Classes), Props.Codec.Classes.Ascii q →
      CatalogJson.read K q (CatalogJson.write K ⟨(hist tr).last.1, (hist tr).last.2, none⟩) ≠
        some ⟨(hist tr).last.1, (hist tr).last.2, none⟩ := by
  have h := machine.reach_run [.moov [exProfile, exAudio], .next, .next, .next]
  refine ⟨_, _, h, by decide +kernel, fun K q hq hc => ?_⟩
  have := (c124_read_partial h K hq).1 hc _ (List.mem_singleton.2 rfl)
  exact absurd this.profile (by decide)

end Verif.Props.ImportInit
