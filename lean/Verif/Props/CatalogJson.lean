import Verif.Js.CatalogLemmas
import Verif.Hang.CatalogJson
import Verif.Hang.CodecSpec
import Verif.Props.Codec

/-!
# C112: catalogs between Rust and the browser

What a reader makes of a catalog that was written by the same or by the other implementation.
-/

set_option autoImplicit false

namespace Verif.Props.CatalogJson

open Verif Verif.Json Verif.Js.Catalog

/-! ## Browser to browser -/

/-- The names of the keys of a video configuration that the schema knows. -/
def videoKeys : List String :=
  ["codec", "description", "codedWidth", "codedHeight", "displayRatioWidth", "displayRatioHeight", "framerate", "bitrate",
    "optimizeForLatency", "rotation", "flip"]

/-- The other keys have other names. -/
def Other (more : VideoConfig → List (String × Json)) : Prop := ∀ c, ∀ k ∈ videoKeys, lookup k (more c) = none

def ValidTrack (t : Js.Catalog.Track) : Prop := U32 t.priority

/-- The numbers are as the schema says. -/
def ValidVideo (v : Js.Catalog.Video) : Prop :=
  ValidTrack v.track ∧ (∀ x, v.config.codedWidth = some x → U32 x) ∧ (∀ x, v.config.codedHeight = some x → U32 x) ∧
  (∀ x, v.config.displayRatioWidth = some x → U32 x) ∧ (∀ x, v.config.displayRatioHeight = some x → U32 x) ∧
  (∀ x, v.config.framerate = some x → U32 x) ∧ (∀ x, v.config.bitrate = some x → U32 x) ∧
  (∀ x, v.config.rotation = some x → Finite x)

def ValidAudio (v : Js.Catalog.Audio) : Prop :=
  ValidTrack v.track ∧ U32 v.config.sampleRate ∧ U32 v.config.numberOfChannels ∧ (∀ x, v.config.bitrate = some x → U32 x)

def ValidPosition (p : Js.Catalog.Position) : Prop :=
  (∀ x, p.x = some x → Finite x) ∧ (∀ x, p.y = some x → Finite x) ∧ (∀ x, p.z = some x → Finite x) ∧
  (∀ x, p.scale = some x → Finite x)

def ValidLocation (l : Js.Catalog.Location) : Prop :=
  (∀ p, l.initial = some p → ValidPosition p) ∧ (∀ t, l.updates = some t → ValidTrack t) ∧
  (∀ ps, l.peers = some ps → ∀ e ∈ ps, ValidTrack e.2)

def ValidChat (c : Js.Catalog.Chat) : Prop := ValidTrack c.track ∧ ∀ x, c.ttl = some x → Finite x

/-- All numbers of a catalog are as the schema says. -/
def Valid (r : Root) : Prop :=
  (∀ l, r.video = some l → ∀ v ∈ l, ValidVideo v) ∧ (∀ l, r.audio = some l → ∀ v ∈ l, ValidAudio v) ∧
  (∀ l, r.location = some l → ValidLocation l) ∧ (∀ c, r.chat = some c → ValidChat c)

theorem track_same (a b : Js.Catalog.Track) : readTrack (track a) = some b ↔ ValidTrack a ∧ b = a := by
  simp only [readTrack, track, lookup_cons, need, String.reduceEq, if_true, if_false, Option.bind_some, readStr,
    Option.map_eq_some_iff, readUint32_num, ValidTrack]
  constructor
  · rintro ⟨q, ⟨h, rfl⟩, rfl⟩; exact ⟨h, rfl⟩
  · rintro ⟨h, rfl⟩; exact ⟨_, ⟨h, rfl⟩, rfl⟩

theorem videoConfig_same {more : VideoConfig → List (String × Json)} (hm : Other more) (a b : VideoConfig) :
    readVideoConfig (videoConfig more a) = some b ↔ ((∀ x, a.codedWidth = some x → U32 x) ∧
      (∀ x, a.codedHeight = some x → U32 x) ∧ (∀ x, a.displayRatioWidth = some x → U32 x) ∧
      (∀ x, a.displayRatioHeight = some x → U32 x) ∧ (∀ x, a.framerate = some x → U32 x) ∧
      (∀ x, a.bitrate = some x → U32 x) ∧ (∀ x, a.rotation = some x → Finite x)) ∧ b = a := by
  have hl := hm a
  simp only [videoKeys, List.mem_cons, List.not_mem_nil, or_false, forall_eq_or_imp, forall_eq] at hl
  simp only [readVideoConfig, videoConfig, lookup_append, lookup_fields_cons, hl, need, Option.or_none]
  simp only [String.reduceEq, if_true, if_false, lookup_fields_nil, Option.or_none, Option.bind_some, readStr,
    Option.bind_eq_some_iff, Option.map_eq_some_iff, opt_same str_same, opt_same bool_same, opt_same readUint32_num,
    opt_same readNumber_num]
  constructor
  · rintro ⟨_, ⟨-, rfl⟩, _, ⟨h1, rfl⟩, _, ⟨h2, rfl⟩, _, ⟨h3, rfl⟩, _, ⟨h4, rfl⟩, _, ⟨h5, rfl⟩, _, ⟨h6, rfl⟩,
      _, ⟨-, rfl⟩, _, ⟨h7, rfl⟩, _, ⟨-, rfl⟩, rfl⟩
    exact ⟨⟨h1, h2, h3, h4, h5, h6, h7⟩, rfl⟩
  · rintro ⟨⟨h1, h2, h3, h4, h5, h6, h7⟩, rfl⟩
    exact ⟨_, ⟨fun _ _ => trivial, rfl⟩, _, ⟨h1, rfl⟩, _, ⟨h2, rfl⟩, _, ⟨h3, rfl⟩, _, ⟨h4, rfl⟩, _, ⟨h5, rfl⟩,
      _, ⟨h6, rfl⟩, _, ⟨fun _ _ => trivial, rfl⟩, _, ⟨h7, rfl⟩, _, ⟨fun _ _ => trivial, rfl⟩, rfl⟩

theorem video_same {more : VideoConfig → List (String × Json)} (hm : Other more) (a b : Js.Catalog.Video) :
    readVideo (video more a) = some b ↔ ValidVideo a ∧ b = a := by
  simp only [readVideo, video, lookup_cons, need, String.reduceEq, if_true, if_false, Option.bind_some,
    Option.bind_eq_some_iff, Option.map_eq_some_iff, track_same, videoConfig_same hm, ValidVideo]
  constructor
  · rintro ⟨_, ⟨h1, rfl⟩, _, ⟨h2, rfl⟩, rfl⟩; exact ⟨⟨h1, h2⟩, rfl⟩
  · rintro ⟨⟨h1, h2⟩, rfl⟩; exact ⟨_, ⟨h1, rfl⟩, _, ⟨h2, rfl⟩, rfl⟩

theorem audioConfig_same (a b : Js.Catalog.AudioConfig) : readAudioConfig (audioConfig a) = some b ↔
    (U32 a.sampleRate ∧ U32 a.numberOfChannels ∧ (∀ x, a.bitrate = some x → U32 x)) ∧ b = a := by
  simp only [readAudioConfig, audioConfig, lookup_fields_cons, need, String.reduceEq, if_true, if_false,
    lookup_fields_nil, Option.or_none, Option.bind_some, readStr, Option.or_some,
    Option.bind_eq_some_iff, Option.map_eq_some_iff, opt_same str_same, readUint32_num, opt_same readUint32_num]
  constructor
  · rintro ⟨_, ⟨-, rfl⟩, _, ⟨h1, rfl⟩, _, ⟨h2, rfl⟩, _, ⟨h3, rfl⟩, rfl⟩
    exact ⟨⟨h1, h2, h3⟩, rfl⟩
  · rintro ⟨⟨h1, h2, h3⟩, rfl⟩
    exact ⟨_, ⟨fun _ _ => trivial, rfl⟩, _, ⟨h1, rfl⟩, _, ⟨h2, rfl⟩, _, ⟨h3, rfl⟩, rfl⟩

theorem audio_same (a b : Js.Catalog.Audio) : readAudio (audio a) = some b ↔ ValidAudio a ∧ b = a := by
  simp only [readAudio, audio, lookup_cons, need, String.reduceEq, if_true, if_false, Option.bind_some,
    Option.bind_eq_some_iff, Option.map_eq_some_iff, track_same, audioConfig_same, ValidAudio]
  constructor
  · rintro ⟨_, ⟨h1, rfl⟩, _, ⟨h2, rfl⟩, rfl⟩; exact ⟨⟨h1, h2⟩, rfl⟩
  · rintro ⟨⟨h1, h2⟩, rfl⟩; exact ⟨_, ⟨h1, rfl⟩, _, ⟨h2, rfl⟩, rfl⟩

theorem position_same (a b : Js.Catalog.Position) : readPosition (position a) = some b ↔ ValidPosition a ∧ b = a := by
  simp only [readPosition, position, lookup_fields_cons, String.reduceEq, if_true, if_false, lookup_fields_nil,
    Option.or_none, Option.bind_eq_some_iff, Option.map_eq_some_iff, opt_same readNumber_num, ValidPosition]
  constructor
  · rintro ⟨_, ⟨h1, rfl⟩, _, ⟨h2, rfl⟩, _, ⟨h3, rfl⟩, _, ⟨h4, rfl⟩, rfl⟩; exact ⟨⟨h1, h2, h3, h4⟩, rfl⟩
  · rintro ⟨⟨h1, h2, h3, h4⟩, rfl⟩; exact ⟨_, ⟨h1, rfl⟩, _, ⟨h2, rfl⟩, _, ⟨h3, rfl⟩, _, ⟨h4, rfl⟩, rfl⟩

theorem peers_same (a b : List (String × Js.Catalog.Track)) :
    readPeers (.obj (a.map fun e => (e.1, track e.2))) = some b ↔ (∀ e ∈ a, ValidTrack e.2) ∧ b = a := by
  rw [readPeers, all_map, listRel_congr (S := fun e f => ValidTrack e.2 ∧ f = e), listRel_eq_iff]
  intro e f
  simp only [Option.map_eq_some_iff, track_same]
  constructor
  · rintro ⟨_, ⟨h, rfl⟩, rfl⟩; exact ⟨h, rfl⟩
  · rintro ⟨h, rfl⟩; exact ⟨_, ⟨h, rfl⟩, rfl⟩

theorem location_same (a b : Js.Catalog.Location) : readLocation (location a) = some b ↔ ValidLocation a ∧ b = a := by
  simp only [readLocation, location, lookup_fields_cons, String.reduceEq, if_true, if_false, lookup_fields_nil,
    Option.or_none, Option.bind_eq_some_iff, Option.map_eq_some_iff, opt_same position_same, opt_same track_same,
    opt_same bool_same, opt_same peers_same, ValidLocation]
  constructor
  · rintro ⟨_, ⟨h1, rfl⟩, _, ⟨h2, rfl⟩, _, ⟨-, rfl⟩, _, ⟨h4, rfl⟩, rfl⟩; exact ⟨⟨h1, h2, h4⟩, rfl⟩
  · rintro ⟨⟨h1, h2, h4⟩, rfl⟩; exact ⟨_, ⟨h1, rfl⟩, _, ⟨h2, rfl⟩, _, ⟨fun _ _ => trivial, rfl⟩, _, ⟨h4, rfl⟩, rfl⟩

theorem user_same (a b : User) : readUser (user a) = some b ↔ True ∧ b = a := by
  simp only [readUser, user, lookup_fields_cons, String.reduceEq, if_true, if_false, lookup_fields_nil,
    Option.or_none, Option.bind_eq_some_iff, Option.map_eq_some_iff, opt_same str_same]
  constructor
  · rintro ⟨_, ⟨-, rfl⟩, _, ⟨-, rfl⟩, _, ⟨-, rfl⟩, _, ⟨-, rfl⟩, rfl⟩; exact ⟨trivial, rfl⟩
  · rintro ⟨-, rfl⟩
    exact ⟨_, ⟨fun _ _ => trivial, rfl⟩, _, ⟨fun _ _ => trivial, rfl⟩, _, ⟨fun _ _ => trivial, rfl⟩, _,
      ⟨fun _ _ => trivial, rfl⟩, rfl⟩

theorem chat_same (a b : Chat) : readChat (chat a) = some b ↔ ValidChat a ∧ b = a := by
  simp only [readChat, chat, lookup_fields_cons, need, String.reduceEq, if_true, if_false, lookup_fields_nil,
    Option.or_none, Option.or_some, Option.bind_some, Option.bind_eq_some_iff, Option.map_eq_some_iff, track_same,
    opt_same readNumber_num, ValidChat]
  constructor
  · rintro ⟨_, ⟨h1, rfl⟩, _, ⟨h2, rfl⟩, rfl⟩; exact ⟨⟨h1, h2⟩, rfl⟩
  · rintro ⟨⟨h1, h2⟩, rfl⟩; exact ⟨_, ⟨h1, rfl⟩, _, ⟨h2, rfl⟩, rfl⟩

theorem strings_same (a b : List String) : readArray readStr (.arr (a.map .str)) = some b ↔ True ∧ b = a := by
  rw [array_same str_same]
  simp

theorem codecs_same (a b : Codecs) : readCodecs (codecs a) = some b ↔ True ∧ b = a := by
  simp only [readCodecs, codecs, lookup_fields_cons, String.reduceEq, if_true, if_false, lookup_fields_nil,
    Option.or_none, Option.bind_eq_some_iff, Option.map_eq_some_iff, opt_same strings_same]
  constructor
  · rintro ⟨_, ⟨-, rfl⟩, _, ⟨-, rfl⟩, _, ⟨-, rfl⟩, rfl⟩; exact ⟨trivial, rfl⟩
  · rintro ⟨-, rfl⟩
    exact ⟨_, ⟨fun _ _ => trivial, rfl⟩, _, ⟨fun _ _ => trivial, rfl⟩, _, ⟨fun _ _ => trivial, rfl⟩, rfl⟩

theorem capabilities_same (a b : Capabilities) : readCapabilities (capabilities a) = some b ↔ True ∧ b = a := by
  simp only [readCapabilities, capabilities, lookup_fields_cons, String.reduceEq, if_true, if_false, lookup_fields_nil,
    Option.or_none, Option.bind_eq_some_iff, Option.map_eq_some_iff, opt_same codecs_same]
  constructor
  · rintro ⟨_, ⟨-, rfl⟩, _, ⟨-, rfl⟩, rfl⟩; exact ⟨trivial, rfl⟩
  · rintro ⟨-, rfl⟩
    exact ⟨_, ⟨fun _ _ => trivial, rfl⟩, _, ⟨fun _ _ => trivial, rfl⟩, rfl⟩

/-- A browser reads a catalog of a browser exactly if its numbers are as the schema says, and then it is the same. -/
theorem c112_browsers {more : VideoConfig → List (String × Json)} (hm : Other more) (r r' : Root) :
    Js.Catalog.read (write more r) = some r' ↔ Valid r ∧ r' = r := by
  have hv : ∀ a b : List Js.Catalog.Video, readArray readVideo (.arr (a.map (video more))) = some b ↔ _ :=
    array_same (video_same hm)
  have ha : ∀ a b : List Js.Catalog.Audio, readArray readAudio (.arr (a.map audio)) = some b ↔ _ := array_same audio_same
  simp only [Js.Catalog.read, write, lookup_fields_cons, String.reduceEq, if_true, if_false, lookup_fields_nil,
    Option.or_none, Option.bind_eq_some_iff, Option.map_eq_some_iff, opt_same hv, opt_same ha, opt_same location_same,
    opt_same user_same, opt_same chat_same, opt_same capabilities_same, Valid]
  constructor
  · rintro ⟨_, ⟨h1, rfl⟩, _, ⟨h2, rfl⟩, _, ⟨h3, rfl⟩, _, ⟨-, rfl⟩, _, ⟨h4, rfl⟩, _, ⟨-, rfl⟩, rfl⟩
    exact ⟨⟨h1, h2, h3, h4⟩, rfl⟩
  · rintro ⟨⟨h1, h2, h3, h4⟩, rfl⟩
    exact ⟨_, ⟨h1, rfl⟩, _, ⟨h2, rfl⟩, _, ⟨h3, rfl⟩, _, ⟨fun _ _ => trivial, rfl⟩, _, ⟨h4, rfl⟩, _,
      ⟨fun _ _ => trivial, rfl⟩, rfl⟩

/-! ## Rust to browser -/

/-- A track as a browser sees it. -/
structure SeenTrack (t : Hang.CatalogJson.Track) (r : Js.Catalog.Track) : Prop where
  name : r.name = t.name
  priority : r.priority = .fin t.priority.toNat

/-- The configuration of video as a browser sees it. -/
structure SeenVideo (v : Hang.CatalogJson.Video) (r : Js.Catalog.Video) : Prop where
  track : SeenTrack v.track r.track
  codec : r.config.codec = String.ofList v.config.codec.format
  description : r.config.description = v.config.description.map Hang.CatalogJson.hex
  codedWidth : r.config.codedWidth = v.config.codedWidth.map fun n => .fin n.toNat
  codedHeight : r.config.codedHeight = v.config.codedHeight.map fun n => .fin n.toNat
  displayRatioWidth : r.config.displayRatioWidth = v.config.displayRatioWidth.map fun n => .fin n.toNat
  displayRatioHeight : r.config.displayRatioHeight = v.config.displayRatioHeight.map fun n => .fin n.toNat
  /-- the frame rate is a whole number -/
  framerate : r.config.framerate = v.config.framerate ∧ ∀ x, v.config.framerate = some x → U32 x
  bitrate : r.config.bitrate = (v.config.bitrate.map fun n => .fin n.toNat) ∧
    ∀ n, v.config.bitrate = some n → n.toNat < 2 ^ 32
  optimizeForLatency : r.config.optimizeForLatency = v.config.optimizeForLatency
  rotation : r.config.rotation = v.config.rotation ∧ ∀ x, v.config.rotation = some x → Finite x
  flip : r.config.flip = v.config.flip

structure SeenAudio (v : Hang.CatalogJson.Audio) (r : Js.Catalog.Audio) : Prop where
  track : SeenTrack v.track r.track
  codec : r.config.codec = String.ofList v.config.codec.format
  description : r.config.description = v.config.description.map Hang.CatalogJson.hex
  sampleRate : r.config.sampleRate = .fin v.config.sampleRate.toNat
  numberOfChannels : r.config.numberOfChannels = .fin v.config.channelCount.toNat
  bitrate : r.config.bitrate = (v.config.bitrate.map fun n => .fin n.toNat) ∧
    ∀ n, v.config.bitrate = some n → n.toNat < 2 ^ 32

/-- A coordinate as a browser sees it. -/
def SeenCoordinate (K : Floats) (x : Num) (r : Option Num) : Prop := ∃ q, x = .fin q ∧ r = some (.fin (K.short q))

/-- There are an initial position with finite numbers and a track of updates; the zoom is not seen. -/
structure SeenLocation (K : Floats) (l : Hang.CatalogJson.Location) (r : Js.Catalog.Location) : Prop where
  initial : ∃ p q, l.initial = some p ∧ r.initial = some q ∧ SeenCoordinate K p.x q.x ∧ SeenCoordinate K p.y q.y ∧
    q.z = none ∧ q.scale = none
  updates : ∃ t u, l.updates = some t ∧ r.updates = some u ∧ SeenTrack t u
  peering : r.peering = none
  peers : if l.peers = [] then r.peers = none else ∃ ps, r.peers = some ps ∧
    ListRel (fun e f => f.1 = Nat.repr e.1.toNat ∧ SeenTrack e.2 f.2) l.peers ps

/-- Rust's catalog as a browser sees it. -/
structure Seen (K : Floats) (c : Hang.CatalogJson.Catalog) (r : Root) : Prop where
  video : if c.video = [] then r.video = none else ∃ l, r.video = some l ∧ ListRel SeenVideo c.video l
  audio : if c.audio = [] then r.audio = none else ∃ l, r.audio = some l ∧ ListRel SeenAudio c.audio l
  location : OptRel (SeenLocation K) c.location r.location
  user : r.user = none
  chat : r.chat = none
  capabilities : r.capabilities = none

theorem readUint32_int (n : Nat) (x : Num) : readUint32 (.int n) = some x ↔ n < 2 ^ 32 ∧ x = .fin n := by
  by_cases h : n < 2 ^ 53
  · have : Json.int n = num (.fin n) := by
      show _ = if (n : Rat).den = 1 ∧ (n : Rat).num.natAbs < 2 ^ 53 then Json.int (n : Rat).num else .dec n
      rw [if_pos ⟨by simp, by simpa using h⟩]
      simp
    rw [this, readUint32_num]
    constructor
    · rintro ⟨⟨m, hm, e⟩, rfl⟩
      have : n = m := by
        injection e with e
        exact Rat.natCast_inj.1 e
      exact ⟨this ▸ hm, rfl⟩
    · rintro ⟨h, rfl⟩; exact ⟨⟨n, h, rfl⟩, rfl⟩
  · have h1 := double_nat_big (Nat.le_of_not_lt h)
    have : readUint32 (.int n) = none := by
      unfold readUint32
      rw [readNumber]
      dsimp only
      rw [if_neg]
      rintro ⟨-, -, h2⟩
      have : double n ≤ 4294967295 := Rat.intCast_le_intCast.1 h2
      omega
    rw [this]
    constructor
    · intro h; cases h
    · rintro ⟨h, -⟩; omega

theorem optRel_map {α β : Type} (f : α → β) (o : Option α) (r : Option β) :
    OptRel (fun a b => b = f a) o r ↔ r = o.map f := by
  constructor
  · intro h
    cases h with
    | none => rfl
    | some h => rw [h]; rfl
  · rintro rfl
    cases o with
    | none => exact .none
    | some a => exact .some rfl

theorem optRel_map_if {α β : Type} (P : α → Prop) (f : α → β) (o : Option α) (r : Option β) :
    OptRel (fun a b => P a ∧ b = f a) o r ↔ r = o.map f ∧ ∀ a, o = some a → P a := by
  constructor
  · intro h
    cases h with
    | none => simp
    | some h => rw [h.2]; simp [h.1]
  · rintro ⟨rfl, h⟩
    cases o with
    | none => exact .none
    | some a => exact .some ⟨h a rfl, rfl⟩

theorem opt_str {α : Type} (f : α → String) (o : Option α) (r : Option String) :
    opt readStr (o.map fun a => .str (f a)) = some r ↔ r = o.map f := by
  rw [opt_map, ← optRel_map]
  exact optRel_congr fun a b => by simp [readStr, eq_comm]

theorem opt_bool (o r : Option Bool) : opt readBool (o.map .bool) = some r ↔ r = o := by
  rw [opt_same bool_same]
  simp

theorem opt_u32 (o : Option UInt32) (r : Option Num) :
    opt readUint32 (o.map fun n => .int n.toNat) = some r ↔ r = o.map fun n => .fin n.toNat := by
  rw [opt_map, ← optRel_map]
  refine optRel_congr fun a b => ?_
  rw [readUint32_int]
  exact ⟨fun h => h.2, fun h => ⟨a.toNat_lt, h⟩⟩

theorem opt_u64 (o : Option UInt64) (r : Option Num) :
    opt readUint32 (o.map fun n => .int n.toNat) = some r ↔
      r = (o.map fun n => .fin n.toNat) ∧ ∀ n, o = some n → n.toNat < 2 ^ 32 := by
  rw [opt_map, ← optRel_map_if (fun n : UInt64 => n.toNat < 2 ^ 32) (fun n => Num.fin n.toNat)]
  exact optRel_congr fun a b => readUint32_int _ _

theorem f64_uint32 (x y : Num) : readUint32 (Hang.CatalogJson.f64 x) = some y ↔ U32 x ∧ y = x := by
  cases x with
  | nan => simp [Hang.CatalogJson.f64, readUint32, readNumber, U32]
  | inf b => simp [Hang.CatalogJson.f64, readUint32, readNumber, U32]
  | fin q =>
    simp only [Hang.CatalogJson.f64, readUint32, readNumber, uint32_iff]
    split
    · next h =>
      obtain ⟨n, hn, rfl⟩ := h
      constructor
      · intro h; injection h with h; exact ⟨⟨n, hn, rfl⟩, h.symm⟩
      · rintro ⟨-, rfl⟩; rfl
    · next h =>
      constructor
      · intro h; cases h
      · rintro ⟨⟨n, hn, e⟩, -⟩
        injection e with e
        exact absurd ⟨n, hn, e⟩ h

theorem f64_number (x y : Num) : readNumber (Hang.CatalogJson.f64 x) = some y ↔ Finite x ∧ y = x := by
  cases x with
  | nan => simp [Hang.CatalogJson.f64, readNumber, Finite]
  | inf b => simp [Hang.CatalogJson.f64, readNumber, Finite]
  | fin q => simp [Hang.CatalogJson.f64, readNumber, Finite, eq_comm]

theorem track_seen (t : Hang.CatalogJson.Track) (r : Js.Catalog.Track) :
    readTrack (Hang.CatalogJson.track t) = some r ↔ SeenTrack t r := by
  simp only [readTrack, Hang.CatalogJson.track, lookup_cons, need, String.reduceEq, if_true, if_false, Option.bind_some,
    readStr, Option.map_eq_some_iff, readUint32_int]
  constructor
  · rintro ⟨q, ⟨h, rfl⟩, rfl⟩; exact ⟨rfl, rfl⟩
  · rintro ⟨h1, h2⟩
    exact ⟨_, ⟨Nat.lt_of_lt_of_le t.priority.toNat_lt (by decide), rfl⟩, by rw [← h1, ← h2]⟩

theorem video_seen (v : Hang.CatalogJson.Video) (r : Js.Catalog.Video) :
    readVideo (Hang.CatalogJson.video v) = some r ↔ SeenVideo v r := by
  simp only [readVideo, Hang.CatalogJson.video, lookup_cons, need, String.reduceEq, if_true, if_false, Option.bind_some,
    Option.bind_eq_some_iff, Option.map_eq_some_iff, track_seen]
  simp only [readVideoConfig, Hang.CatalogJson.videoConfig, lookup_fields_cons, need, String.reduceEq, if_true, if_false,
    lookup_fields_nil, Option.or_none, Option.or_some, Option.bind_some, readStr, Option.bind_eq_some_iff,
    Option.map_eq_some_iff, opt_str, opt_bool, opt_u32, opt_u64, opt_same f64_uint32, opt_same f64_number]
  constructor
  · rintro ⟨t, ht, _, ⟨_, rfl, _, rfl, _, rfl, _, rfl, _, rfl, _, ⟨h1, rfl⟩, _, ⟨rfl, h2⟩, _, rfl, _, ⟨h3, rfl⟩, _, rfl,
      rfl⟩, rfl⟩
    exact ⟨ht, rfl, rfl, rfl, rfl, rfl, rfl, ⟨rfl, h1⟩, ⟨rfl, h2⟩, rfl, ⟨rfl, h3⟩, rfl⟩
  · obtain ⟨t, c⟩ := r
    obtain ⟨_, _, _, _, _, _, _, _, _, _, _⟩ := c
    rintro ⟨ht, rfl, rfl, rfl, rfl, rfl, rfl, ⟨rfl, h1⟩, ⟨rfl, h2⟩, rfl, ⟨rfl, h3⟩, rfl⟩
    exact ⟨t, ht, _, ⟨_, rfl, _, rfl, _, rfl, _, rfl, _, rfl, _, ⟨h1, rfl⟩, _, ⟨rfl, h2⟩, _, rfl, _, ⟨h3, rfl⟩, _, rfl,
      rfl⟩, rfl⟩

theorem audio_seen (v : Hang.CatalogJson.Audio) (r : Js.Catalog.Audio) :
    readAudio (Hang.CatalogJson.audio v) = some r ↔ SeenAudio v r := by
  simp only [readAudio, Hang.CatalogJson.audio, lookup_cons, need, String.reduceEq, if_true, if_false, Option.bind_some,
    Option.bind_eq_some_iff, Option.map_eq_some_iff, track_seen]
  simp only [readAudioConfig, Hang.CatalogJson.audioConfig, lookup_fields_cons, need, String.reduceEq, if_true, if_false,
    lookup_fields_nil, Option.or_none, Option.or_some, Option.bind_some, readStr, Option.bind_eq_some_iff,
    Option.map_eq_some_iff, opt_str, opt_u64, readUint32_int]
  constructor
  · rintro ⟨t, ht, _, ⟨_, rfl, _, ⟨-, rfl⟩, _, ⟨-, rfl⟩, _, ⟨rfl, h⟩, rfl⟩, rfl⟩
    exact ⟨ht, rfl, rfl, rfl, rfl, ⟨rfl, h⟩⟩
  · obtain ⟨t, c⟩ := r
    obtain ⟨_, _, _, _, _⟩ := c
    rintro ⟨ht, rfl, rfl, rfl, rfl, ⟨rfl, h⟩⟩
    exact ⟨t, ht, _, ⟨_, rfl, _, ⟨UInt32.toNat_lt _, rfl⟩, _, ⟨UInt32.toNat_lt _, rfl⟩, _, ⟨rfl, h⟩, rfl⟩, rfl⟩

theorem f32_seen (K : Floats) (x : Num) (r : Option Num) :
    opt readNumber (some (Hang.CatalogJson.f32 K x)) = some r ↔ SeenCoordinate K x r := by
  cases x with
  | nan => simp [Hang.CatalogJson.f32, opt, readNumber, SeenCoordinate]
  | inf b => simp [Hang.CatalogJson.f32, opt, readNumber, SeenCoordinate]
  | fin q => simp [Hang.CatalogJson.f32, opt, readNumber, SeenCoordinate, eq_comm]

theorem opt_none {α : Type} (p : Json → Option α) (r : Option α) : opt p none = some r ↔ r = none := by
  simp [opt, eq_comm]

theorem opt_some {α : Type} (p : Json → Option α) (j : Json) (r : Option α) :
    opt p (some j) = some r ↔ ∃ a, p j = some a ∧ r = some a := by
  simp [opt, eq_comm]

theorem position_seen (K : Floats) (p : Hang.CatalogJson.Position) (q : Js.Catalog.Position) :
    readPosition (Hang.CatalogJson.position K p) = some q ↔
      SeenCoordinate K p.x q.x ∧ SeenCoordinate K p.y q.y ∧ q.z = none ∧ q.scale = none := by
  simp only [readPosition, Hang.CatalogJson.position, lookup_cons, String.reduceEq, if_true, if_false,
    Option.bind_eq_some_iff, Option.map_eq_some_iff, f32_seen, lookup_nil, opt_none]
  constructor
  · rintro ⟨_, h1, _, h2, _, rfl, _, rfl, rfl⟩; exact ⟨h1, h2, rfl, rfl⟩
  · obtain ⟨_, _, _, _⟩ := q
    rintro ⟨h1, h2, rfl, rfl⟩; exact ⟨_, h1, _, h2, _, rfl, _, rfl, rfl⟩

theorem peers_seen (l : List (UInt32 × Hang.CatalogJson.Track)) (r : List (String × Js.Catalog.Track)) :
    readPeers (.obj (l.map fun e => (Hang.CatalogJson.key e.1, Hang.CatalogJson.track e.2))) = some r ↔
      ListRel (fun e f => f.1 = Nat.repr e.1.toNat ∧ SeenTrack e.2 f.2) l r := by
  rw [readPeers, all_map]
  refine listRel_congr fun e f => ?_
  simp only [Option.map_eq_some_iff, track_seen, Hang.CatalogJson.key]
  constructor
  · rintro ⟨t, h, rfl⟩; exact ⟨rfl, h⟩
  · obtain ⟨k, t⟩ := f
    rintro ⟨rfl, h⟩; exact ⟨t, h, rfl⟩

theorem location_seen (K : Floats) (l : Hang.CatalogJson.Location) (r : Js.Catalog.Location) :
    readLocation (Hang.CatalogJson.location K l) = some r ↔ SeenLocation K l r := by
  have hi : ∀ r, opt readPosition (some (Hang.CatalogJson.orNull (Hang.CatalogJson.position K) l.initial)) =
      some r ↔ ∃ p q, l.initial = some p ∧ r = some q ∧ SeenCoordinate K p.x q.x ∧ SeenCoordinate K p.y q.y ∧
        q.z = none ∧ q.scale = none := by
    intro r
    cases hl : l.initial with
    | none => simp [opt, readPosition, Hang.CatalogJson.orNull]
    | some p =>
      rw [opt_some]
      simp only [position_seen, Hang.CatalogJson.orNull]
      constructor
      · rintro ⟨q, h, rfl⟩; exact ⟨p, q, rfl, rfl, h⟩
      · rintro ⟨p', q, h, rfl, h'⟩; injection h with h; subst h; exact ⟨q, h', rfl⟩
  have hu : ∀ r, opt readTrack (some (Hang.CatalogJson.orNull Hang.CatalogJson.track l.updates)) =
      some r ↔ ∃ t u, l.updates = some t ∧ r = some u ∧ SeenTrack t u := by
    intro r
    cases hl : l.updates with
    | none => simp [opt, readTrack, Hang.CatalogJson.orNull]
    | some p =>
      rw [opt_some]
      simp only [track_seen, Hang.CatalogJson.orNull]
      constructor
      · rintro ⟨q, h, rfl⟩; exact ⟨p, q, rfl, rfl, h⟩
      · rintro ⟨p', q, h, rfl, h'⟩; injection h with h; subst h; exact ⟨q, h', rfl⟩
  have hp : ∀ r, opt readPeers (if l.peers = [] then none else
      some (.obj (l.peers.map fun e => (Hang.CatalogJson.key e.1, Hang.CatalogJson.track e.2)))) = some r ↔
      if l.peers = [] then r = none else ∃ ps, r = some ps ∧
        ListRel (fun e f => f.1 = Nat.repr e.1.toNat ∧ SeenTrack e.2 f.2) l.peers ps := by
    intro r
    split
    · exact opt_none _ _
    · rw [opt_some]
      simp only [peers_seen]
      exact ⟨fun ⟨a, h1, h2⟩ => ⟨a, h2, h1⟩, fun ⟨a, h1, h2⟩ => ⟨a, h2, h1⟩⟩
  simp only [readLocation, Hang.CatalogJson.location, lookup_fields_cons, String.reduceEq, if_true, if_false,
    lookup_fields_nil, Option.or_none, Option.bind_eq_some_iff, Option.map_eq_some_iff, hi, hu, hp, opt_none]
  constructor
  · rintro ⟨_, h1, _, h2, _, rfl, _, h3, rfl⟩; exact ⟨h1, h2, rfl, h3⟩
  · obtain ⟨_, _, _, _⟩ := r
    rintro ⟨h1, h2, rfl, h3⟩; exact ⟨_, h1, _, h2, _, rfl, _, h3, rfl⟩

/-- What a browser makes of Rust's catalog.  It fails to read it, if a frame rate is not a whole number, a bitrate is at
least 2^32, a number is not finite, or a location lacks its initial position or its track. -/
theorem c112_to_browser_partial (K : Floats) (c : Hang.CatalogJson.Catalog) (r : Root) :
    Js.Catalog.read (Hang.CatalogJson.write K c) = some r ↔ Seen K c r := by
  have hv : ∀ r, opt (readArray readVideo) (if c.video = [] then none else some (.arr (c.video.map Hang.CatalogJson.video))) =
      some r ↔ if c.video = [] then r = none else ∃ l, r = some l ∧ ListRel SeenVideo c.video l := by
    intro r
    split
    · exact opt_none _ _
    · rw [opt_some]
      simp only [readArray, all_map, listRel_congr video_seen]
      exact ⟨fun ⟨a, h1, h2⟩ => ⟨a, h2, h1⟩, fun ⟨a, h1, h2⟩ => ⟨a, h2, h1⟩⟩
  have ha : ∀ r, opt (readArray readAudio) (if c.audio = [] then none else some (.arr (c.audio.map Hang.CatalogJson.audio))) =
      some r ↔ if c.audio = [] then r = none else ∃ l, r = some l ∧ ListRel SeenAudio c.audio l := by
    intro r
    split
    · exact opt_none _ _
    · rw [opt_some]
      simp only [readArray, all_map, listRel_congr audio_seen]
      exact ⟨fun ⟨a, h1, h2⟩ => ⟨a, h2, h1⟩, fun ⟨a, h1, h2⟩ => ⟨a, h2, h1⟩⟩
  have hl : ∀ r, opt readLocation (c.location.map (Hang.CatalogJson.location K)) = some r ↔
      OptRel (SeenLocation K) c.location r := by
    intro r
    rw [opt_map, optRel_congr (location_seen K)]
  simp only [Js.Catalog.read, Hang.CatalogJson.write, lookup_fields_cons, String.reduceEq, if_true, if_false,
    lookup_fields_nil, Option.or_none, Option.bind_eq_some_iff, Option.map_eq_some_iff, hv, ha, hl, opt_none]
  constructor
  · rintro ⟨_, h1, _, h2, _, h3, _, rfl, _, rfl, _, rfl, rfl⟩; exact ⟨h1, h2, h3, rfl, rfl, rfl⟩
  · obtain ⟨_, _, _, _, _, _⟩ := r
    rintro ⟨h1, h2, h3, rfl, rfl, rfl⟩; exact ⟨_, h1, _, h2, _, h3, _, rfl, _, rfl, _, rfl, rfl⟩

/-! ## Browser to Rust -/

/-- A text is bytes in hex, two digits for each. -/
inductive HexOf : List Char → Bytes → Prop
  | nil : HexOf [] []
  | cons {a b : Char} {x y : Nat} {r : List Char} {bs : Bytes} :
      Hang.IsDigit 16 a x → Hang.IsDigit 16 b y → HexOf r bs → HexOf (a :: b :: r) (UInt8.ofNat (16 * x + y) :: bs)

/-- A number that may be missing; what is not finite gets lost. -/
def Arrives {α : Type} (R : Rat → α → Prop) (o : Option Num) (r : Option α) : Prop :=
  match o with
  | some (.fin q) => ∃ a, r = some a ∧ R q a
  | _ => r = none

/-- The double that Rust reads: whole numbers below 2^53 are exact. -/
def readsF64 (K : Floats) (q : Rat) : Num := .fin (if q.den = 1 ∧ q.num.natAbs < 2 ^ 53 then q else K.f64 q)

structure SameTrack (t : Js.Catalog.Track) (u : Hang.CatalogJson.Track) : Prop where
  name : u.name = t.name
  priority : t.priority = .fin u.priority.toNat

structure SameVideo (K : Floats) (k : Hang.Classes) (v : Js.Catalog.Video) (u : Hang.CatalogJson.Video) : Prop where
  track : SameTrack v.track u.track
  codec : Hang.VideoCodec.parse k v.config.codec.toList = .ok u.config.codec
  description : OptRel (fun s b => HexOf s.toList b) v.config.description u.config.description
  codedWidth : Arrives (fun q n => q = n.toNat) v.config.codedWidth u.config.codedWidth
  codedHeight : Arrives (fun q n => q = n.toNat) v.config.codedHeight u.config.codedHeight
  displayRatioWidth : Arrives (fun q n => q = n.toNat) v.config.displayRatioWidth u.config.displayRatioWidth
  displayRatioHeight : Arrives (fun q n => q = n.toNat) v.config.displayRatioHeight u.config.displayRatioHeight
  framerate : Arrives (fun q x => x = readsF64 K q) v.config.framerate u.config.framerate
  bitrate : Arrives (fun q n => q = n.toNat) v.config.bitrate u.config.bitrate
  optimizeForLatency : u.config.optimizeForLatency = v.config.optimizeForLatency
  rotation : Arrives (fun q x => x = readsF64 K q) v.config.rotation u.config.rotation
  flip : u.config.flip = v.config.flip

structure SameAudio (v : Js.Catalog.Audio) (u : Hang.CatalogJson.Audio) : Prop where
  track : SameTrack v.track u.track
  codec : Hang.AudioCodec.parse v.config.codec.toList = .ok u.config.codec
  description : OptRel (fun s b => HexOf s.toList b) v.config.description u.config.description
  sampleRate : v.config.sampleRate = .fin u.config.sampleRate.toNat
  channelCount : v.config.numberOfChannels = .fin u.config.channelCount.toNat
  bitrate : Arrives (fun q n => q = n.toNat) v.config.bitrate u.config.bitrate

/-- A coordinate: zero if missing. -/
def SameCoordinate (K : Floats) (o : Option Num) (x : Num) : Prop :=
  (o = none ∧ x = .fin 0) ∨ ∃ q, o = some (.fin q) ∧ x = K.f32 q

/-- Neither the scale nor the z coordinate arrive; the zoom is always 1. -/
structure SamePosition (K : Floats) (p : Js.Catalog.Position) (u : Hang.CatalogJson.Position) : Prop where
  x : SameCoordinate K p.x u.x
  y : SameCoordinate K p.y u.y
  zoom : u.zoom = .fin 1

structure SameLocation (K : Floats) (l : Js.Catalog.Location) (u : Hang.CatalogJson.Location) : Prop where
  initial : OptRel (SamePosition K) l.initial u.initial
  updates : OptRel SameTrack l.updates u.updates
  /-- the names of peers are numbers -/
  peers : ListRel (fun e f => e.1 = Nat.repr f.1.toNat ∧ SameTrack e.2 f.2) (l.peers.getD []) u.peers
  handle : u.handle = none

/-- The catalog of a browser as Rust sees it. -/
structure Same (K : Floats) (k : Hang.Classes) (r : Root) (c : Hang.CatalogJson.Catalog) : Prop where
  video : ListRel (SameVideo K k) (r.video.getD []) c.video
  audio : ListRel SameAudio (r.audio.getD []) c.audio
  location : OptRel (SameLocation K) r.location c.location

/-- A bitrate is below 2^53, or not a whole number. -/
def SmallRate (o : Option Num) : Prop := ∀ q, o = some (.fin q) → q.den = 1 → q.num.natAbs < 2 ^ 53

/-- All bitrates are below 2^53, or not whole numbers. -/
def SmallRates (r : Root) : Prop :=
  (∀ v ∈ r.video.getD [], SmallRate v.config.bitrate) ∧ ∀ v ∈ r.audio.getD [], SmallRate v.config.bitrate

theorem natCast_num {q : Rat} (h : q.den = 1) (h0 : 0 ≤ q.num) : q = (q.num.toNat : Rat) := by
  have h1 : ((q.num.toNat : Nat) : Int) = q.num := Int.toNat_of_nonneg h0
  have h2 : q = (q.num : Rat) := by apply Rat.ext <;> simp [h]
  calc q = ((q.num : Int) : Rat) := h2
    _ = (((q.num.toNat : Nat) : Int) : Rat) := by rw [h1]
    _ = _ := by norm_cast

theorem readUint_num (b : Nat) (q : Rat) (n : Nat) (h : b ≤ 2 ^ 53 ∨ (q.den = 1 → q.num.natAbs < 2 ^ 53)) :
    Hang.CatalogJson.readUint b (num (.fin q)) = some n ↔ q = n ∧ n < b := by
  show Hang.CatalogJson.readUint b (if q.den = 1 ∧ q.num.natAbs < 2 ^ 53 then .int q.num else .dec q) = _ ↔ _
  split
  · next hq =>
    rw [Hang.CatalogJson.readUint]
    split
    · next hb =>
      have e := natCast_num hq.1 hb.1
      constructor
      · intro h
        injection h with h
        subst h
        exact ⟨e, by omega⟩
      · rintro ⟨h1, h2⟩
        rw [h1]
        simp
    · next hb =>
      constructor
      · intro h; cases h
      · rintro ⟨rfl, h2⟩
        simp at hb
        omega
  · next hq =>
    have : Hang.CatalogJson.readUint b (.dec q) = none := rfl
    rw [this]
    constructor
    · intro h; cases h
    · rintro ⟨rfl, h2⟩
      exfalso
      apply hq
      refine ⟨by simp, ?_⟩
      rcases h with h | h
      · simp; omega
      · exact h (by simp)

theorem readU8_num (q : Rat) (n : UInt8) : Hang.CatalogJson.readU8 (num (.fin q)) = some n ↔ q = n.toNat := by
  simp only [Hang.CatalogJson.readU8, Option.map_eq_some_iff, readUint_num _ q _ (.inl (by decide : 2 ^ 8 ≤ 2 ^ 53))]
  constructor
  · rintro ⟨m, ⟨rfl, hm⟩, rfl⟩; simp [Nat.mod_eq_of_lt hm]
  · rintro rfl; exact ⟨n.toNat, ⟨rfl, n.toNat_lt⟩, by simp⟩

theorem readU32_num (q : Rat) (n : UInt32) : Hang.CatalogJson.readU32 (num (.fin q)) = some n ↔ q = n.toNat := by
  simp only [Hang.CatalogJson.readU32, Option.map_eq_some_iff, readUint_num _ q _ (.inl (by decide : 2 ^ 32 ≤ 2 ^ 53))]
  constructor
  · rintro ⟨m, ⟨rfl, hm⟩, rfl⟩; simp [Nat.mod_eq_of_lt hm]
  · rintro rfl; exact ⟨n.toNat, ⟨rfl, n.toNat_lt⟩, by simp⟩

theorem readU64_num (q : Rat) (h : q.den = 1 → q.num.natAbs < 2 ^ 53) (n : UInt64) :
    Hang.CatalogJson.readU64 (num (.fin q)) = some n ↔ q = n.toNat := by
  simp only [Hang.CatalogJson.readU64, Option.map_eq_some_iff, readUint_num _ q _ (.inr h)]
  constructor
  · rintro ⟨m, ⟨rfl, hm⟩, rfl⟩; simp [Nat.mod_eq_of_lt hm]
  · rintro rfl; exact ⟨n.toNat, ⟨rfl, n.toNat_lt⟩, by simp⟩

theorem readF64_num (K : Floats) (q : Rat) (x : Num) :
    Hang.CatalogJson.readF64 K (num (.fin q)) = some x ↔ x = readsF64 K q := by
  show Hang.CatalogJson.readF64 K (if q.den = 1 ∧ q.num.natAbs < 2 ^ 53 then .int q.num else .dec q) = _ ↔ _
  unfold readsF64
  split
  · next h =>
    rw [Hang.CatalogJson.readF64, double_small h.2]
    have : (q.num : Rat) = q := by apply Rat.ext <;> simp [h.1]
    rw [this]
    simp [eq_comm]
  · simp [Hang.CatalogJson.readF64, eq_comm]

theorem readF32_num (K : Floats) (q : Rat) (x : Num) :
    Hang.CatalogJson.readF32 K (num (.fin q)) = some x ↔ x = K.f32 q := by
  show Hang.CatalogJson.readF32 K (if q.den = 1 ∧ q.num.natAbs < 2 ^ 53 then .int q.num else .dec q) = _ ↔ _
  split
  · next h =>
    rw [Hang.CatalogJson.readF32]
    have : (q.num : Rat) = q := by apply Rat.ext <;> simp [h.1]
    rw [this]
    simp [eq_comm]
  · simp [Hang.CatalogJson.readF32, eq_comm]

theorem num_ne_null (q : Rat) : num (.fin q) ≠ .null := by
  show (if q.den = 1 ∧ q.num.natAbs < 2 ^ 53 then Json.int q.num else .dec q) ≠ _
  split <;> simp

theorem ropt_some {α : Type} (p : Json → Option α) (j : Json) (hj : j ≠ .null) (r : Option α) :
    Hang.CatalogJson.opt p (some j) = some r ↔ ∃ a, p j = some a ∧ r = some a := by
  have : Hang.CatalogJson.opt p (some j) = (p j).map some := by
    cases j <;> first | rfl | exact absurd rfl hj
  rw [this]
  simp [eq_comm]

theorem ropt_num {α : Type} {p : Json → Option α} {R : Rat → α → Prop} (o : Option Num)
    (h : ∀ q, o = some (.fin q) → ∀ a, p (num (.fin q)) = some a ↔ R q a) (r : Option α) :
    Hang.CatalogJson.opt p (o.map num) = some r ↔ Arrives R o r := by
  cases o with
  | none => simp [Hang.CatalogJson.opt, Arrives, eq_comm]
  | some x =>
    cases x with
    | nan => simp [Hang.CatalogJson.opt, Arrives, num, eq_comm]
    | inf b => simp [Hang.CatalogJson.opt, Arrives, num, eq_comm]
    | fin q =>
      rw [Option.map_some, ropt_some _ _ (num_ne_null q)]
      simp only [h q rfl, Arrives]
      exact ⟨fun ⟨a, h1, h2⟩ => ⟨a, h2, h1⟩, fun ⟨a, h1, h2⟩ => ⟨a, h2, h1⟩⟩

theorem ropt_map {α β : Type} {p : Json → Option β} {f : α → Json} (hf : ∀ a, f a ≠ .null) {R : α → β → Prop}
    (h : ∀ a b, p (f a) = some b ↔ R a b) (o : Option α) (r : Option β) :
    Hang.CatalogJson.opt p (o.map f) = some r ↔ OptRel R o r := by
  cases o with
  | none =>
    constructor
    · intro h; injection h with h; subst h; exact .none
    · intro h; cases h; rfl
  | some a =>
    rw [Option.map_some, ropt_some _ _ (hf a)]
    constructor
    · rintro ⟨b, hb, rfl⟩; exact .some ((h _ _).1 hb)
    · intro x
      cases x with
      | some x => exact ⟨_, (h _ _).2 x, rfl⟩

theorem unhex_iff (s : List Char) (b : Bytes) : Hang.CatalogJson.unhex s = some b ↔ HexOf s b := by
  constructor
  · intro h
    induction s using Hang.CatalogJson.unhex.induct generalizing b with
    | case1 => injection h with h; subst h; exact .nil
    | case2 c => cases h
    | case3 a c r ih =>
      rw [Hang.CatalogJson.unhex] at h
      obtain ⟨x, hx, h⟩ := Option.bind_eq_some_iff.1 h
      obtain ⟨y, hy, h⟩ := Option.bind_eq_some_iff.1 h
      obtain ⟨bs, hb, rfl⟩ := Option.map_eq_some_iff.1 h
      exact .cons ((Hang.toDigit_iff (by decide)).1 hx) ((Hang.toDigit_iff (by decide)).1 hy) (ih _ hb)
  · intro h
    induction h with
    | nil => rfl
    | cons hx hy _ ih =>
      rw [Hang.CatalogJson.unhex, (Hang.toDigit_iff (by decide)).2 hx, (Hang.toDigit_iff (by decide)).2 hy]
      simp [ih]

theorem readKey_iff (s : String) (n : UInt32) : Hang.CatalogJson.readKey s = some n ↔ s = Nat.repr n.toNat := by
  unfold Hang.CatalogJson.readKey
  dsimp only
  constructor
  · intro h
    split at h
    · next hs =>
      injection h with h
      subst h
      conv => lhs; rw [← hs.1]
      congr 1
      rw [UInt32.toNat_ofNat', Nat.mod_eq_of_lt hs.2]
    · cases h
  · rintro rfl
    have : Nat.ofDigitChars 10 (Nat.repr n.toNat).toList 0 = n.toNat := by
      rw [Nat.repr_eq_ofList_toDigits, String.toList_ofList, Nat.ofDigitChars_ten_toDigits]
    rw [this, if_pos ⟨rfl, n.toNat_lt⟩]
    simp

theorem rtrack_same (t : Js.Catalog.Track) (u : Hang.CatalogJson.Track) :
    Hang.CatalogJson.readTrack (track t) = some u ↔ SameTrack t u := by
  have hp : ∀ n, Hang.CatalogJson.readU8 (num t.priority) = some n ↔ t.priority = .fin n.toNat := by
    intro n
    cases h : t.priority with
    | nan => simp [num, Hang.CatalogJson.readU8, Hang.CatalogJson.readUint]
    | inf b => simp [num, Hang.CatalogJson.readU8, Hang.CatalogJson.readUint]
    | fin q => rw [readU8_num]; simp
  simp only [Hang.CatalogJson.readTrack, track, lookup_cons, need, String.reduceEq, if_true, if_false, Option.bind_some,
    Hang.CatalogJson.readStr, Option.map_eq_some_iff, hp]
  constructor
  · rintro ⟨q, h, rfl⟩; exact ⟨rfl, h⟩
  · obtain ⟨_, _⟩ := u
    rintro ⟨rfl, h⟩; exact ⟨_, h, rfl⟩

theorem ropt_u32 (o : Option Num) (r : Option UInt32) :
    Hang.CatalogJson.opt Hang.CatalogJson.readU32 (o.map num) = some r ↔ Arrives (fun q n => q = n.toNat) o r :=
  ropt_num o (fun q _ n => readU32_num q n) r

theorem ropt_u64 (o : Option Num) (h : SmallRate o) (r : Option UInt64) :
    Hang.CatalogJson.opt Hang.CatalogJson.readU64 (o.map num) = some r ↔ Arrives (fun q n => q = n.toNat) o r :=
  ropt_num o (fun q hq n => readU64_num q (h q hq) n) r

theorem ropt_f64 (K : Floats) (o : Option Num) (r : Option Num) :
    Hang.CatalogJson.opt (Hang.CatalogJson.readF64 K) (o.map num) = some r ↔ Arrives (fun q x => x = readsF64 K q) o r :=
  ropt_num o (fun q _ n => readF64_num K q n) r

theorem ropt_bool (o r : Option Bool) :
    Hang.CatalogJson.opt Hang.CatalogJson.readBool (o.map .bool) = some r ↔ r = o := by
  rw [ropt_map (by simp) (R := fun a b => b = id a) (by simp [Hang.CatalogJson.readBool, eq_comm]), optRel_map]
  simp

theorem ropt_hex (o : Option String) (r : Option Bytes) :
    Hang.CatalogJson.opt Hang.CatalogJson.readHex (o.map .str) = some r ↔ OptRel (fun s b => HexOf s.toList b) o r :=
  ropt_map (by simp) (fun a b => unhex_iff a.toList b) o r

theorem rcodec (k : Hang.Classes) (s : String) (c : Hang.VideoCodec) :
    Hang.CatalogJson.readVideoCodec k (.str s) = some c ↔ Hang.VideoCodec.parse k s.toList = .ok c := by
  rw [Hang.CatalogJson.readVideoCodec]
  split <;> simp_all

theorem racodec (s : String) (c : Hang.AudioCodec) :
    Hang.CatalogJson.readAudioCodec (.str s) = some c ↔ Hang.AudioCodec.parse s.toList = .ok c := by
  rw [Hang.CatalogJson.readAudioCodec]
  split <;> simp_all

theorem rvideo_same {more : VideoConfig → List (String × Json)} (hm : Other more) (K : Floats) (k : Hang.Classes)
    (v : Js.Catalog.Video) (u : Hang.CatalogJson.Video) (hs : SmallRate v.config.bitrate) :
    Hang.CatalogJson.readVideo K k (video more v) = some u ↔ SameVideo K k v u := by
  have hl := hm v.config
  simp only [videoKeys, List.mem_cons, List.not_mem_nil, or_false, forall_eq_or_imp, forall_eq] at hl
  simp only [Hang.CatalogJson.readVideo, video, lookup_cons, need, String.reduceEq, if_true, if_false, Option.bind_some,
    Option.bind_eq_some_iff, Option.map_eq_some_iff, rtrack_same]
  simp only [Hang.CatalogJson.readVideoConfig, videoConfig, lookup_append, lookup_fields_cons, hl, need, Option.or_none]
  simp only [String.reduceEq, if_true, if_false, lookup_fields_nil, Option.or_none, Option.bind_some,
    Option.bind_eq_some_iff, Option.map_eq_some_iff, ropt_hex, ropt_u32, ropt_u64 _ hs, ropt_f64, ropt_bool, rcodec]
  constructor
  · rintro ⟨t, ht, _, ⟨_, h0, _, h1, _, h2, _, h3, _, h4, _, h5, _, h6, _, h7, _, rfl, _, h8, _, rfl, rfl⟩, rfl⟩
    exact ⟨ht, h0, h1, h2, h3, h4, h5, h7, h6, rfl, h8, rfl⟩
  · obtain ⟨t, c⟩ := u
    obtain ⟨_, _, _, _, _, _, _, _, _, _, _⟩ := c
    rintro ⟨ht, h0, h1, h2, h3, h4, h5, h7, h6, rfl, h8, rfl⟩
    exact ⟨t, ht, _, ⟨_, h0, _, h1, _, h2, _, h3, _, h4, _, h5, _, h6, _, h7, _, rfl, _, h8, _, rfl, rfl⟩, rfl⟩

theorem ru32 (x : Num) (n : UInt32) : Hang.CatalogJson.readU32 (num x) = some n ↔ x = .fin n.toNat := by
  cases x with
  | nan => simp [num, Hang.CatalogJson.readU32, Hang.CatalogJson.readUint]
  | inf b => simp [num, Hang.CatalogJson.readU32, Hang.CatalogJson.readUint]
  | fin q => rw [readU32_num]; simp

theorem raudio_same (v : Js.Catalog.Audio) (u : Hang.CatalogJson.Audio) (hs : SmallRate v.config.bitrate) :
    Hang.CatalogJson.readAudio (audio v) = some u ↔ SameAudio v u := by
  simp only [Hang.CatalogJson.readAudio, audio, lookup_cons, need, String.reduceEq, if_true, if_false, Option.bind_some,
    Option.bind_eq_some_iff, Option.map_eq_some_iff, rtrack_same]
  simp only [Hang.CatalogJson.readAudioConfig, audioConfig, lookup_fields_cons, need, String.reduceEq, if_true, if_false,
    lookup_fields_nil, Option.or_none, Option.or_some, Option.bind_some, Option.bind_eq_some_iff, Option.map_eq_some_iff,
    ropt_hex, ropt_u64 _ hs, racodec, ru32]
  constructor
  · rintro ⟨t, ht, _, ⟨_, h0, _, h1, _, h2, _, h3, _, h4, rfl⟩, rfl⟩
    exact ⟨ht, h0, h4, h1, h2, h3⟩
  · obtain ⟨t, c⟩ := u
    obtain ⟨_, _, _, _, _⟩ := c
    rintro ⟨ht, h0, h4, h1, h2, h3⟩
    exact ⟨t, ht, _, ⟨_, h0, _, h1, _, h2, _, h3, _, h4, rfl⟩, rfl⟩

theorem rcoordinate (K : Floats) (o : Option Num) (x : Num) :
    Hang.CatalogJson.dflt Hang.CatalogJson.zero (Hang.CatalogJson.readF32 K) (o.map num) = some x ↔
      SameCoordinate K o x := by
  cases o with
  | none => simp [Hang.CatalogJson.dflt, SameCoordinate, Hang.CatalogJson.zero, eq_comm]
  | some y =>
    rw [Option.map_some, Hang.CatalogJson.dflt]
    cases y with
    | nan => simp [num, Hang.CatalogJson.readF32, SameCoordinate]
    | inf b => simp [num, Hang.CatalogJson.readF32, SameCoordinate]
    | fin q => rw [readF32_num]; simp [SameCoordinate]

theorem rposition_same (K : Floats) (p : Js.Catalog.Position) (u : Hang.CatalogJson.Position) :
    Hang.CatalogJson.readPosition K (position p) = some u ↔ SamePosition K p u := by
  simp only [Hang.CatalogJson.readPosition, position, lookup_fields_cons, String.reduceEq, if_true, if_false,
    lookup_fields_nil, Option.or_none, Option.bind_eq_some_iff, Option.map_eq_some_iff, rcoordinate]
  constructor
  · rintro ⟨_, h1, _, h2, z, hz, rfl⟩
    injection hz with hz
    exact ⟨h1, h2, hz.symm⟩
  · obtain ⟨_, _, _⟩ := u
    rintro ⟨h1, h2, rfl⟩
    exact ⟨_, h1, _, h2, _, rfl, rfl⟩

theorem rpeers_same (o : Option (List (String × Js.Catalog.Track))) (u : List (UInt32 × Hang.CatalogJson.Track)) :
    Hang.CatalogJson.dflt [] Hang.CatalogJson.readPeers (o.map fun ps => .obj (ps.map fun e => (e.1, track e.2))) = some u ↔
      ListRel (fun e f => e.1 = Nat.repr f.1.toNat ∧ SameTrack e.2 f.2) (o.getD []) u := by
  cases o with
  | none => simp [Hang.CatalogJson.dflt, ListRel.nil_iff, eq_comm]
  | some ps =>
    rw [Option.map_some, Hang.CatalogJson.dflt, Hang.CatalogJson.readPeers, all_map, Option.getD_some]
    refine listRel_congr fun e f => ?_
    simp only [Option.bind_eq_some_iff, Option.map_eq_some_iff, readKey_iff, rtrack_same]
    constructor
    · rintro ⟨_, h1, _, h2, rfl⟩; exact ⟨h1, h2⟩
    · obtain ⟨_, _⟩ := f
      rintro ⟨h1, h2⟩; exact ⟨_, h1, _, h2, rfl⟩

theorem rlocation_same (K : Floats) (l : Js.Catalog.Location) (u : Hang.CatalogJson.Location) :
    Hang.CatalogJson.readLocation K (location l) = some u ↔ SameLocation K l u := by
  have hi := ropt_map (p := Hang.CatalogJson.readPosition K) (f := position) (by simp [position]) (rposition_same K) l.initial
  have hu := ropt_map (p := Hang.CatalogJson.readTrack) (f := track) (by simp [track]) rtrack_same l.updates
  simp only [Hang.CatalogJson.readLocation, location, lookup_fields_cons, String.reduceEq, if_true, if_false,
    lookup_fields_nil, Option.or_none, Option.bind_eq_some_iff, Option.map_eq_some_iff, hi, hu, rpeers_same]
  constructor
  · rintro ⟨_, h1, _, h2, _, h3, z, hz, rfl⟩
    injection hz with hz
    exact ⟨h1, h2, h3, hz.symm⟩
  · obtain ⟨_, _, _, _⟩ := u
    rintro ⟨h1, h2, h3, rfl⟩
    exact ⟨_, h1, _, h2, _, h3, _, rfl, rfl⟩

theorem rvec_same {α β : Type} {p : Json → Option β} {f : α → Json} {R : α → β → Prop} (o : Option (List α))
    (h : ∀ a ∈ o.getD [], ∀ b, p (f a) = some b ↔ R a b) (u : List β) :
    Hang.CatalogJson.dflt [] (Hang.CatalogJson.readVec p) (o.map fun l => .arr (l.map f)) = some u ↔
      ListRel R (o.getD []) u := by
  cases o with
  | none => simp [Hang.CatalogJson.dflt, ListRel.nil_iff, eq_comm]
  | some l =>
    rw [Option.map_some, Hang.CatalogJson.dflt, Hang.CatalogJson.readVec, all_map, Option.getD_some]
    rw [Option.getD_some] at h
    constructor
    · intro x
      induction x with
      | nil => exact .nil
      | cons hx _ ih => exact .cons ((h _ (by simp) _).1 hx) (ih fun a ha => h a (by simp [ha]))
    · intro x
      induction x with
      | nil => exact .nil
      | cons hx _ ih => exact .cons ((h _ (by simp) _).2 hx) (ih fun a ha => h a (by simp [ha]))

/-- What Rust makes of a browser's catalog.  It fails to read it, if a priority is above 255, a number is not in the range
of its type, a codec is not understood, a description is not in hex or the name of a peer is not a number. -/
theorem c112_to_rust_partial {more : VideoConfig → List (String × Json)} (hm : Other more) (K : Floats) (k : Hang.Classes)
    (r : Root) (hs : SmallRates r) (c : Hang.CatalogJson.Catalog) :
    Hang.CatalogJson.read K k (write more r) = some c ↔ Same K k r c := by
  have hv := fun u => rvec_same (R := SameVideo K k) r.video (fun v hv u => rvideo_same hm K k v u (hs.1 v hv)) u
  have ha := fun u => rvec_same (R := SameAudio) r.audio (fun v hv u => raudio_same v u (hs.2 v hv)) u
  have hl := ropt_map (p := Hang.CatalogJson.readLocation K) (f := location) (by simp [location]) (rlocation_same K) r.location
  simp only [Hang.CatalogJson.read, write, lookup_fields_cons, String.reduceEq, if_true, if_false,
    lookup_fields_nil, Option.or_none, Option.bind_eq_some_iff, Option.map_eq_some_iff, hv, ha, hl]
  constructor
  · rintro ⟨_, h1, _, h2, _, h3, rfl⟩; exact ⟨h1, h2, h3⟩
  · obtain ⟨_, _, _⟩ := c
    rintro ⟨h1, h2, h3⟩; exact ⟨_, h1, _, h2, _, h3, rfl⟩

/-! ## Rust to Rust -/

/-- A double that was written and read; what is not finite gets lost. -/
def keptF64 (K : Floats) : Option Num → Option Num
  | some (.fin q) => some (.fin (K.f64 q))
  | _ => none

/-- A video entry that was written and read. -/
structure KeptVideo (K : Floats) (k : Hang.Classes) (v u : Hang.CatalogJson.Video) : Prop where
  codec : Hang.VideoCodec.parse k v.config.codec.format = .ok u.config.codec
  rest : u = { v with config := { v.config with
    codec := u.config.codec, framerate := keptF64 K v.config.framerate, rotation := keptF64 K v.config.rotation } }

structure KeptAudio (v u : Hang.CatalogJson.Audio) : Prop where
  codec : Hang.AudioCodec.parse v.config.codec.format = .ok u.config.codec
  rest : u = { v with config := { v.config with codec := u.config.codec } }

def KeptCoordinate (K : Floats) (x y : Num) : Prop := ∃ q, x = .fin q ∧ y = K.f32 (K.short q)

/-- The coordinates are finite. -/
structure KeptPosition (K : Floats) (p u : Hang.CatalogJson.Position) : Prop where
  x : KeptCoordinate K p.x u.x
  y : KeptCoordinate K p.y u.y
  zoom : KeptCoordinate K p.zoom u.zoom

structure KeptLocation (K : Floats) (l u : Hang.CatalogJson.Location) : Prop where
  initial : OptRel (KeptPosition K) l.initial u.initial
  rest : u = { l with initial := u.initial }

/-- Rust's catalog that was written and read. -/
structure Kept (K : Floats) (k : Hang.Classes) (c u : Hang.CatalogJson.Catalog) : Prop where
  video : ListRel (KeptVideo K k) c.video u.video
  audio : ListRel KeptAudio c.audio u.audio
  location : OptRel (KeptLocation K) c.location u.location

theorem readUint_int (b n m : Nat) : Hang.CatalogJson.readUint b (.int n) = some m ↔ m = n ∧ n < b := by
  rw [Hang.CatalogJson.readUint]
  split
  · next h => simp; omega
  · next h => simp; omega

theorem readU8_int (n m : UInt8) : Hang.CatalogJson.readU8 (.int n.toNat) = some m ↔ m = n := by
  simp only [Hang.CatalogJson.readU8, Option.map_eq_some_iff, readUint_int]
  constructor
  · rintro ⟨_, ⟨rfl, -⟩, rfl⟩; simp
  · rintro rfl; exact ⟨_, ⟨rfl, m.toNat_lt⟩, by simp⟩

theorem readU32_int (n m : UInt32) : Hang.CatalogJson.readU32 (.int n.toNat) = some m ↔ m = n := by
  simp only [Hang.CatalogJson.readU32, Option.map_eq_some_iff, readUint_int]
  constructor
  · rintro ⟨_, ⟨rfl, -⟩, rfl⟩; simp
  · rintro rfl; exact ⟨_, ⟨rfl, m.toNat_lt⟩, by simp⟩

theorem readU64_int (n m : UInt64) : Hang.CatalogJson.readU64 (.int n.toNat) = some m ↔ m = n := by
  simp only [Hang.CatalogJson.readU64, Option.map_eq_some_iff, readUint_int]
  constructor
  · rintro ⟨_, ⟨rfl, -⟩, rfl⟩; simp
  · rintro rfl; exact ⟨_, ⟨rfl, m.toNat_lt⟩, by simp⟩

theorem ropt_keep {α : Type} {p : Json → Option α} {f : α → Json} (hf : ∀ a, f a ≠ .null)
    (h : ∀ a b, p (f a) = some b ↔ b = a) (o r : Option α) : Hang.CatalogJson.opt p (o.map f) = some r ↔ r = o := by
  rw [ropt_map hf (R := fun a b => b = id a) h, optRel_map]
  simp

theorem hex_hexOf (b : Bytes) : HexOf (b.flatMap Hang.hex2) b := by
  induction b with
  | nil => exact .nil
  | cons x b ih =>
    have hd : ∀ n, n < 16 → Hang.IsDigit 16 (Hang.digit n) n := by
      intro n hn
      refine ⟨hn, .inl ?_⟩
      have : ∀ n : Fin 16, "0123456789abcdef".toList[n.1]? = some (Hang.digit n.1) := by decide +kernel
      exact this ⟨n, hn⟩
    have hx := x.toNat_lt
    have := HexOf.cons (hd (x.toNat / 16) (by omega)) (hd (x.toNat % 16) (by omega)) ih
    have e : UInt8.ofNat (16 * (x.toNat / 16) + x.toNat % 16) = x := by
      rw [Nat.div_add_mod]; simp
    rw [e] at this
    exact this

theorem HexOf.inj {s : List Char} {b c : Bytes} (h : HexOf s b) (h' : HexOf s c) : b = c := by
  have := ((unhex_iff s b).2 h).symm.trans ((unhex_iff s c).2 h')
  injection this

theorem readHex_hex (b c : Bytes) : Hang.CatalogJson.readHex (.str (Hang.CatalogJson.hex b)) = some c ↔ c = b := by
  rw [Hang.CatalogJson.readHex, Hang.CatalogJson.hex, String.toList_ofList, unhex_iff]
  exact ⟨fun h => h.inj (hex_hexOf b), fun h => h ▸ hex_hexOf b⟩

theorem ropt_keptF64 (K : Floats) (o r : Option Num) :
    Hang.CatalogJson.opt (Hang.CatalogJson.readF64 K) (o.map Hang.CatalogJson.f64) = some r ↔ r = keptF64 K o := by
  cases o with
  | none => simp [Hang.CatalogJson.opt, keptF64, eq_comm]
  | some x => cases x <;>
      simp [Hang.CatalogJson.opt, keptF64, Hang.CatalogJson.f64, Hang.CatalogJson.readF64, eq_comm]

theorem track_kept (t u : Hang.CatalogJson.Track) :
    Hang.CatalogJson.readTrack (Hang.CatalogJson.track t) = some u ↔ u = t := by
  simp only [Hang.CatalogJson.readTrack, Hang.CatalogJson.track, lookup_cons, need, String.reduceEq, if_true, if_false,
    Option.bind_some, Hang.CatalogJson.readStr, Option.map_eq_some_iff, readU8_int]
  constructor
  · rintro ⟨q, rfl, rfl⟩; rfl
  · rintro rfl; exact ⟨_, rfl, rfl⟩

theorem video_kept (K : Floats) (k : Hang.Classes) (v u : Hang.CatalogJson.Video) :
    Hang.CatalogJson.readVideo K k (Hang.CatalogJson.video v) = some u ↔ KeptVideo K k v u := by
  have hh := ropt_keep (p := Hang.CatalogJson.readHex) (f := fun b => .str (Hang.CatalogJson.hex b)) (by simp) readHex_hex
  have h32 := ropt_keep (p := Hang.CatalogJson.readU32) (f := fun n : UInt32 => .int n.toNat) (by simp) readU32_int
  have h64 := ropt_keep (p := Hang.CatalogJson.readU64) (f := fun n : UInt64 => .int n.toNat) (by simp) readU64_int
  simp only [Hang.CatalogJson.readVideo, Hang.CatalogJson.video, lookup_cons, need, String.reduceEq, if_true, if_false,
    Option.bind_some, Option.bind_eq_some_iff, Option.map_eq_some_iff, track_kept]
  simp only [Hang.CatalogJson.readVideoConfig, Hang.CatalogJson.videoConfig, lookup_fields_cons, need, String.reduceEq,
    if_true, if_false, lookup_fields_nil, Option.or_none, Option.or_some, Option.bind_some,
    Option.bind_eq_some_iff, Option.map_eq_some_iff, hh, h32, h64, ropt_keptF64, ropt_bool, rcodec, String.toList_ofList]
  constructor
  · rintro ⟨_, rfl, _, ⟨_, h0, _, rfl, _, rfl, _, rfl, _, rfl, _, rfl, _, rfl, _, rfl, _, rfl, _, rfl, _, rfl, rfl⟩, rfl⟩
    exact ⟨h0, rfl⟩
  · rintro ⟨h0, h1⟩
    refine ⟨_, rfl, _, ⟨_, h0, _, rfl, _, rfl, _, rfl, _, rfl, _, rfl, _, rfl, _, rfl, _, rfl, _, rfl, _, rfl, rfl⟩, ?_⟩
    exact h1.symm

theorem need_some {α : Type} (p : Json → Option α) (j : Json) : need p (some j) = p j := rfl

theorem need_u32 (n m : UInt32) : need Hang.CatalogJson.readU32 (some (.int n.toNat)) = some m ↔ m = n := by
  rw [need_some, readU32_int]

theorem need_codec (l : List Char) (c : Hang.AudioCodec) :
    need Hang.CatalogJson.readAudioCodec (some (.str (String.ofList l))) = some c ↔ Hang.AudioCodec.parse l = .ok c := by
  have h : need Hang.CatalogJson.readAudioCodec (some (.str (String.ofList l))) =
    Hang.CatalogJson.readAudioCodec (.str (String.ofList l)) := rfl
  rw [h, racodec, String.toList_ofList]

theorem audio_kept (v u : Hang.CatalogJson.Audio) :
    Hang.CatalogJson.readAudio (Hang.CatalogJson.audio v) = some u ↔ KeptAudio v u := by
  have hh := ropt_keep (p := Hang.CatalogJson.readHex) (f := fun b => .str (Hang.CatalogJson.hex b)) (by simp) readHex_hex
  have h64 := ropt_keep (p := Hang.CatalogJson.readU64) (f := fun n : UInt64 => .int n.toNat) (by simp) readU64_int
  simp only [Hang.CatalogJson.readAudio, Hang.CatalogJson.audio, lookup_cons, need, String.reduceEq, if_true, if_false,
    Option.bind_some, Option.bind_eq_some_iff, Option.map_eq_some_iff, track_kept]
  simp only [Hang.CatalogJson.readAudioConfig, Hang.CatalogJson.audioConfig, lookup_fields_cons, String.reduceEq,
    if_true, if_false, lookup_fields_nil, Option.or_none, Option.or_some,
    Option.bind_eq_some_iff, Option.map_eq_some_iff, hh, h64, need_u32, need_codec]
  constructor
  · rintro ⟨_, rfl, _, ⟨_, h0, _, rfl, _, rfl, _, rfl, _, rfl, rfl⟩, rfl⟩
    exact ⟨h0, rfl⟩
  · rintro ⟨h0, h1⟩
    exact ⟨_, rfl, _, ⟨_, h0, _, rfl, _, rfl, _, rfl, _, rfl, rfl⟩, h1.symm⟩

theorem coordinate_kept (K : Floats) (a x y : Num) :
    Hang.CatalogJson.dflt a (Hang.CatalogJson.readF32 K) (some (Hang.CatalogJson.f32 K x)) = some y ↔
      KeptCoordinate K x y := by
  cases x <;> simp [Hang.CatalogJson.dflt, Hang.CatalogJson.f32, Hang.CatalogJson.readF32, KeptCoordinate, eq_comm]

theorem position_kept (K : Floats) (p u : Hang.CatalogJson.Position) :
    Hang.CatalogJson.readPosition K (Hang.CatalogJson.position K p) = some u ↔ KeptPosition K p u := by
  simp only [Hang.CatalogJson.readPosition, Hang.CatalogJson.position, lookup_cons, String.reduceEq, if_true, if_false,
    Option.bind_eq_some_iff, Option.map_eq_some_iff, coordinate_kept]
  constructor
  · rintro ⟨_, h1, _, h2, _, h3, rfl⟩; exact ⟨h1, h2, h3⟩
  · obtain ⟨_, _, _⟩ := u
    rintro ⟨h1, h2, h3⟩; exact ⟨_, h1, _, h2, _, h3, rfl⟩

theorem ropt_orNull {α β : Type} {p : Json → Option β} {f : α → Json} (hf : ∀ a, f a ≠ .null) {R : α → β → Prop}
    (h : ∀ a b, p (f a) = some b ↔ R a b) (o : Option α) (r : Option β) :
    Hang.CatalogJson.opt p (some (Hang.CatalogJson.orNull f o)) = some r ↔ OptRel R o r := by
  rw [← ropt_map hf h]
  cases o <;> rfl

theorem peers_kept (l u : List (UInt32 × Hang.CatalogJson.Track)) :
    Hang.CatalogJson.dflt [] Hang.CatalogJson.readPeers (if l = [] then none else
      some (.obj (l.map fun e => (Hang.CatalogJson.key e.1, Hang.CatalogJson.track e.2)))) = some u ↔ u = l := by
  split
  · next h => subst h; simp [Hang.CatalogJson.dflt, eq_comm]
  · rw [Hang.CatalogJson.dflt, Hang.CatalogJson.readPeers, all_map,
      listRel_congr (S := fun e f => True ∧ f = e), listRel_eq_iff]
    · simp
    · intro e f
      simp only [Option.bind_eq_some_iff, Option.map_eq_some_iff, track_kept]
      constructor
      · rintro ⟨n, h1, _, rfl, rfl⟩
        rw [Hang.CatalogJson.key, (readKey_iff _ e.1).2 rfl] at h1
        injection h1 with h1
        subst h1
        exact ⟨trivial, rfl⟩
      · rintro ⟨-, rfl⟩
        exact ⟨_, (readKey_iff _ f.1).2 rfl, _, rfl, rfl⟩

theorem location_kept (K : Floats) (l u : Hang.CatalogJson.Location) :
    Hang.CatalogJson.readLocation K (Hang.CatalogJson.location K l) = some u ↔ KeptLocation K l u := by
  have hi := ropt_orNull (p := Hang.CatalogJson.readPosition K) (f := Hang.CatalogJson.position K)
    (by simp [Hang.CatalogJson.position]) (position_kept K) l.initial
  have hu : ∀ r, Hang.CatalogJson.opt Hang.CatalogJson.readTrack
      (some (Hang.CatalogJson.orNull Hang.CatalogJson.track l.updates)) = some r ↔ r = l.updates := by
    intro r
    rw [ropt_orNull (by simp [Hang.CatalogJson.track]) (R := fun a b => b = id a) track_kept, optRel_map]
    simp
  have hh : ∀ r, Hang.CatalogJson.opt Hang.CatalogJson.readU32
      (some (Hang.CatalogJson.orNull (fun n : UInt32 => .int n.toNat) l.handle)) = some r ↔ r = l.handle := by
    intro r
    rw [ropt_orNull (by simp) (R := fun a b => b = id a) readU32_int, optRel_map]
    simp
  simp only [Hang.CatalogJson.readLocation, Hang.CatalogJson.location, lookup_fields_cons, String.reduceEq, if_true,
    if_false, lookup_fields_nil, Option.or_none, Option.bind_eq_some_iff, Option.map_eq_some_iff, hi, hu, hh, peers_kept]
  constructor
  · rintro ⟨_, h1, _, rfl, _, rfl, _, rfl, rfl⟩; exact ⟨h1, rfl⟩
  · rintro ⟨h1, h2⟩; exact ⟨_, h1, _, rfl, _, rfl, _, rfl, h2.symm⟩

theorem rvec_kept {α β : Type} {p : Json → Option β} {f : α → Json} {R : α → β → Prop}
    (h : ∀ a b, p (f a) = some b ↔ R a b) [DecidableEq α] (l : List α) (u : List β) :
    Hang.CatalogJson.dflt [] (Hang.CatalogJson.readVec p) (if l = [] then none else some (.arr (l.map f))) = some u ↔
      ListRel R l u := by
  split
  · next h => subst h; simp [Hang.CatalogJson.dflt, ListRel.nil_iff, eq_comm]
  · rw [Hang.CatalogJson.dflt, Hang.CatalogJson.readVec, all_map, listRel_congr h]

/-- What Rust makes of Rust's catalog: it is the same but for codecs and floats.  It fails to read it, if a codec's text is
not understood or a coordinate is not finite. -/
theorem c112_rust_partial (K : Floats) (k : Hang.Classes) (c u : Hang.CatalogJson.Catalog) :
    Hang.CatalogJson.read K k (Hang.CatalogJson.write K c) = some u ↔ Kept K k c u := by
  have hl := ropt_map (p := Hang.CatalogJson.readLocation K) (f := Hang.CatalogJson.location K)
    (by simp [Hang.CatalogJson.location]) (location_kept K) c.location
  simp only [Hang.CatalogJson.read, Hang.CatalogJson.write, lookup_fields_cons, String.reduceEq, if_true, if_false,
    lookup_fields_nil, Option.or_none, Option.bind_eq_some_iff, Option.map_eq_some_iff, rvec_kept (video_kept K k),
    rvec_kept audio_kept, hl]
  constructor
  · rintro ⟨_, h1, _, h2, _, h3, rfl⟩; exact ⟨h1, h2, h3⟩
  · obtain ⟨_, _, _⟩ := u
    rintro ⟨h1, h2, h3⟩; exact ⟨_, h1, _, h2, _, h3, rfl⟩

/-- Rust reads its own catalog unchanged exactly if the texts of its codecs and floats are read as they were. -/
theorem c112_rust_same_partial (K : Floats) (k : Hang.Classes) (c : Hang.CatalogJson.Catalog) :
    Hang.CatalogJson.read K k (Hang.CatalogJson.write K c) = some c ↔
      (∀ v ∈ c.video, Hang.VideoCodec.parse k v.config.codec.format = .ok v.config.codec ∧
        keptF64 K v.config.framerate = v.config.framerate ∧ keptF64 K v.config.rotation = v.config.rotation) ∧
      (∀ v ∈ c.audio, Hang.AudioCodec.parse v.config.codec.format = .ok v.config.codec) ∧
      ∀ l p, c.location = some l → l.initial = some p → KeptPosition K p p := by
  have hself : ∀ {α : Type} (R : α → α → Prop) (l : List α), ListRel R l l ↔ ∀ a ∈ l, R a a := by
    intro α R l
    induction l with
    | nil => simp [ListRel.nil_iff]
    | cons a l ih =>
      constructor
      · intro h
        cases h with
        | cons h1 h2 =>
          intro b hb
          rcases List.mem_cons.1 hb with rfl | hb
          · exact h1
          · exact ih.1 h2 b hb
      · intro h
        exact .cons (h a (by simp)) (ih.2 fun b hb => h b (by simp [hb]))
  have oself : ∀ {α : Type} (R : α → α → Prop) (l : Option α), OptRel R l l ↔ ∀ a, l = some a → R a a := by
    intro α R l
    cases l with
    | none => simp [OptRel.none]
    | some a =>
      constructor
      · intro h
        cases h with
        | some h => rintro _ ⟨⟩; exact h
      · intro h; exact .some (h a rfl)
  rw [c112_rust_partial]
  constructor
  · rintro ⟨h1, h2, h3⟩
    rw [hself] at h1 h2
    rw [oself] at h3
    refine ⟨fun v hv => ?_, fun v hv => (h2 v hv).codec, fun l p hl hp => ?_⟩
    · have := h1 v hv
      have e := congrArg Hang.CatalogJson.Video.config this.rest
      exact ⟨this.codec, (congrArg Hang.CatalogJson.VideoConfig.framerate e).symm,
        (congrArg Hang.CatalogJson.VideoConfig.rotation e).symm⟩
    · have := (h3 l hl).initial
      rw [oself] at this
      exact this p hp
  · rintro ⟨h1, h2, h3⟩
    refine ⟨(hself _ _).2 fun v hv => ?_, (hself _ _).2 fun v hv => ⟨h2 v hv, rfl⟩,
      (oself _ _).2 fun l hl => ⟨(oself _ _).2 fun p hp => h3 l p hl hp, rfl⟩⟩
    obtain ⟨a, b, d⟩ := h1 v hv
    refine ⟨a, ?_⟩
    rw [b, d]

/-! ## Consequences -/

theorem HexOf.junhex {s : List Char} {b : Bytes} (h : HexOf s b) : Js.Catalog.unhex s = b := by
  induction h with
  | nil => rfl
  | cons ha hb _ ih =>
    rw [Js.Catalog.unhex, (Hang.toDigit_iff (by decide)).2 ha, (Hang.toDigit_iff (by decide)).2 hb]
    dsimp only
    rw [ih]

/-- What the browser's decoder gets as description is what Rust had, except that an empty one is none. -/
theorem c112_description (d : Option Bytes) :
    description (d.map Hang.CatalogJson.hex) = if d = some [] then none else d := by
  cases d with
  | none => rfl
  | some b =>
    cases b with
    | nil => rfl
    | cons x b =>
      have : Hang.CatalogJson.hex (x :: b) ≠ "" := by
        intro h
        have := congrArg String.toList h
        rw [Hang.CatalogJson.hex, String.toList_ofList] at this
        exact absurd this (by simp [Hang.hex2])
      rw [Option.map_some, description, if_neg this, Hang.CatalogJson.hex, String.toList_ofList, (hex_hexOf _).junhex, if_neg (by simp)]

/-- A violation: a browser reads nothing of a Rust catalog with a frame rate that is not a whole number. -/
theorem c112_fraction (K : Floats) (c : Hang.CatalogJson.Catalog) (v : Hang.CatalogJson.Video) (hv : v ∈ c.video)
    (q : Rat) (hf : v.config.framerate = some (.fin q)) (hq : q.den ≠ 1) :
    Js.Catalog.read (Hang.CatalogJson.write K c) = none := by
  cases h : Js.Catalog.read (Hang.CatalogJson.write K c) with
  | none => rfl
  | some r =>
    have hs := ((c112_to_browser_partial K c r).1 h).video
    rw [if_neg (List.ne_nil_of_mem hv)] at hs
    obtain ⟨l, -, hl⟩ := hs
    obtain ⟨b, -, hb⟩ := hl.left v hv
    obtain ⟨n, -, e⟩ := hb.framerate.2 _ hf
    injection e with e
    exact absurd (by rw [e]; simp) hq

/-- A violation: a browser reads nothing of a Rust catalog with a bitrate of 2^32 or more. -/
theorem c112_bitrate (K : Floats) (c : Hang.CatalogJson.Catalog) (n : UInt64) (hn : 2 ^ 32 ≤ n.toNat)
    (h : (∃ v ∈ c.video, v.config.bitrate = some n) ∨ ∃ v ∈ c.audio, v.config.bitrate = some n) :
    Js.Catalog.read (Hang.CatalogJson.write K c) = none := by
  cases hr : Js.Catalog.read (Hang.CatalogJson.write K c) with
  | none => rfl
  | some r =>
    exfalso
    have hs := (c112_to_browser_partial K c r).1 hr
    rcases h with ⟨v, hv, e⟩ | ⟨v, hv, e⟩
    · have hs := hs.video
      rw [if_neg (List.ne_nil_of_mem hv)] at hs
      obtain ⟨l, -, hl⟩ := hs
      obtain ⟨b, -, hb⟩ := hl.left v hv
      have := hb.bitrate.2 _ e
      omega
    · have hs := hs.audio
      rw [if_neg (List.ne_nil_of_mem hv)] at hs
      obtain ⟨l, -, hl⟩ := hs
      obtain ⟨b, -, hb⟩ := hl.left v hv
      have := hb.bitrate.2 _ e
      omega

/-- A violation: a browser reads nothing of a Rust catalog with a location that has no initial position or no track. -/
theorem c112_location (K : Floats) (c : Hang.CatalogJson.Catalog) (l : Hang.CatalogJson.Location)
    (hl : c.location = some l) (h : l.initial = none ∨ l.updates = none) :
    Js.Catalog.read (Hang.CatalogJson.write K c) = none := by
  cases hr : Js.Catalog.read (Hang.CatalogJson.write K c) with
  | none => rfl
  | some r =>
    exfalso
    have hs := ((c112_to_browser_partial K c r).1 hr).location
    rw [hl] at hs
    generalize r.location = rl at hs
    cases hs with
    | some hs =>
      rcases h with h | h
      · obtain ⟨p, _, e, -⟩ := hs.initial
        rw [h] at e; cases e
      · obtain ⟨p, _, e, -⟩ := hs.updates
        rw [h] at e; cases e

/-- A violation: a browser reads nothing of a browser's catalog with a frame rate that is not a whole number. -/
theorem c112_own_fraction {more : VideoConfig → List (String × Json)} (hm : Other more) (r : Root)
    (l : List Js.Catalog.Video) (hl : r.video = some l) (v : Js.Catalog.Video) (hv : v ∈ l) (q : Rat)
    (hf : v.config.framerate = some (.fin q)) (hq : q.den ≠ 1) :
    Js.Catalog.read (write more r) = none := by
  cases h : Js.Catalog.read (write more r) with
  | none => rfl
  | some r' =>
    obtain ⟨n, -, e⟩ := (((c112_browsers hm r r').1 h).1.1 l hl v hv).2.2.2.2.2.1 _ hf
    injection e with e
    exact absurd (by rw [e]; simp) hq

/-- A violation: Rust reads nothing of a browser's catalog with a priority above 255. -/
theorem c112_priority {more : VideoConfig → List (String × Json)} (hm : Other more) (K : Floats) (k : Hang.Classes)
    (r : Root) (hs : SmallRates r) (v : Js.Catalog.Video) (hv : v ∈ r.video.getD []) (n : Nat) (hn : 255 < n)
    (hp : v.track.priority = .fin n) : Hang.CatalogJson.read K k (write more r) = none := by
  cases h : Hang.CatalogJson.read K k (write more r) with
  | none => rfl
  | some c =>
    obtain ⟨u, -, hu⟩ := ((c112_to_rust_partial hm K k r hs c).1 h).video.left v hv
    have := hu.track.priority
    rw [hp] at this
    injection this with this
    have := Rat.natCast_inj.1 this
    have := u.track.priority.toNat_lt
    omega

/-- A violation: Rust reads nothing of a browser's catalog with a peer whose name is not a number. -/
theorem c112_peer {more : VideoConfig → List (String × Json)} (hm : Other more) (K : Floats) (k : Hang.Classes)
    (r : Root) (hs : SmallRates r) (l : Js.Catalog.Location) (hl : r.location = some l)
    (e : String × Js.Catalog.Track) (he : e ∈ l.peers.getD []) (hn : ∀ n : Nat, e.1 ≠ Nat.repr n) :
    Hang.CatalogJson.read K k (write more r) = none := by
  cases h : Hang.CatalogJson.read K k (write more r) with
  | none => rfl
  | some c =>
    have ho := ((c112_to_rust_partial hm K k r hs c).1 h).location
    rw [hl] at ho
    generalize c.location = cl at ho
    cases ho with
    | some ho =>
      obtain ⟨f, -, hf, -⟩ := ho.peers.left e he
      exact absurd hf (hn _)

/-- A position without what Rust does not read. -/
def flat (l : Js.Catalog.Location) : Js.Catalog.Location :=
  { l with initial := l.initial.map fun p => { p with z := none, scale := none } }

/-- A violation: the depth and the scale of a position do not arrive in Rust, which sees the same catalog whatever they
are, with a zoom of 1. -/
theorem c112_scale {more : VideoConfig → List (String × Json)} (hm : Other more) (K : Floats) (k : Hang.Classes)
    (r : Root) (hs : SmallRates r) (c : Hang.CatalogJson.Catalog) :
    (Hang.CatalogJson.read K k (write more r) = some c ↔
      Hang.CatalogJson.read K k (write more { r with location := r.location.map flat }) = some c) ∧
    (Hang.CatalogJson.read K k (write more r) = some c →
      ∀ l p, c.location = some l → l.initial = some p → p.zoom = .fin 1) := by
  rw [c112_to_rust_partial hm K k r hs c, 
    c112_to_rust_partial hm K k { r with location := r.location.map flat } hs c]
  constructor
  · constructor
    · rintro ⟨h1, h2, h3⟩
      refine ⟨h1, h2, ?_⟩
      cases hr : r.location <;> rw [hr] at h3 <;> generalize c.location = cl at h3 <;> cases h3
      · exact .none
      · next l m h =>
        refine .some ⟨?_, h.updates, h.peers, h.handle⟩
        have := h.initial
        unfold flat
        cases hi : l.initial <;> rw [hi] at this <;> generalize m.initial = ml at this <;> cases this
        · exact .none
        · next q h => exact .some ⟨h.x, h.y, h.zoom⟩
    · rintro ⟨h1, h2, h3⟩
      refine ⟨h1, h2, ?_⟩
      dsimp only at h3
      cases hr : r.location <;> rw [hr] at h3 <;> generalize c.location = cl at h3 <;> cases h3
      · exact .none
      · next l m h =>
        refine .some ⟨?_, h.updates, h.peers, h.handle⟩
        have := h.initial
        unfold flat at this
        dsimp only at this
        cases hi : l.initial <;> rw [hi] at this <;> generalize m.initial = ml at this <;> cases this
        · exact .none
        · next q h => exact .some ⟨h.x, h.y, h.zoom⟩
  · rintro ⟨-, -, h3⟩ l p hl hp
    rw [hl] at h3
    generalize r.location = rl at h3
    cases h3 with
    | some h =>
      have := h.initial
      rw [hp] at this
      generalize Location.initial _ = li at this
      cases this with
      | some h => exact h.zoom

/-- The codecs that the browser's publisher offers, js/hang/src/publish/video.ts:216-267. -/
def offered : List String :=
  ["vp09.00.10.08", "vp09", "avc1.640028", "avc1.4D401F", "avc1.42E01E", "avc1", "av01.0.08M.08", "av01",
    "hev1.1.6.L93.B0", "hev1", "vp8"]

/-- Rust knows all codecs that the browser's publisher offers, if its classes of characters contain the digits and `M`;
some only as unknown ones. -/
theorem c112_codecs {k : Hang.Classes} (hk : Props.Codec.Classes.Ascii k) (hw : k.word 'M' = true) :
    ∀ s ∈ offered, ∃ c, Hang.VideoCodec.parse k s.toList = .ok c := by
  have h0 : k.digit '0' = true := hk 0 (by decide)
  have h8 : k.digit '8' = true := hk 8 (by decide)
  intro s hs
  simp only [offered, List.mem_cons, List.not_mem_nil, or_false] at hs
  rcases hs with rfl | rfl | rfl | rfl | rfl | rfl | rfl | rfl | rfl | rfl | rfl
  · exact ⟨_, rfl⟩
  · exact ⟨_, rfl⟩
  · exact ⟨_, rfl⟩
  · exact ⟨_, rfl⟩
  · exact ⟨_, rfl⟩
  · exact ⟨_, rfl⟩
  · have hf : Hang.fits (Hang.av1Short k) "av01.0.08M.08".toList = true := by
      simp [Hang.fits, Hang.av1Short, Hang.lit, Hang.bit, h0, h8, hw]
    have hl : Hang.fits (Hang.av1Short k ++ Hang.av1Extra k) "av01.0.08M.08".toList = false := by
      simp [Hang.fits, Hang.av1Short, Hang.av1Extra]
    refine ⟨.av1 { profile := 0, level := 8, tier := 'M', bitdepth := 8 }, ?_⟩
    have : Hang.AV1.parse k "av01.0.08M.08".toList = .ok { profile := 0, level := 8, tier := 'M', bitdepth := 8 } := by
      unfold Hang.AV1.parse
      dsimp only
      rw [hf, hl]
      rfl
    show Hang.Parsed.of Hang.VideoCodec.av1 (Hang.AV1.parse k "av01.0.08M.08".toList) = _
    rw [this]
    rfl
  · exact ⟨_, rfl⟩
  · exact ⟨_, rfl⟩
  · exact ⟨_, rfl⟩
  · exact ⟨_, rfl⟩

/-! ## Examples -/

/-- Floats whose texts are exact. -/
def exact : Floats := ⟨id, .fin, id⟩

/-- Keys that the schema does not know. -/
def noMore : VideoConfig → List (String × Json) := fun _ => [("width", .int 640), ("latencyMode", .str "realtime")]

theorem noMore_other : Other noMore := by
  intro c k hk
  have : ∀ k ∈ videoKeys, lookup k (noMore c) = none := by
    simp only [videoKeys, List.mem_cons, List.not_mem_nil, or_false, forall_eq_or_imp, forall_eq, noMore, lookup_cons,
      String.reduceEq, if_false, lookup_nil, and_self]
  exact this k hk

/-- A Rust catalog with a frame rate. -/
def rust (rate : Num) : Hang.CatalogJson.Catalog :=
  { video := [⟨⟨"video", 2⟩, {
      codec := .vp8, description := some [1, 0xab], codedWidth := some 640, codedHeight := none,
      displayRatioWidth := none, displayRatioHeight := none, bitrate := some 5000000, framerate := some rate,
      optimizeForLatency := some true, rotation := none, flip := none }⟩],
    audio := [⟨⟨"audio", 1⟩, ⟨.opus, 48000, 2, none, none⟩⟩],
    location := some ⟨some ⟨.fin (1 / 2), .fin 0, .fin 2⟩, some ⟨"location", 3⟩, [(7, ⟨"peer", 4⟩)], none⟩ }

/-- The same in a browser. -/
def root (rate : Num) (scale : Option Num) : Root :=
  { video := some [⟨⟨"video", .fin 2⟩, {
      codec := "vp8", description := some "01ab", codedWidth := some (.fin 640),
      codedHeight := none, displayRatioWidth := none, displayRatioHeight := none, framerate := some rate,
      bitrate := some (.fin 5000000), optimizeForLatency := some true, rotation := none, flip := none }⟩],
    audio := some [⟨⟨"audio", .fin 1⟩, ⟨"opus", none, .fin 48000, .fin 2, none⟩⟩],
    location := some ⟨some ⟨some (.fin (1 / 2)), some (.fin 0), none, scale⟩, some ⟨"location", .fin 3⟩, none,
      some [("7", ⟨"peer", .fin 4⟩)]⟩,
    user := none, chat := none, capabilities := none }

/-- The browser sees what Rust wrote, but not the zoom. -/
example : Js.Catalog.read (Hang.CatalogJson.write exact (rust (.fin 30))) = some (root (.fin 30) none) := by decide +kernel

example : Js.Catalog.read (Hang.CatalogJson.write exact (rust (.fin (2997 / 100)))) = none := by decide +kernel

example : Js.Catalog.read (write noMore (root (.fin 30) (some (.fin 3)))) = some (root (.fin 30) (some (.fin 3))) := by
  decide +kernel

example : Js.Catalog.read (write noMore (root (.fin (2997 / 100)) none)) = none := by decide +kernel

/-- Rust sees what the browser wrote, but not the scale. -/
example : Hang.CatalogJson.read exact Props.Codec.ascii (write noMore (root (.fin (2997 / 100)) (some (.fin 3)))) =
    some { rust (.fin (2997 / 100)) with
      location := some ⟨some ⟨.fin (1 / 2), .fin 0, .fin 1⟩, some ⟨"location", 3⟩, [(7, ⟨"peer", 4⟩)], none⟩ } := by
  decide +kernel

example : Hang.CatalogJson.read exact Props.Codec.ascii (Hang.CatalogJson.write exact (rust (.fin 30))) =
    some (rust (.fin 30)) := by decide +kernel

/-- Not a number gets lost. -/
example : Hang.CatalogJson.read exact Props.Codec.ascii (Hang.CatalogJson.write exact (rust .nan)) ≠ some (rust .nan) := by
  decide +kernel

/-- Without an initial position. -/
example : Js.Catalog.read (Hang.CatalogJson.write exact
    ⟨[], [], some ⟨none, some ⟨"location", 3⟩, [], none⟩⟩) = none := by decide +kernel

/-- A bitrate of 2^32. -/
example : Js.Catalog.read (Hang.CatalogJson.write exact
    ⟨[], [⟨⟨"audio", 1⟩, ⟨.opus, 48000, 2, some 4294967296, none⟩⟩], none⟩) = none := by decide +kernel

/-- A priority of 256, and a peer by name. -/
example : Hang.CatalogJson.read exact Props.Codec.ascii (write noMore { root (.fin 30) none with
    video := some [⟨⟨"video", .fin 256⟩, {
      codec := "vp8", description := none, codedWidth := none, codedHeight := none,
      displayRatioWidth := none, displayRatioHeight := none, framerate := none, bitrate := none,
      optimizeForLatency := none, rotation := none, flip := none }⟩] }) = none := by decide +kernel

example : Hang.CatalogJson.read exact Props.Codec.ascii (write noMore { root (.fin 30) none with
    location := some ⟨none, none, none, some [("alice", ⟨"peer", .fin 4⟩)]⟩ }) = none := by decide +kernel

/-- The hypotheses about rates hold. -/
example : SmallRates (root (.fin 30) none) := by
  constructor
  · intro v hv
    simp only [root, Option.getD_some, List.mem_singleton] at hv
    subst hv
    rintro q ⟨⟩ -
    decide
  · intro v hv
    simp only [root, Option.getD_some, List.mem_singleton] at hv
    subst hv
    rintro q ⟨⟩

example : description (some "01ab") = some [1, 0xab] := by decide +kernel

example : Hang.VideoCodec.parse Props.Codec.ascii "avc1.4D401F".toList = .ok (.h264 ⟨0x4d, 0x40, 0x1f⟩) := by
  decide +kernel

end Verif.Props.CatalogJson
